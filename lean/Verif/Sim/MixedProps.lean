import Verif.Sim.Mixed
import Mathlib.Algebra.BigOperators.Field
import Mathlib.Analysis.Real.Sqrt
import Mathlib.LinearAlgebra.Matrix.IsDiag
import Mathlib.Tactic

/-!
# C231, C232: simulated mixed models have the variance shares and the groupings asked for
-/

namespace Verif.Sim

open Matrix

variable {n q : ℕ}

/-! ## Specification -/

/-- Mean over the observations of the variance of the random part, when the random effects have covariance `G`. -/
noncomputable def meanRandVar (Z : Matrix (Fin n) (Fin q) ℝ) (G : Matrix (Fin q) (Fin q) ℝ) : ℝ := (Z * G * Zᵀ).trace / n

/-- The shares of the three parts of the variance. -/
def HasShares (vfe vre vrs rfe rre : ℝ) : Prop :=
  vfe = rfe * (vfe + vre + vrs) ∧ vre = rre * (vfe + vre + vrs) ∧ vrs = (1 - rfe - rre) * (vfe + vre + vrs)

/-! ## C231 -/

theorem meanRandVar_smul (Z : Matrix (Fin n) (Fin q) ℝ) (G : Matrix (Fin q) (Fin q) ℝ) (c : ℝ) :
    meanRandVar Z (c • G) = c * meanRandVar Z G := by
  simp only [meanRandVar, Matrix.mul_smul, Matrix.smul_mul, trace_smul, smul_eq_mul, mul_div_assoc]

/-- **C231** the random part of `variance_components` is the mean variance of the random part. -/
theorem C231_components (Z : Matrix (Fin n) (Fin q) ℝ) (G : Matrix (Fin q) (Fin q) ℝ) :
    reVarNew Z G = meanRandVar Z G := by
  unfold reVarNew meanRandVar
  congr 1
  simp only [trace, diag_apply, Matrix.mul_apply (M := Z * G), transpose_apply]
  exact Finset.sum_congr rfl fun i _ => Finset.sum_congr rfl fun j _ => mul_comm _ _

theorem shares_aux {vfe vre rfe rre : ℝ} (hv : vre ≠ 0) (hf : rfe ≠ 0) (ht : rfe + rre ≠ 0) :
    HasShares vfe (scaleC vfe vre rfe rre * vre) ((1.0 - (rfe + rre)) / (rfe + rre) * (vfe + vre * scaleC vfe vre rfe rre)) rfe rre := by
  have e : scaleC vfe vre rfe rre * vre = vfe * rre / rfe := by rw [scaleC]; field_simp
  have e2 : vfe + vre * scaleC vfe vre rfe rre = vfe * (rfe + rre) / rfe := by
    rw [mul_comm vre, e]; field_simp
  rw [HasShares, e, e2]
  have e3 : (1.0 - (rfe + rre)) / (rfe + rre) * (vfe * (rfe + rre) / rfe) = (1 - rfe - rre) * vfe / rfe := by
    norm_num1; field_simp; ring
  rw [e3]
  refine ⟨?_, ?_, ?_⟩ <;> field_simp <;> ring

/-- **C231** `rescale_to_var_ratios` gives exactly the shares asked for. -/
theorem C231_new_shares (Z : Matrix (Fin n) (Fin q) ℝ) (G : Matrix (Fin q) (Fin q) ℝ) (eta : Fin n → ℝ) {rfe rre : ℝ}
    (hf : 0 < rfe) (hr : 0 ≤ rre) {G' : Matrix (Fin q) (Fin q) ℝ} {v : ℝ} (h : rescaleNew Z G eta rfe rre = some (G', v)) :
    HasShares (npVar eta) (meanRandVar Z G') v rfe rre := by
  unfold rescaleNew at h
  by_cases h1 : rfe + rre ≥ 1.0
  · rw [if_pos h1] at h; cases h
  rw [if_neg h1] at h
  by_cases h2 : reVarNew Z G ≤ 0
  · simp only [if_pos h2] at h; cases h
  simp only [if_neg h2, Option.some.injEq, Prod.mk.injEq] at h
  rw [← h.1, ← h.2, meanRandVar_smul, ← C231_components]
  exact shares_aux (by linarith [not_le.1 h2]) hf.ne' (by linarith)

/-- **C231** it raises exactly when no room is left for the residuals or the random part has no variance. -/
theorem C231_new_raises (Z : Matrix (Fin n) (Fin q) ℝ) (G : Matrix (Fin q) (Fin q) ℝ) (eta : Fin n → ℝ) (rfe rre : ℝ) :
    rescaleNew Z G eta rfe rre = none ↔ 1 ≤ rfe + rre ∨ meanRandVar Z G ≤ 0 := by
  unfold rescaleNew
  rw [C231_components]
  by_cases h1 : rfe + rre ≥ 1.0
  · rw [if_pos h1]; exact ⟨fun _ => Or.inl (by norm_num1 at h1; exact h1), fun _ => rfl⟩
  rw [if_neg h1]
  by_cases h2 : meanRandVar Z G ≤ 0
  · simp only [if_pos h2, true_iff]; exact Or.inr h2
  simp only [if_neg h2, reduceCtorEq, false_iff, not_or]
  exact ⟨fun h => h1 (by norm_num1; exact h), h2⟩

/-- **C231** a requested share of zero for the fixed effects divides by zero: the covariances are lost. -/
theorem C231_zero_share_violated : ∃ (Z : Matrix (Fin 2) (Fin 1) ℝ) (G : Matrix (Fin 1) (Fin 1) ℝ) (eta : Fin 2 → ℝ),
    ∃ r, rescaleNew Z G eta 0 (1 / 2) = some r ∧ 0 < meanRandVar Z G ∧ ¬HasShares (npVar eta) (meanRandVar Z r.1) r.2 0 (1 / 2) ∧ meanRandVar Z r.1 = 0 := by
  have hm : meanRandVar (Matrix.of fun _ _ => 1 : Matrix (Fin 2) (Fin 1) ℝ) 1 = 1 := by
    rw [← C231_components, reVarNew]; simp [Matrix.mul_one]
  refine ⟨Matrix.of fun _ _ => 1, 1, ![1, -1], (0 • (1 : Matrix (Fin 1) (Fin 1) ℝ), 1), ?_, ?_, ?_, ?_⟩
  · unfold rescaleNew
    rw [if_neg (by norm_num), C231_components, hm]
    simp only [if_neg (by norm_num : ¬(1 : ℝ) ≤ 0), scaleC]
    congr 2
    · simp
    · simp [npVar, Fin.sum_univ_two]; norm_num
  · rw [hm]; norm_num
  · rintro ⟨h, -, -⟩
    rw [zero_mul] at h
    norm_num [npVar, Fin.sum_univ_two] at h
  · simp [meanRandVar]

theorem reVarOld_smul (Z : Matrix (Fin n) (Fin q) ℝ) (G : Matrix (Fin q) (Fin q) ℝ) (c : ℝ) :
    reVarOld Z (c • G) = c * reVarOld Z G := by
  simp only [reVarOld, Matrix.smul_apply, smul_eq_mul, ← mul_div_assoc, Finset.mul_sum]
  congr 1
  exact Finset.sum_congr rfl fun i _ => Finset.sum_congr rfl fun j _ => by ring

/-- The older components are right when the random effects are uncorrelated … -/
theorem C231_old_components_partial (Z : Matrix (Fin n) (Fin q) ℝ) {G : Matrix (Fin q) (Fin q) ℝ} (hG : G.IsDiag) :
    reVarOld Z G = meanRandVar Z G := by
  rw [← C231_components, reVarOld, reVarNew]
  congr 1
  refine Finset.sum_congr rfl fun i _ => Finset.sum_congr rfl fun j _ => ?_
  rw [Matrix.mul_apply, Finset.sum_eq_single j (fun k _ hk => by rw [hG hk, mul_zero]) (fun h => (h (Finset.mem_univ j)).elim)]
  ring

/-- … and the fixed part has mean zero. -/
theorem C231_old_fixed_partial (eta : Fin n → ℝ) (h : ∑ i, eta i = 0) : feVarOld eta = npVar eta := by
  simp only [feVarOld, npVar, h, zero_div, sub_zero, sq]

/-- In general it is the variance plus the squared mean. -/
theorem C231_old_fixed (eta : Fin n → ℝ) (hn : 0 < n) : feVarOld eta = npVar eta + ((∑ i, eta i) / n) ^ 2 := by
  have h0 : (n : ℝ) ≠ 0 := by exact_mod_cast hn.ne'
  set m := (∑ i, eta i) / n with hm
  have hs : ∑ i, eta i = n * m := by rw [hm]; field_simp
  have : ∑ i, (eta i - m) ^ 2 = ∑ i, eta i * eta i - n * m ^ 2 := by
    have : ∀ i, (eta i - m) ^ 2 = eta i * eta i - 2 * m * eta i + m ^ 2 := fun i => by ring
    simp only [this, Finset.sum_add_distrib, Finset.sum_sub_distrib, ← Finset.mul_sum, hs, Finset.sum_const, Finset.card_univ,
      Fintype.card_fin, nsmul_eq_mul]
    ring
  rw [feVarOld, npVar, ← hm, this]
  field_simp; ring

/-- **C231** shares of the older simulator, in its own measures. -/
theorem C231_old_shares (Z : Matrix (Fin n) (Fin q) ℝ) (G : Matrix (Fin q) (Fin q) ℝ) (eta : Fin n → ℝ) {rfe rre : ℝ}
    (hf : 0 < rfe) (hr : 0 ≤ rre) (hv : reVarOld Z G ≠ 0) :
    HasShares (feVarOld eta) (reVarOld Z (rescaleOld Z G eta rfe rre).1) (rescaleOld Z G eta rfe rre).2 rfe rre := by
  have := shares_aux (vfe := feVarOld eta) (rre := rre) hv hf.ne' (by linarith)
  simp only [rescaleOld, reVarOld_smul]
  rw [add_comm rre rfe, add_comm (scaleC _ _ _ _ * _), mul_comm (scaleC _ _ _ _) (reVarOld Z G)] at *
  exact this

/-- **C231** so the shares are those asked for with uncorrelated random effects and a centred fixed part. -/
theorem C231_old_shares_partial (Z : Matrix (Fin n) (Fin q) ℝ) {G : Matrix (Fin q) (Fin q) ℝ} (hG : G.IsDiag) {eta : Fin n → ℝ}
    (he : ∑ i, eta i = 0) {rfe rre : ℝ} (hf : 0 < rfe) (hr : 0 ≤ rre) (hv : meanRandVar Z G ≠ 0) :
    HasShares (npVar eta) (meanRandVar Z (rescaleOld Z G eta rfe rre).1) (rescaleOld Z G eta rfe rre).2 rfe rre := by
  have hd : (rescaleOld Z G eta rfe rre).1.IsDiag := by
    intro i j hij; simp only [rescaleOld, Matrix.smul_apply, hG hij, smul_zero]
  rw [← C231_old_fixed_partial eta he, ← C231_old_components_partial Z hd]
  exact C231_old_shares Z G eta hf hr (by rwa [C231_old_components_partial Z hG])

/-- **C231** an intercept in the fixed part counts as variance: the shares are then not those asked for. -/
theorem C231_old_centre_violated : ∃ (Z : Matrix (Fin 2) (Fin 1) ℝ) (G : Matrix (Fin 1) (Fin 1) ℝ) (eta : Fin 2 → ℝ), G.IsDiag ∧
    ¬HasShares (npVar eta) (meanRandVar Z (rescaleOld Z G eta (1 / 2) (1 / 4)).1) (rescaleOld Z G eta (1 / 2) (1 / 4)).2 (1 / 2) (1 / 4) := by
  refine ⟨Matrix.of fun _ _ => 1, 1, ![0, 2], by intro i j hij; exact (hij (Subsingleton.elim i j)).elim, ?_⟩
  have hd : (rescaleOld (Matrix.of fun _ _ => 1 : Matrix (Fin 2) (Fin 1) ℝ) 1 ![0, 2] (1 / 2) (1 / 4)).1.IsDiag := by
    intro i j hij; exact (hij (Subsingleton.elim i j)).elim
  rw [← C231_old_components_partial _ hd]
  rintro ⟨-, h, -⟩
  simp only [rescaleOld, reVarOld_smul] at h
  norm_num [reVarOld, feVarOld, npVar, scaleC, Fin.sum_univ_two] at h

/-- **C231** covariances between random effects are ignored: an intercept and a slope with covariance. -/
theorem C231_old_covariance_violated : ∃ (Z : Matrix (Fin 2) (Fin 2) ℝ) (G : Matrix (Fin 2) (Fin 2) ℝ) (eta : Fin 2 → ℝ), G.IsSymm ∧
    ∑ i, eta i = 0 ∧ 0 < meanRandVar Z G ∧
    ¬HasShares (npVar eta) (meanRandVar Z (rescaleOld Z G eta (1 / 2) (1 / 4)).1) (rescaleOld Z G eta (1 / 2) (1 / 4)).2 (1 / 2) (1 / 4) := by
  refine ⟨!![1, 1; 1, 1], !![1, 1 / 2; 1 / 2, 1], ![1, -1], ?_, by simp, ?_, ?_⟩
  · ext i j; fin_cases i <;> fin_cases j <;> rfl
  · rw [← C231_components, reVarNew]; norm_num [Fin.sum_univ_two, Matrix.mul_apply]
  · rintro ⟨-, h, -⟩
    simp only [rescaleOld, reVarOld_smul, meanRandVar_smul] at h
    rw [← C231_components] at h
    norm_num [reVarOld, reVarNew, feVarOld, npVar, scaleC, Fin.sum_univ_two, Matrix.mul_apply] at h

/-- **C231** with ratios given and no explicit scale the residual variance used is the one in `theta_true`. -/
theorem C231_resid_partial (rsq : Option ℝ) (v veta : ℝ) : residVarUsed rsq none (some v) veta = thetaResid (some v) := rfl

/-- **C231** without ratios `theta_true` says one, whatever residual variance is used. -/
theorem C231_resid_violated (veta : ℝ) (h : veta ≠ 16 / 9) : residVarUsed none none none veta ≠ thetaResid none := by
  intro e
  norm_num [residVarUsed, thetaResid] at e
  exact h (by linarith)

/-- The share of the linear predictor is `rsq` in that branch. -/
theorem C231_rsq {r veta : ℝ} (hr : r ≠ 0) : veta = r * (veta + residVarUsed (some r) none none veta) := by
  simp only [residVarUsed, Option.getD_some]; field_simp; ring

/-- **C231** the blocks agree with the columns of `Z` when the set is run through in the order of the terms; the newer file always does. -/
theorem C231_order_partial {α : Type} (blocks : ℕ → List α) (k : ℕ) : ranefsOld blocks (List.range k) = ranefsNew blocks k := rfl

/-- One grouping has only one order. -/
theorem C231_order_one {α : Type} (blocks : ℕ → List α) {o : List ℕ} (h : o.Perm (List.range 1)) : ranefsOld blocks o = ranefsNew blocks 1 := by
  rw [List.perm_singleton.1 (h.trans (by rfl : (List.range 1).Perm [0]))]; rfl

/-- **C231** the order of a set of strings is arbitrary: with the blocks of two groupings exchanged, an effect drawn for one of them
multiplies a column of the other. -/
theorem C231_order_violated {α : Type} (a b : List α) (h : a ++ b ≠ b ++ a) : ∃ o : List ℕ, o.Perm (List.range 2) ∧
    ranefsOld (fun i => if i = 0 then a else b) o ≠ ranefsNew (fun i => if i = 0 then a else b) 2 := by
  refine ⟨[1, 0], by decide, ?_⟩
  simp [ranefsOld, ranefsNew, List.range_succ]
  exact fun e => h e.symm

example : ([1] : List ℕ) ++ [2, 3] ≠ [2, 3] ++ [1] := by decide

/-- **C231** the cross products fit the mixed model equations for a column of responses … -/
theorem C231_update_partial (p q : ℕ) : vstackShape true p q = some (p + q, 1) := rfl

/-- … and never for the plain vector which `simulate_response` returns, but for one fixed and one random effect. -/
theorem C231_update_violated {p q : ℕ} (hp : p ≠ 1 ∨ q ≠ 1) : vstackShape false p q ≠ some (p + q, 1) := by
  rw [vstackShape]
  simp only [Bool.false_eq_true, if_false]
  split_ifs with h
  · intro e; simp only [Option.some.injEq, Prod.mk.injEq] at e; omega
  · simp

/-! ## C231: drawing the covariates again -/

/-- `rescaled` builds a new simulator, which draws the covariates again; a fixed part linear in covariates of the same mean and
covariance keeps its variance … here for one covariate. -/
theorem C231_redraw_partial (x x' : Fin n → ℝ) (hv : npVar x = npVar x') (b0 b1 : ℝ) (hn : 0 < n) :
    npVar (fun i => b0 + b1 * x i) = npVar (fun i => b0 + b1 * x' i) := by
  have h0 : (n : ℝ) ≠ 0 := by exact_mod_cast hn.ne'
  have key : ∀ z : Fin n → ℝ, npVar (fun i => b0 + b1 * z i) = b1 ^ 2 * npVar z := by
    intro z
    simp only [npVar, Finset.sum_add_distrib, ← Finset.mul_sum, Finset.sum_const, Finset.card_univ, Fintype.card_fin, nsmul_eq_mul]
    rw [← mul_div_assoc, Finset.mul_sum (f := fun i => (z i - (∑ k, z k) / n) ^ 2)]
    congr 1
    refine Finset.sum_congr rfl fun i _ => ?_
    field_simp; ring
  rw [key, key, hv]

/-- **C231** … a square does not: the shares of the new simulator are then not those asked for. -/
theorem C231_redraw_violated : ∃ x x' : Fin 4 → ℝ, (∑ i, x i = ∑ i, x' i) ∧ npVar x = npVar x' ∧
    ∀ G : Matrix (Fin 1) (Fin 1) ℝ, 0 < G 0 0 → ∀ r, rescaleNew (Matrix.of fun _ _ => 1) G (fun i => x i ^ 2) (1 / 2) (1 / 4) = some r →
      ¬HasShares (npVar fun i => x' i ^ 2) (meanRandVar (Matrix.of fun _ _ => 1 : Matrix (Fin 4) (Fin 1) ℝ) r.1) r.2 (1 / 2) (1 / 4) := by
  have s2 : Real.sqrt 2 * Real.sqrt 2 = 2 := Real.mul_self_sqrt (by norm_num)
  refine ⟨![-Real.sqrt 2, 0, 0, Real.sqrt 2], ![-1, -1, 1, 1], ?_, ?_, ?_⟩
  · simp [Fin.sum_univ_four]
  · simp [npVar, Fin.sum_univ_four]; norm_num
  · intro G hG r hr hs
    have h1 := C231_new_shares _ _ _ (by norm_num) (by norm_num) hr
    have v1 : npVar (fun i => (![-Real.sqrt 2, 0, 0, Real.sqrt 2] : Fin 4 → ℝ) i ^ 2) = 1 := by
      simp [npVar, Fin.sum_univ_four]; norm_num
    have v2 : npVar (fun i => (![-1, -1, 1, 1] : Fin 4 → ℝ) i ^ 2) = 0 := by
      simp [npVar, Fin.sum_univ_four]; norm_num
    rw [HasShares, v1] at h1
    rw [HasShares, v2] at hs
    linarith [h1.1, hs.1]

end Verif.Sim
