import Verif.Gam.GaulsRemlProps
import Mathlib.Analysis.Matrix.Order
import Mathlib.Algebra.Order.BigOperators.Group.List

namespace Verif.Gam.Gauls
open Matrix Verif.Calc

variable {n p q s r : ℕ} {g : Ls n p q s r}

/-! ### Covariances and effective degrees of freedom -/

open scoped MatrixOrder in
theorem trace_nonneg {ι : Type*} [Fintype ι] [DecidableEq ι] {A B : Matrix ι ι ℝ} (hA : A.PosSemidef) (hB : B.PosSemidef) : 0 ≤ (A * B).trace := by
  obtain ⟨C, hC⟩ := CStarAlgebra.nonneg_iff_eq_star_mul_self.mp hB.nonneg
  rw [hC, Matrix.star_eq_conjTranspose, ← Matrix.mul_assoc, Matrix.trace_mul_comm, ← Matrix.mul_assoc]
  exact (hA.mul_mul_conjTranspose_same C).trace_nonneg

/-- **C158** `Vb` inverts the penalised Hessian, `Vs` is the sampling covariance of the penalised estimator, and when the Hessian of the
likelihood is positive semidefinite the effective degrees of freedom lie between zero and the number of coefficients. -/
theorem C158_edf {b : Cf p q → ℝ} {lam : Fin s ⊕ Fin r → ℝ} (hH : (g.hess b).PosSemidef) (hS : (g.pen lam).PosSemidef) (hu : (g.hess b + g.pen lam).PosDef) :
    ∃ Vb Vs F edf, g.post b lam = some (Vb, Vs, F, edf) ∧ Vb * (g.hess b + g.pen lam) = 1 ∧ Vs = Vb * g.hess b * Vbᵀ ∧ F + Vb * g.pen lam = 1 ∧
      (Vb - Vs).PosSemidef ∧ 0 ≤ edf ∧ edf ≤ p + q := by
  have hdet : IsUnit (g.hess b + g.pen lam).det := hu.det_pos.ne'.isUnit
  have hA := hu.inv
  obtain ⟨A, hAe⟩ : ∃ A, A = (g.hess b + g.pen lam)⁻¹ := ⟨_, rfl⟩
  have hA' : A.PosSemidef := hAe ▸ hA.posSemidef
  have hAT : Aᵀ = A := by
    have := hA'.1
    rwa [Matrix.IsHermitian, Matrix.conjTranspose_eq_transpose_of_trivial] at this
  have h1 : A * (g.hess b + g.pen lam) = 1 := hAe ▸ Matrix.nonsing_inv_mul _ hdet
  have hF : A * g.hess b + A * g.pen lam = 1 := by rw [← Matrix.mul_add, h1]
  refine ⟨A, A * g.hess b * A, A * g.hess b, (A * g.hess b).trace, ?_, h1, by rw [hAT], hF, ?_, trace_nonneg hA' hH, ?_⟩
  · simp only [Ls.post, inv?_some hdet, Option.bind_eq_bind, Option.bind_some, ← hAe]
    rfl
  · have e : A - A * g.hess b * A = A * g.pen lam * Aᵀ := by
      have : A * g.hess b = 1 - A * g.pen lam := eq_sub_of_add_eq hF
      rw [this, hAT, Matrix.sub_mul, Matrix.one_mul, sub_sub_cancel]
    rw [e]
    have := hS.mul_mul_conjTranspose_same A
    rwa [Matrix.conjTranspose_eq_transpose_of_trivial] at this
  · have h2 := congrArg Matrix.trace hF
    rw [Matrix.trace_add, Matrix.trace_one] at h2
    have h3 := trace_nonneg hA' hS
    simp only [Fintype.card_sum, Fintype.card_fin, Nat.cast_add] at h2
    linarith

/-- **C158** The test statistic of a smooth is the Wald statistic of its coefficients, whatever the design. -/
theorem C158_wald {k : ℕ} {R Vb : Matrix (Fin k) (Fin k) ℝ} (hR : IsUnit R.det) (hV : IsUnit Vb.det) (b : Fin k → ℝ) :
    wald R Vb b = some (b ⬝ᵥ (Vb⁻¹ *ᵥ b)) := by
  have h1 : IsUnit (R * Vb * Rᵀ).det := by
    rw [Matrix.det_mul, Matrix.det_mul, Matrix.det_transpose]
    exact (hR.mul hV).mul hR
  have hRt : IsUnit Rᵀ.det := by rwa [Matrix.det_transpose]
  simp only [wald, inv?_some h1, Option.map_some]
  congr 1
  rw [Matrix.mul_inv_rev, Matrix.mul_inv_rev, ← Matrix.mulVec_mulVec, ← Matrix.mulVec_mulVec, Matrix.mulVec_mulVec _ R⁻¹, Matrix.nonsing_inv_mul _ hR, Matrix.one_mulVec,
    Matrix.dotProduct_mulVec, ← Matrix.mulVec_transpose, Matrix.mulVec_mulVec, Matrix.transpose_nonsing_inv, Matrix.transpose_transpose, Matrix.nonsing_inv_mul _ hR, Matrix.one_mulVec]

/-! ### The table -/

/-- **C158** Violated: the p-values of the table are those of one tail, never above a half. -/
theorem C158_pvalue_violated {sf : ℝ → ℝ} (ha : Antitone sf) (h0 : sf 0 = 1 / 2) (b se : ℝ) : pval sf b se ≤ 1 / 2 := by
  rw [pval, ← h0]; exact ha (abs_nonneg _)

/-- **C158** Differences of `aic` are those of twice the negative log likelihood and twice the effective degrees of freedom. -/
theorem C158_aic_partial (l l' e e' : ℝ) : aic l e - aic l' e' = 2 * (l - l') + 2 * (e - e') := by
  simp only [aic]; ring

/-- **C158** Violated: it charges two for a scale parameter that the model does not have. -/
theorem C158_aic_violated (l e : ℝ) : aic l e = 2 * l + 2 * e + 2 := by
  simp only [aic]; ring

/-- **C158** With the identity link `rsquared` is one exactly for a perfect fit of a response that varies. -/
theorem C158_rsquared_partial (b : Cf p q → ℝ) (h0 : ∑ k, (g.y k - (∑ k, g.y k) / n) ^ 2 ≠ 0) : g.rsquared b = 1 ↔ ∀ k, g.y k = g.etam b k := by
  unfold Ls.rsquared
  dsimp only
  rw [sub_eq_self, div_eq_zero_iff, or_iff_left h0, Finset.sum_eq_zero_iff_of_nonneg fun k _ => sq_nonneg _]
  simp [sub_eq_zero]

/-- **C158** The deviance is twice the gap between the likelihood of the fit and that of its scales at a perfect mean, for a model without
weights. -/
theorem C158_deviance_partial (hw : g.w = none) (b : Cf p q → ℝ) :
    g.deviance b = 2 * (g.loglike b + ∑ k, lik (g.y k) (g.y k) (g.ls.inv (g.etas b k))) := by
  unfold Ls.deviance Ls.loglike Ls.wt
  rw [hw, neg_add_eq_sub, ← Finset.sum_sub_distrib, Finset.mul_sum]
  refine Finset.sum_congr rfl fun k _ => ?_
  simp only [lik]
  ring

/-- **C158** Violated: the deviance does not see the weights. -/
theorem C158_deviance_violated (g : Ls n p q s r) (w : Option (Fin n → ℝ)) (b : Cf p q → ℝ) : ({ g with w := w } : Ls n p q s r).deviance b = g.deviance b := rfl

/-- A log link for the mean. -/
noncomputable def logLink : Lnk := ⟨Real.log, Real.exp, Real.exp, fun m => -1 / m ^ 2, fun m => 2 / m ^ 3, fun m => -6 / m ^ 4⟩

/-- Two observations fitted exactly under a log link. -/
noncomputable def perfect : Ls 2 2 0 0 0 where
  lm := logLink
  ls := logb 0
  Xm := 1
  Xs := 0
  y := ![1, Real.exp 1]
  w := none
  Sm := fun i => i.elim0
  Ss := fun i => i.elim0
  rm := fun i => i.elim0
  rs := fun i => i.elim0
  ldm := fun i => i.elim0
  lds := fun i => i.elim0

/-- **C158** Violated: with another link `rsquared` compares the response with the linear predictor, so a perfect fit, with no deviance,
does not have an `rsquared` of one. -/
theorem C158_rsquared_violated : perfect.deviance (Sum.elim ![0, 1] fun i => i.elim0) = 0 ∧ perfect.rsquared (Sum.elim ![0, 1] fun i => i.elim0) ≠ 1 := by
  have e : perfect.etam (Sum.elim ![0, 1] fun i => i.elim0) = ![0, 1] := by
    unfold Ls.etam
    simp only [perfect, Sum.elim_inl, Matrix.one_mulVec]
  have he : Real.exp 1 ≠ 1 := by
    have := Real.add_one_lt_exp (one_ne_zero (α := ℝ))
    linarith
  constructor
  · unfold Ls.deviance
    rw [e]
    simp [perfect, logLink, Fin.sum_univ_two]
  · rw [Ne, C158_rsquared_partial]
    · rw [e]
      intro h
      have := h 0
      simp [perfect] at this
    · simp only [perfect, Fin.sum_univ_two, Matrix.cons_val_zero, Matrix.cons_val_one]
      intro h
      have h1 : (1 - (1 + Real.exp 1) / (2 : ℕ)) ^ 2 = 0 := by
        have a1 := sq_nonneg (1 - (1 + Real.exp 1) / ((2 : ℕ) : ℝ))
        have a2 := sq_nonneg (Real.exp 1 - (1 + Real.exp 1) / ((2 : ℕ) : ℝ))
        linarith
      have h2 := pow_eq_zero_iff (two_ne_zero) |>.1 h1
      apply he
      push_cast at h2
      linarith

/-! ### Predictions -/

/-- **C158** Where both predictors have an intercept, `predict_component` adds each to the smooth of its own predictor. -/
theorem C158_predict_partial (lm ls : Lnk) (um us cm cs : ℝ) : predict lm ls um us (some cm) (some cs) = some (lm.inv (um + cm), 1 / ls.inv (us + cs)) := rfl

/-- **C158** Violated: the intercept of the scale is added or left out according to whether the location has one.  With one in the scale
only, it is left out; with one in the location only, the prediction fails. -/
theorem C158_predict_violated (lm : Lnk) (b um us : ℝ) {cs : ℝ} (h : cs ≠ 0) :
    (∃ v, predict lm (logb b) um us none (some cs) = some v ∧ v.2 ≠ 1 / (logb b).inv (us + cs)) ∧
    ∀ cm, predict lm (logb b) um us (some cm) none = none := by
  refine ⟨⟨_, rfl, ?_⟩, fun cm => rfl⟩
  simp only [logb, one_div_one_div]
  intro h1
  apply h
  have := Real.exp_injective (add_right_cancel h1)
  linarith

/-! ### Weights -/

/-- **C158** The weights are refused unless they are as many as the observations and none is negative. -/
theorem C158_weights_checked (w : List ℝ) (nm : Bool) {v : Option (List ℝ)} (h : weights n (some w) nm = some v) : w.length = n ∧ ∀ x ∈ w, 0 ≤ x := by
  unfold weights at h
  simp only at h
  split at h
  · simp at h
  · rename_i h1
    split at h
    · simp at h
    · rename_i h2
      push Not at h1 h2
      exact ⟨h1, h2⟩

/-- **C158** Normalised weights have mean one, stay non-negative, and do not change when all weights are multiplied by the same positive
number. -/
theorem C158_weights (w : List ℝ) (hn : w.length = n) (hw : ∀ x ∈ w, 0 ≤ x) (hs : w.sum ≠ 0) :
    ∃ v, weights n (some w) true = some (some v) ∧ v.sum = n ∧ v.length = n ∧ (∀ x ∈ v, 0 ≤ x) ∧
      ∀ c : ℝ, 0 < c → weights n (some (w.map (c * ·))) true = some (some v) := by
  have hs0 : 0 ≤ w.sum := List.sum_nonneg hw
  have hneg : ¬ ∃ x ∈ w, x < 0 := fun ⟨x, hx, h⟩ => absurd (hw x hx) (not_le.2 h)
  refine ⟨w.map fun x => x * (w.length / w.sum), ?_, ?_, ?_, ?_, ?_⟩
  · simp only [weights]
    rw [if_neg (by simpa using hn), if_neg hneg, if_pos trivial, if_neg hs]
  · rw [List.sum_map_mul_right, List.map_id', hn, mul_div_cancel₀ _ hs]
  · rw [List.length_map, hn]
  · intro x hx
    obtain ⟨z, hz, rfl⟩ := List.mem_map.1 hx
    exact mul_nonneg (hw z hz) (div_nonneg (Nat.cast_nonneg _) hs0)
  · intro c hc
    have e : (w.map (c * ·)).sum = c * w.sum := by rw [List.sum_map_mul_left, List.map_id']
    have hneg' : ¬ ∃ x ∈ w.map (c * ·), x < 0 := by
      rintro ⟨x, hx, h⟩
      obtain ⟨z, hz, rfl⟩ := List.mem_map.1 hx
      exact absurd (mul_nonneg hc.le (hw z hz)) (not_le.2 h)
    simp only [weights]
    rw [if_neg (by simpa using hn), if_neg hneg', if_pos trivial, if_neg (by rw [e]; exact mul_ne_zero hc.ne' hs), e, List.length_map, List.map_map]
    congr 3
    funext x
    simp only [Function.comp]
    field_simp

/-! ### The hypotheses can be met -/

/-- One observation with a location coefficient and a scale coefficient that does not move the scale. -/
noncomputable def one : Ls 1 1 1 1 1 where
  lm := identity
  ls := logb 0
  Xm := 1
  Xs := 0
  y := 0
  w := none
  Sm := fun _ => 1
  Ss := fun _ => 1
  rm := fun _ => 1
  rs := fun _ => 1
  ldm := fun _ => 0
  lds := fun _ => 0

theorem one_ok : one.Ok := ⟨⟨_, C156_identity⟩, ⟨_, C156_logb 0⟩, logb_pos 0⟩

example : Branch one 0 (fun _ => 1) (fun _ => 0) := by
  have hS : ∀ lam : Fin 1 ⊕ Fin 1 → ℝ, one.pen lam = fromBlocks (lam (.inl 0) • 1) 0 0 (lam (.inr 0) • 1) := fun lam => by
    simp [Ls.pen, Fintype.sum_sum_type, Ls.S, one, fromBlocks_smul, fromBlocks_add]
  refine ⟨one_ok, Filter.Eventually.of_forall fun t => ?_, continuousAt_const, ?_, ?_⟩
  · rw [Ls.gradP, Matrix.mulVec_zero, add_zero]
    funext i
    rcases i with i | i <;> simp [Ls.grad, Ls.D, etaD, toEta, muTau, one, identity, Ls.wt, Ls.etam, Matrix.mulVec, dotProduct]
  · have hh : one.hess 0 = fromBlocks (((logb 0).inv 0 ^ 2) • 1) 0 0 0 := by
      ext (i | i) (j | j)
      · fin_cases i; fin_cases j
        simp [Ls.hess, blocks_ll, wt_eq, Ls.wc, Ls.D, one, C156_location, Ls.etas]
      · simp [Ls.hess, blocks_lr, one]
      · simp [Ls.hess, blocks_rl, one]
      · simp [Ls.hess, blocks_rr, one]
    rw [hh, hS, fromBlocks_add, ← add_smul, zero_add, zero_add, det_fromBlocks_zero₂₁]
    have h1 : 0 < (logb 0).inv 0 ^ 2 + expv (0 : Fin 1 ⊕ Fin 1 → ℝ) (.inl 0) := add_pos (pow_pos (logb_pos 0 0) 2) (Real.exp_pos _)
    have h2 : 0 < expv (0 : Fin 1 ⊕ Fin 1 → ℝ) (.inr 0) := Real.exp_pos _
    simp [h1.ne', h2.ne']
  · rintro (i | i) <;> simp [Ls.S, one, fromBlocks_transpose]

end Verif.Gam.Gauls
