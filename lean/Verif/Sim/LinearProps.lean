import Verif.Sim.Linear
import Verif.Sim.FactorProps
import Verif.Sim.PopulationProps
import Mathlib.Tactic.FieldSimp
import Mathlib.Tactic.Linarith
import Mathlib.Tactic.Positivity
import Mathlib.Tactic.NormNum
/-! # C221: the linear model simulators -/
namespace Verif.Sim
open Finset

/-- **C221.** The residual scale makes the signal the requested share of the variance. -/
theorem C221_rsq (v rsq : ℝ) (hv : 0 < v) (h0 : 0 < rsq) (h1 : rsq ≤ 1) :
    v / (v + residScale v rsq ^ 2) = rsq := by
  unfold residScale
  have h : 0 ≤ (1 - rsq) / rsq * v := mul_nonneg (div_nonneg (by linarith) h0.le) hv.le
  rw [Real.sq_sqrt h]
  field_simp
  ring

example : (1 : ℝ) / (1 + residScale 1 (1 / 2) ^ 2) = 1 / 2 :=
  C221_rsq 1 (1 / 2) one_pos (by norm_num) (by norm_num)

theorem linpred_smul {n p : ℕ} (X : Matrix (Fin n) (Fin p) ℝ) (beta : Fin p → ℝ) (c : ℝ) (i : Fin n) :
    linpred X (fun j => c * beta j) i = c * linpred X beta i := by
  unfold linpred
  rw [Finset.mul_sum]
  exact Finset.sum_congr rfl fun j _ => by ring

theorem varPop_smul {n : ℕ} (x : Fin n → ℝ) (c : ℝ) :
    varPop (fun i => c * x i) = c ^ 2 * varPop x := by
  unfold varPop
  rw [← mul_div_assoc, Finset.mul_sum]
  congr 1
  refine Finset.sum_congr rfl fun i _ => ?_
  rw [← Finset.mul_sum]
  ring

/-- **C221.** The variance does not depend on the intercept, and is zero just for constants. -/
theorem C221_variance {n : ℕ} (hn : 0 < n) (x : Fin n → ℝ) :
    (∀ c, varPop (fun i => x i + c) = varPop x) ∧ (varPop x = 0 ↔ ∀ i j, x i = x j) := by
  have h0 : (n : ℝ) ≠ 0 := by exact_mod_cast hn.ne'
  constructor
  · intro c
    unfold varPop
    congr 1
    refine Finset.sum_congr rfl fun i _ => ?_
    rw [Finset.sum_add_distrib, Finset.sum_const, Finset.card_univ, Fintype.card_fin, nsmul_eq_mul]
    field_simp
    ring
  · unfold varPop
    rw [div_eq_zero_iff, or_iff_left h0, Finset.sum_eq_zero_iff_of_nonneg (fun i _ => sq_nonneg _)]
    constructor
    · intro h i j
      have hi := pow_eq_zero_iff (two_ne_zero) |>.1 (h i (Finset.mem_univ i))
      have hj := pow_eq_zero_iff (two_ne_zero) |>.1 (h j (Finset.mem_univ j))
      linarith
    · intro h i _
      have : ∑ j, x j = n * x i := by
        rw [Finset.sum_congr rfl fun j _ => h j i, Finset.sum_const, Finset.card_univ, Fintype.card_fin, nsmul_eq_mul]
      rw [this, mul_div_cancel_left₀ _ h0, sub_self]
      ring

/-- **C221.** After rescaling, the linear predictor has variance `s²`. -/
theorem C221_rescale {n p : ℕ} (X : Matrix (Fin n) (Fin p) ℝ) (beta : Fin p → ℝ) (s : ℝ)
    (hv : 0 < varPop (linpred X beta)) :
    varPop (linpred X (rescaleCoefs beta (varPop (linpred X beta)) s)) = s ^ 2 := by
  have e : linpred X (rescaleCoefs beta (varPop (linpred X beta)) s) =
      fun i => (s / Real.sqrt (varPop (linpred X beta))) * linpred X beta i := by
    funext i
    rw [← linpred_smul]
    congr 1
    funext j
    unfold rescaleCoefs
    ring
  rw [e, varPop_smul, div_pow, Real.sq_sqrt hv.le]
  field_simp

/-- **C221.** The scaled residual covariance gives the target share of the total variance. -/
theorem C221_target (vS vN t : ℝ) (hS : 0 < vS) (hN : 0 < vN) (h0 : 0 < t) (h1 : t < 1) :
    vS / (vS + targetScale vS vN t * vN) = t := by
  unfold targetScale
  rw [if_neg (by push Not; exact ⟨hS, h0, h1⟩)]
  field_simp
  ring

/-- Outside the open interval the target is ignored without an error. -/
theorem C221_target_violated : targetScale 1 1 1 = 1 ∧ (1 : ℝ) / (1 + targetScale 1 1 1 * 1) ≠ 1 := by
  constructor
  · simp [targetScale]
  · simp [targetScale]

/-- **C221.** The coefficients of a categorical term sum to zero. -/
theorem C221_cat (nVar : ℕ) (h : 1 < nVar) : ∑ i ∈ range nVar, coefCat nVar i = 0 := by
  have hn : 0 < nVar / 2 := Nat.div_pos h (by norm_num)
  have hs : nVar = nVar / 2 + (nVar - nVar / 2) := by omega
  have e : ∑ i ∈ range nVar, coefCat nVar i =
      ∑ i ∈ range (nVar / 2), coefCat nVar i +
        ∑ k ∈ range (nVar - nVar / 2), coefCat nVar (nVar / 2 + k) := by
    conv_lhs => rw [hs]
    rw [Finset.sum_range_add]
    simp only [← hs]
  rw [e]
  unfold coefCat
  simp only [if_pos h]
  generalize nVar - nVar / 2 = m
  generalize nVar / 2 = n at hn
  have hn' : (n : ℝ) ≠ 0 := by exact_mod_cast hn.ne'
  have e1 : ∀ (c : ℕ → ℝ) (t : ℝ), ∑ i ∈ range n, (if i < n then c i - t else c i) =
      ∑ i ∈ range n, c i - n * t := by
    intro c t
    rw [Finset.sum_congr rfl (fun i hi => if_pos (Finset.mem_range.1 hi)), Finset.sum_sub_distrib]
    simp
  have e2 : ∀ k, ¬ (n + k < n) := fun k => by omega
  rw [e1]
  simp only [e2, if_false]
  field_simp
  ring

/-- **C221.** The values of the non-zero coefficients alternate in sign. -/
theorem C221_vals (nnz i : ℕ) (h : i < nnz) : betaVals nnz i = (-1) ^ i := by
  have hp : ((-1 : ℝ)) ^ i = if i % 2 = 0 then 1 else -1 := by
    split_ifs with he
    · exact (Nat.even_iff.2 he).neg_one_pow
    · exact (Nat.odd_iff.2 (by omega)).neg_one_pow
  rw [hp]
  unfold betaVals
  dsimp only
  rcases Nat.mod_two_eq_zero_or_one nnz with h2 | h2
  · simp only [if_pos h2]
    split_ifs <;> first | rfl | omega
  · simp only [if_neg (show ¬ nnz % 2 = 0 by omega)]
    split_ifs <;> first | rfl | omega

/-- **C221.** The starts of the blocks are distinct and in range, so no value is overwritten. -/
theorem C221_positions (nVar nnz : ℕ) (hp : 0 < nnz) (hle : nnz ≤ nVar) :
    StrictMono (splitStart nVar nnz) ∧ ∀ j < nnz, splitStart nVar nnz j < nVar := by
  have hm : StrictMono (splitStart nVar nnz) :=
    strictMono_nat_of_lt_succ fun j => C219_nonempty nVar nnz j hp hle
  refine ⟨hm, fun j hj => ?_⟩
  rw [← splitStart_last nVar nnz hp]
  conv_lhs => rw [splitStart_last nVar nnz hp]
  exact hm hj

theorem sparseBeta_at (nVar nnz : ℕ) (vals : ℕ → ℝ) (hp : 0 < nnz) (hle : nnz ≤ nVar) (j : ℕ)
    (hj : j < nnz) : sparseBeta nVar nnz vals (splitStart nVar nnz j) = vals j := by
  have hm := (C221_positions nVar nnz hp hle).1
  unfold sparseBeta
  have : (List.range nnz).reverse.find? (fun k => splitStart nVar nnz k = splitStart nVar nnz j) =
      some j := by
    cases hc : (List.range nnz).reverse.find? (fun k => splitStart nVar nnz k = splitStart nVar nnz j) with
    | none =>
      have := List.find?_eq_none.1 hc j (by simpa using hj)
      simp at this
    | some k =>
      have := List.find?_some hc
      simp only [decide_eq_true_eq] at this
      rw [hm.injective this]
  rw [this]

/-- **C221.** Exactly the starts of the `n_nnz` blocks carry non-zero coefficients, of alternating sign. -/
theorem C221_sparse (nVar nnz : ℕ) (hp : 0 < nnz) (hle : nnz ≤ nVar) :
    (∀ j < nnz, sparseBeta nVar nnz (betaVals nnz) (splitStart nVar nnz j) = (-1) ^ j) ∧
    (∀ i, sparseBeta nVar nnz (betaVals nnz) i ≠ 0 → ∃ j < nnz, splitStart nVar nnz j = i) ∧
    ((range nVar).filter fun i => sparseBeta nVar nnz (betaVals nnz) i ≠ 0).card = nnz := by
  have h1 : ∀ j < nnz, sparseBeta nVar nnz (betaVals nnz) (splitStart nVar nnz j) = (-1) ^ j :=
    fun j hj => by rw [sparseBeta_at nVar nnz _ hp hle j hj, C221_vals nnz j hj]
  have h2 : ∀ i, sparseBeta nVar nnz (betaVals nnz) i ≠ 0 → ∃ j < nnz, splitStart nVar nnz j = i := by
    intro i hi
    unfold sparseBeta at hi
    cases hc : (List.range nnz).reverse.find? (fun j => splitStart nVar nnz j = i) with
    | none => rw [hc] at hi; exact absurd rfl hi
    | some j =>
      refine ⟨j, ?_, by simpa using List.find?_some hc⟩
      simpa using List.mem_of_find?_eq_some hc
  refine ⟨h1, h2, ?_⟩
  have e : (range nVar).filter (fun i => sparseBeta nVar nnz (betaVals nnz) i ≠ 0) =
      (range nnz).image (splitStart nVar nnz) := by
    ext i
    simp only [Finset.mem_filter, Finset.mem_range, Finset.mem_image]
    constructor
    · rintro ⟨_, hi⟩
      exact h2 i hi
    · rintro ⟨j, hj, rfl⟩
      refine ⟨(C221_positions nVar nnz hp hle).2 j hj, ?_⟩
      rw [h1 j hj]
      exact pow_ne_zero _ (by norm_num)
  rw [e, Finset.card_image_of_injective _ (C221_positions nVar nnz hp hle).1.injective,
    Finset.card_range]

example : ((range 5).filter fun i => sparseBeta 5 2 (betaVals 2) i ≠ 0).card = 2 :=
  (C221_sparse 5 2 (by norm_num) (by norm_num)).2.2

/-- **C221.** The autoregressive covariance of the predictors is positive definite with unit diagonal. -/
theorem C221_cov (n : ℕ) (rho : ℝ) (h : |rho| < 1) :
    (∀ i, robustCov n rho i i = 1) ∧ (robustCov n rho).PosDef := by
  have e : robustCov n rho = genCorr n (-rho) := by
    ext i j
    rw [genCorr_eq, neg_neg]
    rfl
  rw [e]
  exact C219_corr n (-rho) (by rwa [abs_neg])

/-- The sparse simulator ignores the requested correlation. -/
theorem C221_rho_violated : sparseCov (1 / 2) 0 1 = 99 / 100 ∧ sparseCov (1 / 2) 0 1 ≠ (1 / 2 : ℝ) ^ lag 0 1 := by
  constructor <;> simp [sparseCov, lag] <;> norm_num

/-- The mean of a binomial response is not the logistic function of the linear predictor. -/
theorem C221_binomial_violated (v : NNReal) (hv : v ≠ 0) (l off : ℝ) (h : 0 < l + off) :
    sparseBinomialMean v l off < sigmoid (l + off) := C220_binomial_violated v hv _ h

/-- Without residual noise it is. -/
theorem C221_binomial_partial (l off : ℝ) : sparseBinomialMean 0 l off = sigmoid (l + off) :=
  C220_binomial_partial _

/-- A generator passed by the caller is never used; without one there is none. -/
theorem C221_rng_violated {R : Type} [DecidableEq R] (fresh : R) :
    simRng none fresh = none ∧ ∀ g, simRng (some g) fresh = some fresh := by
  simp [simRng]

/-- The default of two levels is lost, and reading the levels of any categorical variable raises. -/
theorem C221_levels_violated (cats : List ℕ) (c : ℕ) : levelsOf none cats c = none := rfl

/-- With a dictionary of levels, missing entries default to two. -/
theorem C221_levels_partial (d : ℕ → Option ℕ) (cats : List ℕ) (c : ℕ) (hc : c ∈ cats) :
    levelsOf (some d) cats c = some ((d c).getD 2) := by
  unfold levelsOf nlevelsAfter
  cases h : d c <;> simp [h, hc]

/-- The intercept may take the only non-zero coefficient, and is then set to zero: no signal is left. -/
theorem C221_coefs_violated : nNnz 2 = 1 ∧ ∃ sel : List ℕ, sel.Nodup ∧ sel.length = nNnz 2 ∧
    (∀ i ∈ sel, i < 2) ∧ ∀ i, makeCoefs sel i = 0 := by
  refine ⟨rfl, [0], by simp, rfl, by simp, fun i => ?_⟩
  unfold makeCoefs
  split_ifs with h
  · rfl
  · have : List.idxOf? i [0] = none := by simpa using fun h' => h h'.symm
    rw [this]

/-- If a column other than the intercept is drawn, its coefficient is not zero. -/
theorem C221_coefs_partial (sel : List ℕ) (i : ℕ) (hi : i ≠ 0) (hs : i ∈ sel) :
    makeCoefs sel i = 1 ∨ makeCoefs sel i = -1 := by
  unfold makeCoefs
  rw [if_neg hi]
  cases h : sel.idxOf? i with
  | none => rw [List.idxOf?_eq_none_iff] at h; exact absurd hs h
  | some k => dsimp only; split_ifs <;> simp

end Verif.Sim
