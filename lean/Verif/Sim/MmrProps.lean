import Verif.Sim.Mmr
import Verif.Sim.LinearProps
import Verif.Mv.MvolsProps
import Mathlib.Tactic

/-!
C259: the data of the multivariate regression simulator have the moments, shares of variance and parameters it reports.
-/

namespace Verif.Sim
open Finset Matrix

variable {n p q r : ℕ}

/-- **C259** With the intercept row the signal is the intercept plus the product with the slopes. -/
theorem C259_signal (X : Matrix (Fin n) (Fin p) ℝ) (a : Fin q → ℝ) (B : Matrix (Fin p) (Fin q) ℝ) (i : Fin n) (j : Fin q) :
    mmrSignal X a B i j = a j + (X * B) i j := by
  simp [mmrSignal, mmrDesign, mmrCoef, Matrix.mul_apply, Fin.sum_univ_succ]
  rfl

theorem mmrVar_eq (M : Matrix (Fin n) (Fin q) ℝ) : mmrVar M = (∑ j, ∑ i, (M i j - (∑ l, M l j) / n) ^ 2) / n := by
  simp [mmrVar, Matrix.trace, Matrix.mul_apply, sq]

/-- **C259** The variance of the signal does not depend on the intercept. -/
theorem C259_intercept (hn : n ≠ 0) (X : Matrix (Fin n) (Fin p) ℝ) (a : Fin q → ℝ) (B : Matrix (Fin p) (Fin q) ℝ) :
    mmrVar (mmrSignal X a B) = mmrVar (X * B) := by
  have hn' : (n : ℝ) ≠ 0 := Nat.cast_ne_zero.2 hn
  rw [mmrVar_eq, mmrVar_eq]
  congr 1
  refine Finset.sum_congr rfl fun j _ => Finset.sum_congr rfl fun i _ => ?_
  congr 1
  simp only [C259_signal, Finset.sum_add_distrib, Finset.sum_const, card_univ, Fintype.card_fin, nsmul_eq_mul]
  field_simp; ring

theorem mmrVar_nonneg (M : Matrix (Fin n) (Fin q) ℝ) : 0 ≤ mmrVar M := by
  rw [mmrVar_eq]
  exact div_nonneg (Finset.sum_nonneg fun j _ => Finset.sum_nonneg fun i _ => sq_nonneg _) (Nat.cast_nonneg n)

/-- **C259** The scaled residual covariance leaves the signal the target share of the total variance, and is a positive multiple of the base. -/
theorem C259_share (M : Matrix (Fin n) (Fin q) ℝ) (base : Matrix (Fin q) (Fin q) ℝ) (t : ℝ) (hM : 0 < mmrVar M) (hb : 0 < trace base) (h0 : 0 < t)
    (h1 : t < 1) : mmrVar M / (mmrVar M + trace (mmrSigma M base t)) = t ∧ 0 < targetScale (mmrVar M) (trace base) t := by
  constructor
  · rw [mmrSigma, Matrix.trace_smul, smul_eq_mul]
    exact C221_target _ _ t hM hb h0 h1
  · rw [targetScale, if_neg (by push Not; exact ⟨hM, h0, h1⟩)]
    exact div_pos (mul_pos hM (by linarith)) (mul_pos h0 hb)

/-- **C259** For the autoregressive base the residual covariance is positive definite, so that it has the factor and the inverse the simulator takes. -/
theorem C259_posdef (hq : 0 < q) (M : Matrix (Fin n) (Fin q) ℝ) (rho t : ℝ) (hr : |rho| < 1) (hM : 0 < mmrVar M) (h0 : 0 < t) (h1 : t < 1) :
    (mmrSigma M (robustCov q rho) t).PosDef ∧ mmrVar M / (mmrVar M + trace (mmrSigma M (robustCov q rho) t)) = t := by
  have hc := C221_cov q rho hr
  have ht : trace (robustCov q rho) = q := by
    simp [Matrix.trace, hc.1]
  have hp : 0 < trace (robustCov q rho) := by rw [ht]; exact_mod_cast hq
  have hs := C259_share M (robustCov q rho) t hM hp h0 h1
  exact ⟨hc.2.smul hs.2, hs.1⟩

/-- **C259** Variates with the identity as their second moment are turned into rows with the covariance of the factor. -/
theorem C259_moments (Z : Matrix (Fin n) (Fin p) ℝ) (L S : Matrix (Fin p) (Fin p) ℝ) (hL : L * Lᵀ = S) (c : ℝ) (hZ : Zᵀ * Z = c • (1 : Matrix (Fin p) (Fin p) ℝ)) :
    (mmrColour Z L)ᵀ * mmrColour Z L = c • S := by
  rw [mmrColour, Matrix.transpose_mul, Matrix.transpose_transpose]
  calc L * Zᵀ * (Z * Lᵀ) = L * (Zᵀ * Z) * Lᵀ := by simp only [Matrix.mul_assoc]
    _ = c • S := by rw [hZ]; simp [hL]

/-- **C259** The divisor of the t variates is their standard deviation, whose square is `df / (df - 2)`: after it the variance is one. -/
theorem C259_t (df : ℝ) (h : 2 < df) : df / (df - 2) / mmrTScale df ^ 2 = 1 := by
  have : 0 < df / (df - 2) := div_pos (by linarith) (by linarith)
  rw [mmrTScale, Real.sq_sqrt this.le, div_self this.ne']

/-- **C259** The response less the signal is the coloured noise. -/
theorem C259_response (M G : Matrix (Fin n) (Fin q) ℝ) (C : Matrix (Fin q) (Fin q) ℝ) : mmrY M G C - M = mmrColour G C := by
  rw [mmrY, add_sub_cancel_left]

/-- **C259** The vector of true parameters unpacks, in the model of C149, to the coefficients and to a factor of the inverse of the residual covariance. -/
theorem C259_theta (B : Matrix (Fin p) (Fin q) ℝ) (L S : Matrix (Fin q) (Fin q) ℝ) (h0 : ∀ i j, i < j → L i j = 0) (h1 : ∀ i, 0 < L i i)
    (hL : L * Lᵀ = S⁻¹) : Verif.Mv.Mvols.beta (mmrTheta B L) = B ∧
      Verif.Mv.Mvols.pchol (mmrTheta B L) * (Verif.Mv.Mvols.pchol (mmrTheta B L))ᵀ = S⁻¹ := by
  have := Verif.Mv.Mvols.C149_unpack_pack B h0 h1
  exact ⟨this.1, by rw [mmrTheta, this.2, hL]⟩

/-- **C259** The part of low rank has at most the rank asked for. -/
theorem C259_rank (U : Matrix (Fin p) (Fin r) ℝ) (D : Fin r → ℝ) (V : Matrix (Fin q) (Fin r) ℝ) : (mmrLow U D V).rank ≤ r := by
  unfold mmrLow
  refine (Matrix.rank_mul_le_left _ _).trans ?_
  simpa using Matrix.rank_le_card_width (of fun i k => U i k * D k : Matrix (Fin p) (Fin r) ℝ)

/-- **C259** Each entry of the low rank part is the weighted product of its factors. -/
theorem C259_low (U : Matrix (Fin p) (Fin r) ℝ) (D : Fin r → ℝ) (V : Matrix (Fin q) (Fin r) ℝ) (i : Fin p) (j : Fin q) :
    mmrLow U D V i j = ∑ k, U i k * D k * V j k := by
  simp [mmrLow, Matrix.mul_apply]

/-- **C259 (violated)** `sparsity` is the share of coefficients that are kept: raising it never removes one, at one all are kept and at zero all are
removed. -/
theorem C259_sparsity_violated (W T : Matrix (Fin p) (Fin q) ℝ) (hT : ∀ i j, 0 ≤ T i j ∧ T i j < 1) :
    (∀ s s' i j, s ≤ s' → mmrSparse W T s i j ≠ 0 → mmrSparse W T s' i j ≠ 0) ∧ mmrSparse W T 1 = W ∧ mmrSparse W T 0 = 0 := by
  refine ⟨fun s s' i j h hne => ?_, ?_, ?_⟩
  · simp only [mmrSparse, Matrix.of_apply] at hne ⊢
    have h1 : T i j < s := by
      by_contra hh
      rw [if_neg hh, mul_zero] at hne
      exact hne rfl
    rw [if_pos h1] at hne
    rwa [if_pos (h1.trans_le h)]
  · ext i j
    simp [mmrSparse, (hT i j).2]
  · ext i j
    simp [mmrSparse, not_lt.2 (hT i j).1]

/-- **C259** The three kinds of slopes: sums of the parts. -/
theorem C259_kinds (U : Matrix (Fin p) (Fin r) ℝ) (D : Fin r → ℝ) (V : Matrix (Fin q) (Fin r) ℝ) (W T : Matrix (Fin p) (Fin q) ℝ) (s : ℝ)
    (i : Fin p) (j : Fin q) :
    mmrSlope .lowRankPlusSparse U D V W T s i j = (∑ k, U i k * D k * V j k) + (if T i j < s then W i j else 0) ∧
      mmrSlope .sparse U D V W T s i j = (if T i j < s then W i j else 0) ∧ mmrSlope .dense U D V W T s i j = W i j := by
  have e : mmrSparse W T s i j = if T i j < s then W i j else 0 := by simp [mmrSparse]
  refine ⟨?_, e, rfl⟩
  rw [← e, ← C259_low]; rfl

/-- **C259 (violated)** A signal without variance keeps the base: the share is zero, not the target. -/
theorem C259_flat_violated (M : Matrix (Fin n) (Fin q) ℝ) (base : Matrix (Fin q) (Fin q) ℝ) (t : ℝ) (hM : mmrVar M = 0) :
    mmrSigma M base t = base ∧ mmrVar M / (mmrVar M + trace (mmrSigma M base t)) = 0 := by
  refine ⟨?_, by rw [hM, zero_div]⟩
  rw [mmrSigma, targetScale, if_pos (Or.inl hM.le), one_smul]

/-- The hypotheses are satisfiable: two observations of one response. -/
example : 0 < mmrVar (!![0; 2] : Matrix (Fin 2) (Fin 1) ℝ) ∧ 0 < trace (1 : Matrix (Fin 1) (Fin 1) ℝ) := by
  rw [mmrVar_eq]
  constructor
  · norm_num [Fin.sum_univ_two]
  · simp

end Verif.Sim
