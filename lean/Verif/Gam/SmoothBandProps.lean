import Verif.Gam.SmoothBand
import Mathlib.Tactic

/-!
C263: bands of smooth components.
-/

namespace Verif.Gam
open Matrix

variable {m k p : ℕ}

/-- **C263** The two ways of computing the half width agree. -/
theorem C263_agree (X : Matrix (Fin m) (Fin k) ℝ) (V : Matrix (Fin p) (Fin p) ℝ) (ix : Fin k → Fin p) (z : ℝ) (i : Fin m) :
    bandGam X V ix z i = bandGauls X V ix z i := by
  simp only [bandGam, bandGauls, Matrix.mul_apply (M := X * V.submatrix ix ix), Matrix.transpose_apply]

theorem bandRow_dot (X : Matrix (Fin m) (Fin k) ℝ) (ix : Fin k → Fin p) (i : Fin m) (v : Fin p → ℝ) :
    bandRow X ix i ⬝ᵥ v = ∑ j, X i j * v (ix j) := by
  simp only [dotProduct, bandRow, Finset.sum_mul, ite_mul, zero_mul]
  rw [Finset.sum_comm]
  simp

/-- **C263** The value is the linear functional `bandRow` of the coefficients of the whole model, and the number under the root is its variance. -/
theorem C263_functional (X : Matrix (Fin m) (Fin k) ℝ) (beta : Fin p → ℝ) (V : Matrix (Fin p) (Fin p) ℝ) (ix : Fin k → Fin p) (z : ℝ) (i : Fin m) :
    bandFit X beta ix i = bandRow X ix i ⬝ᵥ beta ∧ bandGam X V ix z i = √(bandRow X ix i ⬝ᵥ (V *ᵥ bandRow X ix i)) * z := by
  constructor
  · rw [bandRow_dot]; rfl
  · rw [bandGam, bandRow_dot]
    congr 2
    simp only [Matrix.mulVec, Matrix.mul_apply, Matrix.submatrix_apply, Finset.sum_mul]
    rw [Finset.sum_comm]
    refine Finset.sum_congr rfl fun j _ => ?_
    rw [dotProduct_comm, bandRow_dot, Finset.mul_sum]
    exact Finset.sum_congr rfl fun l _ => by ring

/-- **C263** With a positive semidefinite covariance the squared half width is `z ^ 2` times the variance, and the half width is nonnegative. -/
theorem C263_width (X : Matrix (Fin m) (Fin k) ℝ) (V : Matrix (Fin p) (Fin p) ℝ) (hV : V.PosSemidef) (ix : Fin k → Fin p) (z : ℝ) (hz : 0 ≤ z) (i : Fin m) :
    bandGam X V ix z i ^ 2 = (bandRow X ix i ⬝ᵥ (V *ᵥ bandRow X ix i)) * z ^ 2 ∧ 0 ≤ bandGam X V ix z i := by
  have h0 : 0 ≤ bandRow X ix i ⬝ᵥ (V *ᵥ bandRow X ix i) := by simpa using hV.dotProduct_mulVec_nonneg (bandRow X ix i)
  rw [(C263_functional X 0 V ix z i).2]
  exact ⟨by rw [mul_pow, Real.sq_sqrt h0], mul_nonneg (Real.sqrt_nonneg _) hz⟩

/-- **C263** The quantile is the one of the level: a standard normal variable is within it with probability `ci` per cent. -/
theorem C263_level (cdf ppf : ℝ → ℝ) (hinv : ∀ u, 0 < u → u < 1 → cdf (ppf u) = u) (hsym : ∀ t, cdf (-t) = 1 - cdf t) (ci : ℝ) (h0 : 0 ≤ ci) (h1 : ci < 100) :
    cdf (bandZ ppf ci) - cdf (-bandZ ppf ci) = ci / 100 := by
  rw [hsym, bandZ, hinv _ (by linarith) (by linarith)]
  ring

/-- **C263** A higher level gives a wider band, at every point. -/
theorem C263_nested (ppf : ℝ → ℝ) (hmono : ∀ u v, 0 < u → u ≤ v → v < 1 → ppf u ≤ ppf v) (c1 c2 : ℝ) (h0 : 0 ≤ c1) (h12 : c1 ≤ c2) (h2 : c2 < 100)
    (X : Matrix (Fin m) (Fin k) ℝ) (beta : Fin p → ℝ) (V : Matrix (Fin p) (Fin p) ℝ) (ix : Fin k → Fin p) (i : Fin m) :
    (bandTable ppf c1 X beta V ix i).1 = (bandTable ppf c2 X beta V ix i).1 ∧ (bandTable ppf c1 X beta V ix i).2 ≤ (bandTable ppf c2 X beta V ix i).2 := by
  refine ⟨rfl, mul_le_mul_of_nonneg_left (hmono _ _ (by linarith) (by linarith) (by linarith)) (Real.sqrt_nonneg _)⟩

/-- **C263** The components of all smooths and the parametric part add up to the predictor of the model: `e` sorts the coefficients into parametric ones
and those of the smooths. -/
theorem C263_sum {q r : ℕ} {ks : Fin r → ℕ} (e : Fin q ⊕ ((s : Fin r) × Fin (ks s)) ≃ Fin p) (Xp : Matrix (Fin m) (Fin q) ℝ)
    (Xs : (s : Fin r) → Matrix (Fin m) (Fin (ks s)) ℝ) (X : Matrix (Fin m) (Fin p) ℝ) (hp : ∀ i a, X i (e (.inl a)) = Xp i a)
    (hs : ∀ i s j, X i (e (.inr ⟨s, j⟩)) = Xs s i j) (beta : Fin p → ℝ) (i : Fin m) :
    (X *ᵥ beta) i = bandFit Xp beta (fun a => e (.inl a)) i + ∑ s, bandFit (Xs s) beta (fun j => e (.inr ⟨s, j⟩)) i := by
  simp only [bandFit, Matrix.mulVec, dotProduct]
  rw [← Equiv.sum_comp e, Fintype.sum_sum_type, Fintype.sum_sigma]
  simp only [hp, hs]

/-- **C263 (violated)** The third column is not the standard error that the documentation promises, unless the quantile is one. -/
theorem C263_error_violated (ppf : ℝ → ℝ) (ci : ℝ) (hz : bandZ ppf ci ≠ 1) :
    (bandTable ppf ci (1 : Matrix (Fin 1) (Fin 1) ℝ) (fun _ => 0) (1 : Matrix (Fin 1) (Fin 1) ℝ) id 0).2 ≠
      √(bandRow (1 : Matrix (Fin 1) (Fin 1) ℝ) id 0 ⬝ᵥ ((1 : Matrix (Fin 1) (Fin 1) ℝ) *ᵥ bandRow (1 : Matrix (Fin 1) (Fin 1) ℝ) id 0)) := by
  simp only [bandTable, (C263_functional (1 : Matrix (Fin 1) (Fin 1) ℝ) (fun _ => 0) 1 id (bandZ ppf ci) 0).2]
  simpa [bandRow, dotProduct] using hz

/-- A model with one parametric coefficient and one smooth of two. -/
example : Nonempty (Fin 1 ⊕ ((s : Fin 1) × Fin ((fun _ => 2 : Fin 1 → ℕ) s)) ≃ Fin 3) := Fintype.card_eq.1 (by decide)

/-- The hypothesis of the refutation is satisfiable. -/
example : bandZ (fun u => u) 90 ≠ 1 := by norm_num [bandZ]

end Verif.Gam
