import Verif.Sim.Cca
import Mathlib.Tactic.FieldSimp
import Mathlib.Tactic.Linarith
import Mathlib.Tactic.Positivity
import Mathlib.Tactic.NormNum
import Mathlib.Tactic.FinCases
import Mathlib.Algebra.BigOperators.Field
/-! # C222: the canonical correlation simulator -/
namespace Verif.Sim
open Matrix
variable {p q k : ℕ}

/-- **C222.** The scaled eigenvectors whiten the correlation matrix. -/
theorem C222_whiten (S : Matrix (Fin p) (Fin p) ℝ) (e : Fin p → ℝ) (U : Matrix (Fin p) (Fin p) ℝ)
    (h : EighSpec S e U) (he : ∀ i, 0 < e i) :
    (whitenCols e U)ᵀ * S * whitenCols e U = 1 := by
  have hw : whitenCols e U = U * diagonal fun j => Real.sqrt (1 / e j) := by
    ext i j
    rw [Matrix.mul_diagonal]
    rfl
  rw [hw, Matrix.transpose_mul, diagonal_transpose]
  have e1 : diagonal (fun j => Real.sqrt (1 / e j)) * Uᵀ * S * (U * diagonal fun j => Real.sqrt (1 / e j)) =
      diagonal (fun j => Real.sqrt (1 / e j)) * (Uᵀ * (S * U)) * diagonal (fun j => Real.sqrt (1 / e j)) := by
    simp only [Matrix.mul_assoc]
  rw [e1, h.eig, ← Matrix.mul_assoc Uᵀ, h.ortho, Matrix.one_mul, diagonal_mul_diagonal,
    diagonal_mul_diagonal, ← diagonal_one]
  congr 1
  funext j
  have h0 : (0 : ℝ) ≤ 1 / e j := (one_div_pos.2 (he j)).le
  rw [mul_right_comm, Real.mul_self_sqrt h0, one_div, inv_mul_cancel₀ (he j).ne']

theorem isUnit_of_whiten (A S : Matrix (Fin p) (Fin p) ℝ) (h : Aᵀ * S * A = 1) : IsUnit A.det := by
  have := congrArg det h
  rw [det_mul, det_one] at this
  exact IsUnit.of_mul_eq_one_right _ this

/-- **C222.** The canonical covariance of the model is the requested `rho` and zero elsewhere. -/
theorem C222_cross (h : p ≤ q) (A : Matrix (Fin p) (Fin p) ℝ) (B : Matrix (Fin q) (Fin q) ℝ)
    (rho : Fin p → ℝ) (hA : IsUnit A.det) (hB : IsUnit B.det) (i : Fin p) (j : Fin q) :
    (Aᵀ * sxyRho h A B rho * B) i j = if (i : ℕ) = j then rho i else 0 := by
  unfold sxyRho
  have hA' : IsUnit Aᵀ.det := by rwa [det_transpose]
  have e : Aᵀ * ((Aᵀ)⁻¹ * diagonal rho * topRows h B⁻¹) * B = diagonal rho * (topRows h B⁻¹ * B) := by
    rw [Matrix.mul_assoc (Aᵀ)⁻¹, ← Matrix.mul_assoc Aᵀ, Matrix.mul_nonsing_inv _ hA', Matrix.one_mul,
      Matrix.mul_assoc]
  rw [e, Matrix.diagonal_mul]
  have e2 : (topRows h B⁻¹ * B) i j = (B⁻¹ * B) (Fin.castLE h i) j := rfl
  rw [e2, Matrix.nonsing_inv_mul _ hB, Matrix.one_apply]
  by_cases hij : (i : ℕ) = j
  · rw [if_pos hij, if_pos (Fin.ext (by simpa using hij)), mul_one]
  · rw [if_neg hij, if_neg (fun hc => hij (by simpa using congrArg Fin.val hc)), mul_zero]

theorem form_change {m n : ℕ} (A : Matrix (Fin m) (Fin m) ℝ) (B : Matrix (Fin n) (Fin n) ℝ)
    (S : Matrix (Fin m) (Fin n) ℝ) (u : Fin m → ℝ) (v : Fin n → ℝ) :
    (A *ᵥ u) ⬝ᵥ S *ᵥ (B *ᵥ v) = u ⬝ᵥ (Aᵀ * S * B) *ᵥ v := by
  rw [← Matrix.mulVec_mulVec, ← Matrix.mulVec_mulVec, Matrix.mulVec_transpose, dotProduct_comm u,
    ← Matrix.dotProduct_mulVec, dotProduct_comm]

/-- **C222.** For correlations of size at most one the joint matrix is positive semidefinite. -/
theorem C222_psd (h : p ≤ q) (Sxx A : Matrix (Fin p) (Fin p) ℝ) (Syy B : Matrix (Fin q) (Fin q) ℝ)
    (rho : Fin p → ℝ) (hA : Aᵀ * Sxx * A = 1) (hB : Bᵀ * Syy * B = 1) (hr : ∀ i, |rho i| ≤ 1)
    (x : Fin p → ℝ) (y : Fin q → ℝ) : 0 ≤ blockForm Sxx Syy (sxyRho h A B rho) x y := by
  have uA := isUnit_of_whiten A Sxx hA
  have uB := isUnit_of_whiten B Syy hB
  obtain ⟨u, rfl⟩ : ∃ u, x = A *ᵥ u :=
    ⟨A⁻¹ *ᵥ x, by rw [Matrix.mulVec_mulVec, Matrix.mul_nonsing_inv _ uA, Matrix.one_mulVec]⟩
  obtain ⟨v, rfl⟩ : ∃ v, y = B *ᵥ v :=
    ⟨B⁻¹ *ᵥ y, by rw [Matrix.mulVec_mulVec, Matrix.mul_nonsing_inv _ uB, Matrix.one_mulVec]⟩
  unfold blockForm
  have hs : (B *ᵥ v) ⬝ᵥ (sxyRho h A B rho)ᵀ *ᵥ (A *ᵥ u) = (A *ᵥ u) ⬝ᵥ (sxyRho h A B rho) *ᵥ (B *ᵥ v) := by
    rw [Matrix.mulVec_transpose, dotProduct_comm, ← Matrix.dotProduct_mulVec]
  rw [hs, form_change A A, form_change B B, form_change A B, hA, hB, Matrix.one_mulVec,
    Matrix.one_mulVec]
  have hc : u ⬝ᵥ (Aᵀ * sxyRho h A B rho * B) *ᵥ v = ∑ i, rho i * (u i * v (Fin.castLE h i)) := by
    unfold dotProduct mulVec dotProduct
    refine Finset.sum_congr rfl fun i _ => ?_
    have : ∑ j, (Aᵀ * sxyRho h A B rho * B) i j * v j = rho i * v (Fin.castLE h i) := by
      rw [Finset.sum_eq_single (Fin.castLE h i)]
      · rw [C222_cross h A B rho uA uB, if_pos (by simp)]
      · intro j _ hj
        rw [C222_cross h A B rho uA uB, if_neg, zero_mul]
        exact fun hc => hj (Fin.ext (by simpa using hc.symm))
      · simp
    rw [this]
    ring
  rw [hc]
  have hv : ∑ i, v (Fin.castLE h i) ^ 2 ≤ v ⬝ᵥ v := by
    have e : v ⬝ᵥ v = ∑ j, v j ^ 2 := Finset.sum_congr rfl fun j _ => by ring
    rw [e]
    have := Finset.sum_map Finset.univ (Fin.castLEEmb h) (fun j => v j ^ 2)
    have e3 : ∑ i, v (Fin.castLE h i) ^ 2 =
        ∑ j ∈ Finset.univ.map (Fin.castLEEmb h), v j ^ 2 := by
      rw [this]
      rfl
    rw [e3]
    exact Finset.sum_le_sum_of_subset_of_nonneg (Finset.subset_univ _) fun j _ _ => sq_nonneg _
  have hu : u ⬝ᵥ u = ∑ i, u i ^ 2 := Finset.sum_congr rfl fun j _ => by ring
  have key : 0 ≤ ∑ i, (u i ^ 2 + 2 * (rho i * (u i * v (Fin.castLE h i))) + v (Fin.castLE h i) ^ 2) := by
    refine Finset.sum_nonneg fun i _ => ?_
    obtain ⟨h1, h2⟩ := abs_le.1 (hr i)
    generalize u i = a
    generalize v (Fin.castLE h i) = b
    nlinarith [sq_nonneg (a + b), sq_nonneg (a - b), mul_nonneg (by linarith : 0 ≤ 1 + rho i) (sq_nonneg (a + b)),
      mul_nonneg (by linarith : 0 ≤ 1 - rho i) (sq_nonneg (a - b))]
  rw [Finset.sum_add_distrib, Finset.sum_add_distrib, ← Finset.mul_sum] at key
  rw [hu]
  linarith

/-- **C222.** Normalised coefficients give variates of unit variance. -/
theorem C222_unit (X : Matrix (Fin p) (Fin k) ℝ) (S : Matrix (Fin p) (Fin p) ℝ) (j : Fin k)
    (h : 0 < ∑ a, ∑ b, X a j * S a b * X b j) : ((normCorr X S)ᵀ * S * normCorr X S) j j = 1 := by
  set w := ∑ a, ∑ b, X a j * S a b * X b j with hw
  have e : ((normCorr X S)ᵀ * S * normCorr X S) j j = w / (Real.sqrt w * Real.sqrt w) := by
    rw [Matrix.mul_apply]
    simp only [Matrix.mul_apply, Matrix.transpose_apply, normCorr, Finset.sum_mul]
    rw [Finset.sum_comm, ← hw]
    conv_rhs => rw [hw, Finset.sum_div]
    refine Finset.sum_congr rfl fun a _ => ?_
    rw [Finset.sum_div]
    refine Finset.sum_congr rfl fun b _ => ?_
    rw [← hw, div_mul_eq_mul_div, div_mul_div_comm]
  rw [e, Real.mul_self_sqrt h.le, div_self h.ne']

/-- **C222.** With `S`-orthogonal coefficients the canonical covariance is `rho`. -/
theorem C222_coefs_partial (Sxx : Matrix (Fin p) (Fin p) ℝ) (Syy : Matrix (Fin q) (Fin q) ℝ)
    (X : Matrix (Fin p) (Fin k) ℝ) (Y : Matrix (Fin q) (Fin k) ℝ) (rho : Fin k → ℝ)
    (hX : (normCorr X Sxx)ᵀ * Sxx * normCorr X Sxx = 1)
    (hY : (normCorr Y Syy)ᵀ * Syy * normCorr Y Syy = 1) :
    (normCorr X Sxx)ᵀ * sxyCoefs Sxx Syy X Y rho * normCorr Y Syy = diagonal rho := by
  unfold sxyCoefs
  have e : (normCorr X Sxx)ᵀ * (Sxx * (normCorr X Sxx * diagonal rho * (normCorr Y Syy)ᵀ) * Syy) *
      normCorr Y Syy = ((normCorr X Sxx)ᵀ * Sxx * normCorr X Sxx) * diagonal rho *
        ((normCorr Y Syy)ᵀ * Syy * normCorr Y Syy) := by
    simp only [Matrix.mul_assoc]
  rw [e, hX, hY, Matrix.one_mul, Matrix.mul_one]

/-- Coefficients of two unit, but not orthogonal, columns. -/
noncomputable def obl : Matrix (Fin 2) (Fin 2) ℝ := !![1, 3 / 5; 0, 4 / 5]

theorem obl00 : obl 0 0 = 1 := rfl
theorem obl01 : obl 0 1 = 3 / 5 := rfl
theorem obl10 : obl 1 0 = 0 := rfl
theorem obl11 : obl 1 1 = 4 / 5 := rfl

theorem normCorr_obl : normCorr obl (1 : Matrix (Fin 2) (Fin 2) ℝ) = obl := by
  ext i j
  have h0 : ∑ a, ∑ b, obl a 0 * (1 : Matrix (Fin 2) (Fin 2) ℝ) a b * obl b 0 = 1 := by
    simp [Fin.sum_univ_two, obl, Matrix.one_apply]
  have h1 : ∑ a, ∑ b, obl a 1 * (1 : Matrix (Fin 2) (Fin 2) ℝ) a b * obl b 1 = 1 := by
    simp [Fin.sum_univ_two, obl, Matrix.one_apply]
    norm_num
  unfold normCorr
  fin_cases j
  · show _ / Real.sqrt (∑ a, ∑ b, obl a 0 * (1 : Matrix (Fin 2) (Fin 2) ℝ) a b * obl b 0) = _
    rw [h0, Real.sqrt_one, div_one]
  · show _ / Real.sqrt (∑ a, ∑ b, obl a 1 * (1 : Matrix (Fin 2) (Fin 2) ℝ) a b * obl b 1) = _
    rw [h1, Real.sqrt_one, div_one]

/-- Without orthogonality the canonical covariance is not `rho`, and the joint matrix need not even be
positive semidefinite. -/
theorem C222_coefs_violated :
    (∀ j : Fin 2, (oblᵀ * (1 : Matrix (Fin 2) (Fin 2) ℝ) * obl) j j = 1) ∧
    ((normCorr obl 1)ᵀ * (sxyCoefs 1 1 obl obl fun _ => 9 / 10 : Matrix (Fin 2) (Fin 2) ℝ) *
      normCorr obl 1 : Matrix (Fin 2) (Fin 2) ℝ) 0 1 ≠ 0 ∧
    blockForm (1 : Matrix (Fin 2) (Fin 2) ℝ) (1 : Matrix (Fin 2) (Fin 2) ℝ)
      (sxyCoefs 1 1 obl obl fun _ => 9 / 10) ![2, 1] ![-2, -1] < 0 := by
  refine ⟨fun j => ?_, ?_, ?_⟩
  · have h0 := C222_unit obl (1 : Matrix (Fin 2) (Fin 2) ℝ) j (by
      fin_cases j <;> simp [Fin.sum_univ_two, obl, Matrix.one_apply] <;> norm_num)
    rwa [normCorr_obl] at h0
  · unfold sxyCoefs
    rw [normCorr_obl]
    simp [Matrix.mul_apply, Fin.sum_univ_two, Matrix.transpose_apply, Matrix.mul_diagonal, Matrix.one_apply,
      obl00, obl01, obl10, obl11]
    norm_num
  · unfold blockForm sxyCoefs
    rw [normCorr_obl]
    simp [Matrix.mulVec, dotProduct, Matrix.mul_apply, Fin.sum_univ_two, Matrix.transpose_apply,
      Matrix.mul_diagonal, Matrix.one_apply, obl00, obl01, obl10, obl11]
    norm_num

example : ∃ (S U : Matrix (Fin 2) (Fin 2) ℝ) (e : Fin 2 → ℝ), EighSpec S e U ∧ ∀ i, 0 < e i :=
  ⟨1, 1, fun _ => 1, ⟨by simp, by simp⟩, fun _ => one_pos⟩

end Verif.Sim
