import Verif.Calc.MatExp
import Mathlib.Analysis.Normed.Algebra.MatrixExponential
import Mathlib.Analysis.Analytic.Basic
import Mathlib.Analysis.Calculus.FDeriv.Analytic
import Mathlib.Analysis.Calculus.Deriv.Mul
import Mathlib.Analysis.Calculus.Deriv.Comp
import Mathlib.Analysis.Calculus.Deriv.Prod
import Mathlib.Analysis.SpecialFunctions.ExpDeriv
import Mathlib.Tactic

/-!
C270: the derivative of the matrix exponential.
-/

namespace Verif.Calc
open Matrix NormedSpace
open scoped Kronecker Matrix.Norms.Operator

variable {n : ℕ}

/-- Specification: the divided differences of the exponential. -/
noncomputable def divExp (a b : ℝ) : ℝ := if a = b then Real.exp a else (Real.exp a - Real.exp b) / (a - b)

/-- Specification: the derivative along `E` — divided differences in the basis of the eigenvectors. -/
noncomputable def dkForm (u : Fin n → ℝ) (V E : Matrix (Fin n) (Fin n) ℝ) : Matrix (Fin n) (Fin n) ℝ :=
  V * (Matrix.of fun i j => divExp (u i) (u j) * (Vᵀ * E * V) i j) * Vᵀ

/-- **C270** The matrix applied to the stacked rows of `E` gives the stacked rows of the specification. -/
theorem C270_apply (u : Fin n → ℝ) (hu : Function.Injective u) (V E : Matrix (Fin n) (Fin n) ℝ) :
    ∃ J, dmatExp u V = some J ∧ ∀ x, (J *ᵥ fun y => E y.1 y.2) x = dkForm u V E x.1 x.2 := by
  refine ⟨(V ⊗ₖ V) * diagonal (dmArr u) * (V ⊗ₖ V)ᵀ, ?_, fun x => ?_⟩
  · rw [dmatExp, if_neg]
    rintro ⟨i, j, hij, h⟩
    exact hij (hu h)
  · have ha : ∀ y : Fin n × Fin n, dmArr u y = divExp (u y.1) (u y.2) := fun y => by
      by_cases h : y.1 = y.2
      · simp [dmArr, divExp, h]
      · have : u y.1 ≠ u y.2 := fun e => h (hu e)
        simp [dmArr, divExp, h, this]
    have h1 : ∀ y : Fin n × Fin n, ((V ⊗ₖ V)ᵀ *ᵥ fun y => E y.1 y.2) y = (Vᵀ * E * V) y.1 y.2 := fun y => by
      simp only [mulVec, dotProduct, transpose_apply, kroneckerMap_apply, mul_apply, Fintype.sum_prod_type, Finset.sum_mul]
      rw [Finset.sum_comm]
      exact Finset.sum_congr rfl fun a _ => Finset.sum_congr rfl fun b _ => by ring
    rw [← mulVec_mulVec, ← mulVec_mulVec]
    have h2 : (diagonal (dmArr u) *ᵥ ((V ⊗ₖ V)ᵀ *ᵥ fun y => E y.1 y.2)) = fun y => divExp (u y.1) (u y.2) * (Vᵀ * E * V) y.1 y.2 := by
      funext y
      rw [mulVec_diagonal, h1, ha]
    rw [h2]
    simp only [dkForm, mulVec, dotProduct, kroneckerMap_apply, mul_apply, Fintype.sum_prod_type, Finset.sum_mul, transpose_apply, of_apply]
    rw [Finset.sum_comm]
    exact Finset.sum_congr rfl fun a _ => Finset.sum_congr rfl fun b _ => by ring

theorem exp_matrix_differentiable (A : Matrix (Fin n) (Fin n) ℝ) : DifferentiableAt ℝ (exp : Matrix (Fin n) (Fin n) ℝ → _) A :=
  (exp_analytic (𝕂 := ℝ) A).differentiableAt

theorem hasDerivAt_line (A E : Matrix (Fin n) (Fin n) ℝ) : HasDerivAt (fun t : ℝ => A + t • E) E 0 := by
  have h := (hasDerivAt_id (0 : ℝ)).smul_const E
  rw [one_smul] at h
  exact h.const_add A

theorem hasDerivAt_exp_line (A E : Matrix (Fin n) (Fin n) ℝ) :
    HasDerivAt (fun t : ℝ => exp (A + t • E)) (fderiv ℝ exp A E) 0 := by
  have h1 := hasDerivAt_line A E
  have h2 : HasFDerivAt (exp : Matrix (Fin n) (Fin n) ℝ → _) (fderiv ℝ exp A) (A + (0 : ℝ) • E) := by
    simpa using (exp_matrix_differentiable A).hasFDerivAt
  exact h2.comp_hasDerivAt 0 h1

/-- Differentiating that a matrix commutes with its exponential. -/
theorem exp_sylvester (A E : Matrix (Fin n) (Fin n) ℝ) :
    A * fderiv ℝ exp A E - fderiv ℝ exp A E * A = exp A * E - E * exp A := by
  have h1 := hasDerivAt_line A E
  have h2 := hasDerivAt_exp_line A E
  have ha := h1.mul h2
  have hb := h2.mul h1
  have hc : (fun t : ℝ => A + t • E) * (fun t : ℝ => exp (A + t • E)) = (fun t : ℝ => exp (A + t • E)) * fun t : ℝ => A + t • E := by
    funext t
    exact (Commute.refl (A + t • E)).exp_right
  rw [hc] at ha
  have := ha.unique hb
  simp only [zero_smul, add_zero] at this
  rw [sub_eq_sub_iff_add_eq_add, add_comm, this, add_comm]

theorem exp_diag (u : Fin n → ℝ) : exp (diagonal u) = diagonal fun i => Real.exp (u i) := by
  rw [Matrix.exp_diagonal]
  congr 1
  funext i
  rw [Pi.coe_exp, Real.exp_eq_exp_ℝ]

/-- The derivative along a position off the diagonal has a zero diagonal. -/
theorem fderiv_exp_off (u : Fin n → ℝ) (i j k : Fin n) (hij : i ≠ j) : fderiv ℝ exp (diagonal u) (single i j (1 : ℝ)) k k = 0 := by
  set E : Matrix (Fin n) (Fin n) ℝ := single i j 1 with hE
  set s : Fin n → ℝ := fun a => if a = i then -1 else 1 with hs
  have hss : ∀ a, s a * s a = 1 := fun a => by simp only [hs]; split_ifs <;> norm_num
  set S : Matrix (Fin n) (Fin n) ℝ := diagonal s with hS
  have hSS : S * S = 1 := by
    rw [hS, diagonal_mul_diagonal, ← diagonal_one]; congr 1; funext a; exact hss a
  have hinv : S⁻¹ = S := inv_eq_right_inv hSS
  have hunit : IsUnit S := ⟨⟨S, S, hSS, hSS⟩, rfl⟩
  have hD : S * diagonal u * S = diagonal u := by
    rw [hS, diagonal_mul_diagonal, diagonal_mul_diagonal]
    congr 1; funext a
    have := hss a
    linear_combination u a * this
  have hSE : S * E * S = -E := by
    ext a b
    rw [hS, mul_diagonal, diagonal_mul, hE, Matrix.neg_apply, single_apply]
    by_cases h : i = a ∧ j = b
    · obtain ⟨rfl, rfl⟩ := h
      simp [hs, Ne.symm hij]
    · simp [h]
  have h1 := hasDerivAt_exp_line (diagonal u) (-E)
  have h2 := ((hasDerivAt_exp_line (diagonal u) E).const_mul S).mul_const S
  have h3 : (fun t : ℝ => S * exp (diagonal u + t • E) * S) = fun t : ℝ => exp (diagonal u + t • -E) := by
    funext t
    have := Matrix.exp_conj S (diagonal u + t • E) hunit
    rw [hinv] at this
    rw [← this]
    congr 1
    rw [Matrix.mul_add, Matrix.add_mul, hD, Matrix.mul_smul, Matrix.smul_mul, hSE]
  rw [h3] at h2
  have h4 := h1.unique h2
  rw [map_neg] at h4
  have h5 := congrFun (congrFun h4 k) k
  rw [hS, mul_diagonal, diagonal_mul, Matrix.neg_apply] at h5
  have := hss k
  have h6 : s k * fderiv ℝ exp (diagonal u) E k k * s k = fderiv ℝ exp (diagonal u) E k k := by
    linear_combination fderiv ℝ exp (diagonal u) E k k * this
  linarith

/-- The derivative along a position on the diagonal. -/
theorem fderiv_exp_on (u : Fin n → ℝ) (i k : Fin n) :
    fderiv ℝ exp (diagonal u) (single i i (1 : ℝ)) k k = if i = k then Real.exp (u k) else 0 := by
  have h1 := hasDerivAt_exp_line (diagonal u) (single i i (1 : ℝ))
  have h2 : HasDerivAt (fun t : ℝ => exp (diagonal u + t • single i i (1 : ℝ)) k k) (fderiv ℝ exp (diagonal u) (single i i (1 : ℝ)) k k) 0 :=
    hasDerivAt_pi.1 (hasDerivAt_pi.1 h1 k) k
  have h3 : (fun t : ℝ => exp (diagonal u + t • single i i (1 : ℝ)) k k) = fun t => Real.exp (u k + t * if i = k then 1 else 0) := by
    funext t
    have e : diagonal u + t • single i i (1 : ℝ) = diagonal fun a => u a + t * if i = a then 1 else 0 := by
      ext a b
      rw [Matrix.add_apply, Matrix.smul_apply, single_apply, diagonal_apply, diagonal_apply]
      by_cases hab : a = b
      · subst hab; by_cases hia : i = a <;> simp [hia]
      · have : ¬ (i = a ∧ i = b) := fun h => hab (h.1.symm.trans h.2)
        simp [hab, this]
    rw [e, exp_diag, diagonal_apply_eq]
  rw [h3] at h2
  have h4 : HasDerivAt (fun t : ℝ => Real.exp (u k + t * if i = k then 1 else 0)) (Real.exp (u k + 0 * if i = k then 1 else 0) * (1 * if i = k then 1 else 0)) 0 :=
    (((hasDerivAt_id (0 : ℝ)).mul_const _).const_add (u k)).exp
  rw [h2.unique h4]
  split_ifs <;> simp

/-- The derivative of the exponential at a diagonal matrix with different entries. -/
theorem fderiv_exp_diagonal (u : Fin n → ℝ) (hu : Function.Injective u) (E : Matrix (Fin n) (Fin n) ℝ) (i j : Fin n) :
    fderiv ℝ exp (diagonal u) E i j = divExp (u i) (u j) * E i j := by
  by_cases hij : i = j
  · subst hij
    have e : fderiv ℝ exp (diagonal u) E = ∑ a, ∑ b, E a b • fderiv ℝ exp (diagonal u) (single a b (1 : ℝ)) := by
      conv_lhs => rw [matrix_eq_sum_single E]
      rw [map_sum]
      refine Finset.sum_congr rfl fun a _ => ?_
      rw [map_sum]
      refine Finset.sum_congr rfl fun b _ => ?_
      rw [← map_smul, smul_single, smul_eq_mul, mul_one]
    rw [e, Matrix.sum_apply, Finset.sum_eq_single i, Matrix.sum_apply, Finset.sum_eq_single i]
    · rw [Matrix.smul_apply, fderiv_exp_on, if_pos rfl, divExp, if_pos rfl, smul_eq_mul, mul_comm]
    · intro b _ hb
      rw [Matrix.smul_apply, fderiv_exp_off u i b i (Ne.symm hb), smul_zero]
    · simp
    · intro a _ ha
      rw [Matrix.sum_apply]
      refine Finset.sum_eq_zero fun b _ => ?_
      rw [Matrix.smul_apply]
      by_cases hab : a = b
      · subst hab; rw [fderiv_exp_on, if_neg ha, smul_zero]
      · rw [fderiv_exp_off u a b i hab, smul_zero]
    · simp
  · have hne : u i ≠ u j := fun h => hij (hu h)
    have h := congrFun (congrFun (exp_sylvester (diagonal u) E) i) j
    rw [exp_diag] at h
    simp only [Matrix.sub_apply, diagonal_mul, mul_diagonal] at h
    rw [divExp, if_neg hne]
    have : u i - u j ≠ 0 := sub_ne_zero.2 hne
    field_simp
    linear_combination h

/-- **C270** For a symmetric matrix with different eigenvalues and orthonormal eigenvectors `dmat_exp` is the derivative of the exponential in every direction. -/
theorem C270_derivative_partial (u : Fin n → ℝ) (hu : Function.Injective u) (V : Matrix (Fin n) (Fin n) ℝ) (hV : V * Vᵀ = 1)
    (E : Matrix (Fin n) (Fin n) ℝ) :
    ∃ J, dmatExp u V = some J ∧
      HasDerivAt (fun t : ℝ => exp (V * diagonal u * Vᵀ + t • E)) (Matrix.of fun i j => (J *ᵥ fun y => E y.1 y.2) (i, j)) 0 := by
  obtain ⟨J, hJ, h⟩ := C270_apply u hu V E
  refine ⟨J, hJ, ?_⟩
  have e : (Matrix.of fun i j => (J *ᵥ fun y => E y.1 y.2) (i, j)) = dkForm u V E := by
    ext i j; exact h (i, j)
  rw [e]
  have hinv : V⁻¹ = Vᵀ := inv_eq_right_inv hV
  have hV' : Vᵀ * V = 1 := mul_eq_one_comm.1 hV
  have hunit : IsUnit V := ⟨⟨V, Vᵀ, hV, hV'⟩, rfl⟩
  have h1 := ((hasDerivAt_exp_line (diagonal u) (Vᵀ * E * V)).const_mul V).mul_const Vᵀ
  have h2 : (fun t : ℝ => V * exp (diagonal u + t • (Vᵀ * E * V)) * Vᵀ) = fun t : ℝ => exp (V * diagonal u * Vᵀ + t • E) := by
    funext t
    have := Matrix.exp_conj V (diagonal u + t • (Vᵀ * E * V)) hunit
    rw [hinv] at this
    rw [← this]
    congr 1
    rw [Matrix.mul_add, Matrix.add_mul, Matrix.mul_smul, Matrix.smul_mul]
    congr 2
    rw [← Matrix.mul_assoc, ← Matrix.mul_assoc, hV, Matrix.one_mul, Matrix.mul_assoc, hV, Matrix.mul_one]
  rw [h2] at h1
  have h3 : fderiv ℝ exp (diagonal u) (Vᵀ * E * V) = Matrix.of fun i j => divExp (u i) (u j) * (Vᵀ * E * V) i j := by
    ext i j; exact fderiv_exp_diagonal u hu _ i j
  rw [h3] at h1
  exact h1

/-- **C270 (violated)** With two equal eigenvalues, as of the zero matrix, the result is not a number, although the exponential is differentiable everywhere. -/
theorem C270_equal_violated (u : Fin n → ℝ) (V : Matrix (Fin n) (Fin n) ℝ) (i j : Fin n) (hij : i ≠ j) (h : u i = u j) :
    dmatExp u V = none ∧ ∀ A : Matrix (Fin n) (Fin n) ℝ, DifferentiableAt ℝ (exp : Matrix (Fin n) (Fin n) ℝ → _) A :=
  ⟨by rw [dmatExp, if_pos ⟨i, j, hij, h⟩], exp_matrix_differentiable⟩

/-- **C270 (violated)** For a matrix that is not symmetric the transpose of the eigenvectors is not their inverse: at (1 1; 0 2) the result is not the
derivative along the identity, however the eigenvectors are scaled. -/
theorem C270_nonsymmetric_violated (s : ℝ) (hs : s ≠ 0) :
    (!![1, 1; 0, 2] : Matrix (Fin 2) (Fin 2) ℝ) * !![1, s; 0, s] = !![1, s; 0, s] * diagonal ![1, 2] ∧
      ∃ J, dmatExp ![1, 2] !![1, s; 0, s] = some J ∧
        ¬ HasDerivAt (fun t : ℝ => exp ((!![1, 1; 0, 2] : Matrix (Fin 2) (Fin 2) ℝ) + t • 1))
          (Matrix.of fun i j => (J *ᵥ fun y => (1 : Matrix (Fin 2) (Fin 2) ℝ) y.1 y.2) (i, j)) 0 := by
  have hu : Function.Injective (![1, 2] : Fin 2 → ℝ) := by intro a b; fin_cases a <;> fin_cases b <;> simp
  refine ⟨?_, ?_⟩
  · ext i j
    fin_cases i <;> fin_cases j <;> simp [mul_apply, Fin.sum_univ_two, diagonal] <;> ring
  · obtain ⟨J, hJ, h⟩ := C270_apply ![1, 2] hu !![1, s; 0, s] 1
    refine ⟨J, hJ, fun hd => ?_⟩
    have e : (Matrix.of fun i j => (J *ᵥ fun y => (1 : Matrix (Fin 2) (Fin 2) ℝ) y.1 y.2) (i, j)) = dkForm ![1, 2] !![1, s; 0, s] 1 := by
      ext i j; exact h (i, j)
    rw [e] at hd
    have hX := hd.unique (hasDerivAt_exp_line _ _)
    have hS := exp_sylvester (!![1, 1; 0, 2] : Matrix (Fin 2) (Fin 2) ℝ) 1
    rw [← hX, Matrix.mul_one, Matrix.one_mul, sub_self] at hS
    have h10 := congrFun (congrFun hS 1) 0
    have hx : dkForm ![1, 2] !![1, s; 0, s] 1 1 0 = s ^ 2 * (Real.exp 2 - Real.exp 1 + 2 * s ^ 2 * Real.exp 2) := by
      have h21 : divExp 2 1 = Real.exp 2 - Real.exp 1 := by rw [divExp, if_neg (by norm_num)]; ring
      have h22 : divExp 2 2 = Real.exp 2 := by rw [divExp, if_pos rfl]
      simp only [dkForm, Matrix.mul_one, mul_apply, Fin.sum_univ_two, transpose_apply, of_apply]
      simp [h21, h22]
      ring
    have hz : dkForm ![1, 2] !![1, s; 0, s] 1 1 0 = 0 := by
      simp only [Matrix.sub_apply, mul_apply, Fin.sum_univ_two] at h10
      simp at h10
      linarith
    have hpos : 0 < s ^ 2 := by positivity
    have hlt : Real.exp 1 < Real.exp 2 := Real.exp_lt_exp.2 (by norm_num)
    rw [hx] at hz
    have : 0 < s ^ 2 * (Real.exp 2 - Real.exp 1 + 2 * s ^ 2 * Real.exp 2) := by
      apply mul_pos hpos
      have : 0 < 2 * s ^ 2 * Real.exp 2 := by positivity
      linarith
    linarith

/-- **C270** The matrix is symmetric, whatever the eigenvectors. -/
theorem C270_symmetric (u : Fin n → ℝ) (V : Matrix (Fin n) (Fin n) ℝ) (J) (hJ : dmatExp u V = some J) : Jᵀ = J := by
  rw [dmatExp] at hJ
  split_ifs at hJ
  simp only [Option.some.injEq] at hJ
  rw [← hJ]
  simp [transpose_mul, Matrix.mul_assoc]

example : ∃ (u : Fin 2 → ℝ) (V : Matrix (Fin 2) (Fin 2) ℝ), Function.Injective u ∧ V * Vᵀ = 1 :=
  ⟨![0, 1], 1, by intro a b; fin_cases a <;> fin_cases b <;> simp, by simp⟩

end Verif.Calc
