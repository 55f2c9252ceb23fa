import Mathlib.Tactic.NormNum
import Mathlib.Tactic.Linarith
import Mathlib.Algebra.Order.Chebyshev
import Mathlib.Algebra.Order.BigOperators.Ring.Finset
import Verif.Mv.SvdLemmas

/-!
Canonical correlations: the coefficients diagonalise the three covariance matrices, the first correlation is the
largest attainable, and the default number of components.
-/

open Matrix

namespace Verif.Mv

section root
variable {p : ℕ} {eigh : Matrix (Fin p) (Fin p) ℝ → (Fin p → ℝ) × Matrix (Fin p) (Fin p) ℝ}

/-- The eigenvalues are zero or larger than the cutoff of `_eig_isq`. -/
def Clear (eigh : Matrix (Fin p) (Fin p) ℝ → (Fin p → ℝ) × Matrix (Fin p) (Fin p) ℝ) (S : Matrix (Fin p) (Fin p) ℝ) : Prop :=
  ∀ i, (eigh S).1 i = 0 ∨ 1e-16 < (eigh S).1 i

theorem eigIsq_symm (S : Matrix (Fin p) (Fin p) ℝ) : (eigIsq eigh S)ᵀ = eigIsq eigh S := by
  unfold eigIsq
  rw [transpose_mul, transpose_mul, transpose_transpose, diagonal_transpose, Matrix.mul_assoc]

theorem uIsq_sq (u : ℝ) (h : u = 0 ∨ 1e-16 < u) : uIsq u * u * uIsq u * uIsq u = uIsq u := by
  unfold uIsq
  rcases h with h | h
  · subst h; norm_num
  · have h0 : 0 < u := lt_trans (by norm_num) h
    rw [if_pos h]
    have hs : 0 < √u := Real.sqrt_pos.2 h0
    have : √u * √u = u := Real.mul_self_sqrt h0.le
    generalize √u = s at *
    subst this
    field_simp

/-- `R S R` is a projection that leaves `R` alone. -/
theorem eigIsq_proj (he : Verif.Cov.EighOk eigh) (S : Matrix (Fin p) (Fin p) ℝ) (hS : S.IsSymm) (hc : Clear eigh S) :
    eigIsq eigh S * S * eigIsq eigh S * eigIsq eigh S = eigIsq eigh S := by
  obtain ⟨h1, h2⟩ := he S hS
  have e : eigIsq eigh S * S * eigIsq eigh S * eigIsq eigh S =
      (eigh S).2 * (diagonal (fun i => uIsq ((eigh S).1 i)) * ((eigh S).2ᵀ * (eigh S).2) * diagonal (eigh S).1 * ((eigh S).2ᵀ * (eigh S).2) *
        diagonal (fun i => uIsq ((eigh S).1 i)) * ((eigh S).2ᵀ * (eigh S).2) * diagonal (fun i => uIsq ((eigh S).1 i))) * (eigh S).2ᵀ := by
    have e3 : eigIsq eigh S * S * eigIsq eigh S * eigIsq eigh S =
        eigIsq eigh S * ((eigh S).2 * diagonal (eigh S).1 * (eigh S).2ᵀ) * eigIsq eigh S * eigIsq eigh S := by rw [← h2]
    rw [e3]
    unfold eigIsq
    simp only [Matrix.mul_assoc]
  rw [e, h1]
  simp only [Matrix.mul_one, diagonal_mul_diagonal]
  have : (fun i => uIsq ((eigh S).1 i) * (eigh S).1 i * uIsq ((eigh S).1 i) * uIsq ((eigh S).1 i)) = fun i => uIsq ((eigh S).1 i) :=
    funext fun i => uIsq_sq _ (hc i)
  rw [this]; rfl

/-- With all eigenvalues above the cutoff, `R S R` is the identity. -/
theorem eigIsq_inv (he : Verif.Cov.EighOk eigh) (S : Matrix (Fin p) (Fin p) ℝ) (hS : S.IsSymm) (hc : ∀ i, 1e-16 < (eigh S).1 i) :
    eigIsq eigh S * S * eigIsq eigh S = 1 := by
  obtain ⟨h1, h2⟩ := he S hS
  have e : eigIsq eigh S * S * eigIsq eigh S =
      (eigh S).2 * (diagonal (fun i => uIsq ((eigh S).1 i)) * ((eigh S).2ᵀ * (eigh S).2) * diagonal (eigh S).1 * ((eigh S).2ᵀ * (eigh S).2) *
        diagonal (fun i => uIsq ((eigh S).1 i))) * (eigh S).2ᵀ := by
    have e3 : eigIsq eigh S * S * eigIsq eigh S = eigIsq eigh S * ((eigh S).2 * diagonal (eigh S).1 * (eigh S).2ᵀ) * eigIsq eigh S := by rw [← h2]
    rw [e3]
    unfold eigIsq
    simp only [Matrix.mul_assoc]
  rw [e, h1]
  simp only [Matrix.mul_one, diagonal_mul_diagonal]
  have : (fun i => uIsq ((eigh S).1 i) * (eigh S).1 i * uIsq ((eigh S).1 i)) = fun _ => 1 := funext fun i => by
    have h0 : 0 < (eigh S).1 i := lt_trans (by norm_num) (hc i)
    unfold uIsq
    rw [if_pos (hc i)]
    have hs : 0 < √((eigh S).1 i) := Real.sqrt_pos.2 h0
    have : √((eigh S).1 i) * √((eigh S).1 i) = (eigh S).1 i := Real.mul_self_sqrt h0.le
    generalize √((eigh S).1 i) = s at *
    rw [← this]
    field_simp
  rw [this, diagonal_one, Matrix.mul_one, mul_eq_one_comm.1 h1]

end root

section cca
variable {p q r : ℕ} {eigp : Matrix (Fin p) (Fin p) ℝ → (Fin p → ℝ) × Matrix (Fin p) (Fin p) ℝ}
  {eigq : Matrix (Fin q) (Fin q) ℝ → (Fin q → ℝ) × Matrix (Fin q) (Fin q) ℝ}
  {svd : Matrix (Fin p) (Fin q) ℝ → Matrix (Fin p) (Fin r) ℝ × (Fin r → ℝ) × Matrix (Fin r) (Fin q) ℝ}

/-- The coefficients diagonalise the cross covariance: `Wx' Sxy Wy` is the diagonal matrix of the canonical
correlations, whatever the two covariance matrices are. -/
theorem cca_cross (hs : SvdThin svd) (Sxy : Matrix (Fin p) (Fin q) ℝ) (Sx : Matrix (Fin p) (Fin p) ℝ) (Sy : Matrix (Fin q) (Fin q) ℝ)
    (hx : Sxᵀ = Sx) :
    (ccaSvd svd Sxy Sx Sy).1ᵀ * Sxy * (ccaSvd svd Sxy Sx Sy).2.1 = diagonal (ccaSvd svd Sxy Sx Sy).2.2 := by
  unfold ccaSvd
  simp only
  set M := Sx * Sxy * Sy with hM
  rw [transpose_mul, hx]
  rw [show (svd M).1ᵀ * Sx * Sxy * (Sy * (svd M).2.2ᵀ) = (svd M).1ᵀ * M * (svd M).2.2ᵀ by rw [hM]; simp only [Matrix.mul_assoc]]
  have := hs.eq M
  have e : (svd M).1ᵀ * M * (svd M).2.2ᵀ = ((svd M).1ᵀ * (svd M).1) * diagonal (svd M).2.1 * ((svd M).2.2 * (svd M).2.2ᵀ) := by
    have e2 : (svd M).1ᵀ * M * (svd M).2.2ᵀ = (svd M).1ᵀ * ((svd M).1 * diagonal (svd M).2.1 * (svd M).2.2) * (svd M).2.2ᵀ := by rw [this]
    rw [e2]; simp only [Matrix.mul_assoc]
  rw [e, hs.u, hs.v, Matrix.one_mul, Matrix.mul_one]

/-- Canonical correlations with singular covariance matrices: the variates belonging to correlations other than zero
are uncorrelated and have unit variance, on both sides. -/
theorem cca_unit (hs : SvdThin svd) (hp : Verif.Cov.EighOk eigp) (hq : Verif.Cov.EighOk eigq)
    (Sxx : Matrix (Fin p) (Fin p) ℝ) (Syy : Matrix (Fin q) (Fin q) ℝ) (Sxy : Matrix (Fin p) (Fin q) ℝ)
    (hx : Sxx.IsSymm) (hy : Syy.IsSymm) (cx : Clear eigp Sxx) (cy : Clear eigq Syy) (i j : Fin r)
    (hj : (ccaSvd svd Sxy (eigIsq eigp Sxx) (eigIsq eigq Syy)).2.2 j ≠ 0) :
    ((ccaSvd svd Sxy (eigIsq eigp Sxx) (eigIsq eigq Syy)).1ᵀ * Sxx * (ccaSvd svd Sxy (eigIsq eigp Sxx) (eigIsq eigq Syy)).1) i j = (if i = j then 1 else 0) ∧
    ((ccaSvd svd Sxy (eigIsq eigp Sxx) (eigIsq eigq Syy)).2.1ᵀ * Syy * (ccaSvd svd Sxy (eigIsq eigp Sxx) (eigIsq eigq Syy)).2.1) i j = (if i = j then 1 else 0) := by
  unfold ccaSvd at hj ⊢
  simp only at hj ⊢
  set R := eigIsq eigp Sxx with hR
  set Q := eigIsq eigq Syy with hQ
  set M := R * Sxy * Q with hM
  set U := (svd M).1 with hU
  set s := (svd M).2.1 with hsd
  set Vt := (svd M).2.2 with hVt
  have eM : U * diagonal s * Vt = M := hs.eq M
  have uU : Uᵀ * U = 1 := hs.u M
  have vV : Vt * Vtᵀ = 1 := hs.v M
  have PR : R * Sxx * R * R = R := eigIsq_proj hp Sxx hx cx
  have PQ : Q * Syy * Q * Q = Q := eigIsq_proj hq Syy hy cy
  have RT : Rᵀ = R := eigIsq_symm Sxx
  have QT : Qᵀ = Q := eigIsq_symm Syy
  constructor
  · -- `P U D = P M Vt' = M Vt' = U D`
    have h1 : R * Sxx * R * (U * diagonal s) = U * diagonal s := by
      have e1 : U * diagonal s = M * Vtᵀ := by rw [← eM, Matrix.mul_assoc, vV, Matrix.mul_one]
      rw [e1, hM]
      rw [show R * Sxx * R * (R * Sxy * Q * Vtᵀ) = (R * Sxx * R * R) * Sxy * Q * Vtᵀ by simp only [Matrix.mul_assoc], PR]
    have h2 : ((R * U)ᵀ * Sxx * (R * U)) * diagonal s = diagonal s := by
      rw [transpose_mul, RT]
      rw [show Uᵀ * R * Sxx * (R * U) * diagonal s = Uᵀ * (R * Sxx * R * (U * diagonal s)) by simp only [Matrix.mul_assoc], h1,
        ← Matrix.mul_assoc, uU, Matrix.one_mul]
    have h3 := congrFun (congrFun h2 i) j
    rw [Matrix.mul_diagonal, Matrix.diagonal_apply] at h3
    by_cases hij : i = j
    · subst hij
      rw [if_pos rfl] at h3 ⊢
      exact mul_right_cancel₀ hj (h3.trans (one_mul _).symm)
    · rw [if_neg hij] at h3 ⊢
      exact (mul_eq_zero.1 h3).resolve_right hj
  · have h1 : Q * Syy * Q * (Vtᵀ * diagonal s) = Vtᵀ * diagonal s := by
      have e1 : Vtᵀ * diagonal s = Mᵀ * U := by
        rw [← eM, transpose_mul, transpose_mul, diagonal_transpose, Matrix.mul_assoc, Matrix.mul_assoc, uU, Matrix.mul_one]
      rw [e1, hM, transpose_mul, QT]
      rw [show Q * Syy * Q * (Q * (R * Sxy)ᵀ * U) = (Q * Syy * Q * Q) * (R * Sxy)ᵀ * U by simp only [Matrix.mul_assoc], PQ]
    have h2 : ((Q * Vtᵀ)ᵀ * Syy * (Q * Vtᵀ)) * diagonal s = diagonal s := by
      rw [transpose_mul, QT, transpose_transpose]
      rw [show Vt * Q * Syy * (Q * Vtᵀ) * diagonal s = Vt * (Q * Syy * Q * (Vtᵀ * diagonal s)) by simp only [Matrix.mul_assoc], h1,
        ← Matrix.mul_assoc, vV, Matrix.one_mul]
    have h3 := congrFun (congrFun h2 i) j
    rw [Matrix.mul_diagonal, Matrix.diagonal_apply] at h3
    by_cases hij : i = j
    · subst hij
      rw [if_pos rfl] at h3 ⊢
      exact mul_right_cancel₀ hj (h3.trans (one_mul _).symm)
    · rw [if_neg hij] at h3 ⊢
      exact (mul_eq_zero.1 h3).resolve_right hj

/-- With nonsingular covariance matrices all canonical variates are uncorrelated with unit variance. -/
theorem cca_unit_all (hs : SvdThin svd) (hp : Verif.Cov.EighOk eigp) (hq : Verif.Cov.EighOk eigq)
    (Sxx : Matrix (Fin p) (Fin p) ℝ) (Syy : Matrix (Fin q) (Fin q) ℝ) (Sxy : Matrix (Fin p) (Fin q) ℝ)
    (hx : Sxx.IsSymm) (hy : Syy.IsSymm) (cx : ∀ i, 1e-16 < (eigp Sxx).1 i) (cy : ∀ i, 1e-16 < (eigq Syy).1 i) :
    (ccaSvd svd Sxy (eigIsq eigp Sxx) (eigIsq eigq Syy)).1ᵀ * Sxx * (ccaSvd svd Sxy (eigIsq eigp Sxx) (eigIsq eigq Syy)).1 = 1 ∧
    (ccaSvd svd Sxy (eigIsq eigp Sxx) (eigIsq eigq Syy)).2.1ᵀ * Syy * (ccaSvd svd Sxy (eigIsq eigp Sxx) (eigIsq eigq Syy)).2.1 = 1 := by
  unfold ccaSvd
  simp only
  set R := eigIsq eigp Sxx with hR
  set Q := eigIsq eigq Syy with hQ
  set M := R * Sxy * Q with hM
  have RT : Rᵀ = R := eigIsq_symm Sxx
  have QT : Qᵀ = Q := eigIsq_symm Syy
  constructor
  · rw [transpose_mul, RT]
    rw [show (svd M).1ᵀ * R * Sxx * (R * (svd M).1) = (svd M).1ᵀ * (R * Sxx * R) * (svd M).1 by simp only [Matrix.mul_assoc],
      eigIsq_inv hp Sxx hx cx, Matrix.mul_one, hs.u]
  · rw [transpose_mul, QT, transpose_transpose]
    rw [show (svd M).2.2 * Q * Syy * (Q * (svd M).2.2ᵀ) = (svd M).2.2 * (Q * Syy * Q) * (svd M).2.2ᵀ by simp only [Matrix.mul_assoc],
      eigIsq_inv hq Syy hy cy, Matrix.mul_one, hs.v]

/-- Bessel's inequality for a matrix with orthonormal columns. -/
theorem bessel {m k : ℕ} (U : Matrix (Fin m) (Fin k) ℝ) (hU : Uᵀ * U = 1) (a : Fin m → ℝ) : ∑ i, (a ᵥ* U) i ^ 2 ≤ a ⬝ᵥ a := by
  have h0 : 0 ≤ (a - U *ᵥ (a ᵥ* U)) ⬝ᵥ (a - U *ᵥ (a ᵥ* U)) := Finset.sum_nonneg fun i _ => mul_self_nonneg _
  have e1 : a ⬝ᵥ (U *ᵥ (a ᵥ* U)) = (a ᵥ* U) ⬝ᵥ (a ᵥ* U) := dotProduct_mulVec _ _ _
  have e2 : (U *ᵥ (a ᵥ* U)) ⬝ᵥ (U *ᵥ (a ᵥ* U)) = (a ᵥ* U) ⬝ᵥ (a ᵥ* U) := by
    rw [dotProduct_mulVec, ← mulVec_transpose, mulVec_mulVec, hU, one_mulVec]
  rw [sub_dotProduct, dotProduct_sub, dotProduct_sub, dotProduct_comm (U *ᵥ (a ᵥ* U)) a, e1, e2] at h0
  have e3 : ∑ i, (a ᵥ* U) i ^ 2 = (a ᵥ* U) ⬝ᵥ (a ᵥ* U) := Finset.sum_congr rfl fun i _ => pow_two _
  rw [e3]; linarith

/-- No pair of linear combinations is more strongly correlated than the first canonical pair. -/
theorem cca_max [NeZero r] (hs : SvdThin svd) (hp : Verif.Cov.EighOk eigp) (hq : Verif.Cov.EighOk eigq)
    (Sxx : Matrix (Fin p) (Fin p) ℝ) (Syy : Matrix (Fin q) (Fin q) ℝ) (Sxy : Matrix (Fin p) (Fin q) ℝ)
    (hx : Sxx.IsSymm) (hy : Syy.IsSymm) (cx : ∀ i, 1e-16 < (eigp Sxx).1 i) (cy : ∀ i, 1e-16 < (eigq Syy).1 i)
    (a : Fin p → ℝ) (b : Fin q → ℝ) :
    (a ⬝ᵥ (Sxy *ᵥ b)) ^ 2 ≤ (ccaSvd svd Sxy (eigIsq eigp Sxx) (eigIsq eigq Syy)).2.2 0 ^ 2 * ((a ⬝ᵥ (Sxx *ᵥ a)) * (b ⬝ᵥ (Syy *ᵥ b))) := by
  unfold ccaSvd
  simp only
  set R := eigIsq eigp Sxx with hR
  set Q := eigIsq eigq Syy with hQ
  set M := R * Sxy * Q with hM
  have RT : Rᵀ = R := eigIsq_symm Sxx
  have QT : Qᵀ = Q := eigIsq_symm Syy
  have iR : R * (Sxx * R) = 1 := by rw [← Matrix.mul_assoc]; exact eigIsq_inv hp Sxx hx cx
  have iQ : Q * (Syy * Q) = 1 := by rw [← Matrix.mul_assoc]; exact eigIsq_inv hq Syy hy cy
  have iR' : R * R * Sxx = 1 := by
    have := mul_eq_one_comm.1 iR
    rw [Matrix.mul_assoc] at this
    exact mul_eq_one_comm.1 this
  have iQ' : Q * Q * Syy = 1 := by
    have := mul_eq_one_comm.1 iQ
    rw [Matrix.mul_assoc] at this
    exact mul_eq_one_comm.1 this
  -- `a = R α` with `α = R Sxx a`
  set α := (R * Sxx) *ᵥ a with hα
  set β := (Q * Syy) *ᵥ b with hβ
  have ea : R *ᵥ α = a := by rw [hα, mulVec_mulVec, ← Matrix.mul_assoc, iR', one_mulVec]
  have eb : Q *ᵥ β = b := by rw [hβ, mulVec_mulVec, ← Matrix.mul_assoc, iQ', one_mulVec]
  have na : α ⬝ᵥ α = a ⬝ᵥ (Sxx *ᵥ a) := by
    have t : α ᵥ* R = a := by rw [← mulVec_transpose, RT, ea]
    calc α ⬝ᵥ α = α ⬝ᵥ ((R * Sxx) *ᵥ a) := rfl
      _ = a ⬝ᵥ (Sxx *ᵥ a) := by rw [dotProduct_mulVec, ← vecMul_vecMul, t, dotProduct_mulVec]
  have nb : β ⬝ᵥ β = b ⬝ᵥ (Syy *ᵥ b) := by
    have t : β ᵥ* Q = b := by rw [← mulVec_transpose, QT, eb]
    calc β ⬝ᵥ β = β ⬝ᵥ ((Q * Syy) *ᵥ b) := rfl
      _ = b ⬝ᵥ (Syy *ᵥ b) := by rw [dotProduct_mulVec, ← vecMul_vecMul, t, dotProduct_mulVec]
  have eab : a ⬝ᵥ (Sxy *ᵥ b) = α ⬝ᵥ (M *ᵥ β) := by
    rw [← ea, ← eb, hM, dotProduct_comm, mulVec_mulVec, dotProduct_mulVec, ← mulVec_transpose, RT, mulVec_mulVec, dotProduct_comm, Matrix.mul_assoc]
  have eM : (svd M).1 * diagonal (svd M).2.1 * (svd M).2.2 = M := hs.eq M
  have exp : α ⬝ᵥ (M *ᵥ β) = ∑ i, (svd M).2.1 i * ((α ᵥ* (svd M).1) i * (β ᵥ* (svd M).2.2ᵀ) i) := by
    conv_lhs => rw [← eM]
    rw [Matrix.mul_assoc, ← mulVec_mulVec, dotProduct_mulVec, ← mulVec_mulVec, ← mulVec_transpose (svd M).2.2ᵀ, transpose_transpose]
    refine Finset.sum_congr rfl fun i _ => ?_
    rw [mulVec_diagonal]; ring
  set u := α ᵥ* (svd M).1
  set v := β ᵥ* (svd M).2.2ᵀ
  have hu : ∑ i, u i ^ 2 ≤ α ⬝ᵥ α := bessel _ (hs.u M) α
  have hv : ∑ i, v i ^ 2 ≤ β ⬝ᵥ β := bessel _ (by rw [transpose_transpose]; exact hs.v M) β
  have hu0 : 0 ≤ ∑ i, u i ^ 2 := Finset.sum_nonneg fun i _ => sq_nonneg _
  have hv0 : 0 ≤ ∑ i, v i ^ 2 := Finset.sum_nonneg fun i _ => sq_nonneg _
  rw [eab, exp, ← na, ← nb]
  have cs := Finset.sum_mul_sq_le_sq_mul_sq Finset.univ (fun i => (svd M).2.1 i * u i) v
  have h1 : ∑ i, ((svd M).2.1 i * u i) ^ 2 ≤ (svd M).2.1 0 ^ 2 * ∑ i, u i ^ 2 := by
    rw [Finset.mul_sum]
    refine Finset.sum_le_sum fun i _ => ?_
    rw [mul_pow]
    exact mul_le_mul_of_nonneg_right (pow_le_pow_left₀ (hs.nonneg M i) (hs.anti M 0 i (by rw [Fin.le_def]; simp)) 2) (sq_nonneg _)
  calc (∑ i, (svd M).2.1 i * (u i * v i)) ^ 2 = (∑ i, (svd M).2.1 i * u i * v i) ^ 2 := by simp only [mul_assoc]
    _ ≤ (∑ i, ((svd M).2.1 i * u i) ^ 2) * ∑ i, v i ^ 2 := cs
    _ ≤ ((svd M).2.1 0 ^ 2 * ∑ i, u i ^ 2) * ∑ i, v i ^ 2 := mul_le_mul_of_nonneg_right h1 hv0
    _ ≤ ((svd M).2.1 0 ^ 2 * (α ⬝ᵥ α)) * (β ⬝ᵥ β) :=
        mul_le_mul (mul_le_mul_of_nonneg_left hu (sq_nonneg _)) hv hv0 (mul_nonneg (sq_nonneg _) (hu0.trans hu))
    _ = _ := by ring

end cca

section data
variable {n p q r k : ℕ}

theorem cross_eq (X : Matrix (Fin n) (Fin p) ℝ) (Y : Matrix (Fin n) (Fin q) ℝ) : cross X Y = (1 / (n : ℝ)) • (Xᵀ * Y) := by
  ext i j
  rw [Matrix.smul_apply, Matrix.mul_apply, smul_eq_mul, cross, one_div, div_eq_inv_mul]
  rfl

theorem cross_symm (X : Matrix (Fin n) (Fin p) ℝ) : (cross X X).IsSymm := by
  rw [cross_eq, IsSymm, transpose_smul, transpose_mul, transpose_transpose]

/-- Covariances of linear combinations. -/
theorem cross_mul {l m : ℕ} (X : Matrix (Fin n) (Fin p) ℝ) (Y : Matrix (Fin n) (Fin q) ℝ) (A : Matrix (Fin p) (Fin l) ℝ) (B : Matrix (Fin q) (Fin m) ℝ) :
    cross (X * A) (Y * B) = Aᵀ * cross X Y * B := by
  rw [cross_eq, cross_eq, transpose_mul, Matrix.mul_smul, Matrix.smul_mul]
  simp only [Matrix.mul_assoc]

/-- Standardised columns have mean zero; those that are not constant have unit variance. -/
theorem csd_moments (hn : 0 < n) (X : Matrix (Fin n) (Fin p) ℝ) (j : Fin p) :
    colMean (csd X) j = 0 ∧ ((∑ b, (X b j - colMean X j) ^ 2) ≠ 0 → cross (csd X) (csd X) j j = 1) := by
  have h : (n : ℝ) ≠ 0 := by exact_mod_cast hn.ne'
  constructor
  · show (∑ a, (X a j - colMean X j) / √((∑ b, (X b j - colMean X j) * (X b j - colMean X j)) / n)) / n = 0
    rw [← Finset.sum_div, Finset.sum_sub_distrib, Finset.sum_const, Finset.card_univ, Fintype.card_fin, nsmul_eq_mul]
    have : (n : ℝ) * colMean X j = ∑ a, X a j := mul_div_cancel₀ _ h
    rw [this, sub_self, zero_div, zero_div]
  · intro h0
    have e : (∑ b, (X b j - colMean X j) * (X b j - colMean X j)) = ∑ b, (X b j - colMean X j) ^ 2 := Finset.sum_congr rfl fun b _ => (pow_two _).symm
    show (∑ a, csd X a j * csd X a j) / n = 1
    have e2 : ∀ a, csd X a j * csd X a j = (X a j - colMean X j) ^ 2 / ((∑ b, (X b j - colMean X j) ^ 2) / n) := by
      intro a
      unfold csd
      rw [e, div_mul_div_comm, Real.mul_self_sqrt, pow_two]
      exact div_nonneg (Finset.sum_nonneg fun b _ => sq_nonneg _) (Nat.cast_nonneg n)
    rw [Finset.sum_congr rfl fun a _ => e2 a, ← Finset.sum_div]
    field_simp

variable (eigp : Matrix (Fin p) (Fin p) ℝ → (Fin p → ℝ) × Matrix (Fin p) (Fin p) ℝ)
  (eigq : Matrix (Fin q) (Fin q) ℝ → (Fin q → ℝ) × Matrix (Fin q) (Fin q) ℝ)
  (svd : Matrix (Fin p) (Fin q) ℝ → Matrix (Fin p) (Fin r) ℝ × (Fin r → ℝ) × Matrix (Fin r) (Fin q) ℝ)
  (X : Matrix (Fin n) (Fin p) ℝ) (Y : Matrix (Fin n) (Fin q) ℝ) (hk : k ≤ r)

/-- `CCA._fit`: the canonical variates have mean zero, the correlation between the `i`-th variate of one side and the
`j`-th of the other is the `i`-th canonical correlation for `i = j` and zero otherwise, and the loadings are the
covariances of the standardised variables with the variates. -/
theorem C141_variates (hn : 0 < n) (hs : SvdThin svd) :
    (∀ j, colMean (ccaFit eigp eigq svd X Y hk).Zx j = 0 ∧ colMean (ccaFit eigp eigq svd X Y hk).Zy j = 0) ∧
    (∀ i j, cross (ccaFit eigp eigq svd X Y hk).Zx (ccaFit eigp eigq svd X Y hk).Zy i j =
      if i = j then (ccaFit eigp eigq svd X Y hk).rhos (Fin.castLE hk i) else 0) ∧
    (ccaFit eigp eigq svd X Y hk).Lx = cross (csd X) (ccaFit eigp eigq svd X Y hk).Zx ∧
    (ccaFit eigp eigq svd X Y hk).Ly = cross (csd Y) (ccaFit eigp eigq svd X Y hk).Zy ∧
    ∀ i, 0 ≤ (ccaFit eigp eigq svd X Y hk).rhos i := by
  have mean : ∀ {m l : ℕ} (Z : Matrix (Fin n) (Fin m) ℝ) (W : Matrix (Fin m) (Fin l) ℝ), (∀ i, colMean Z i = 0) → ∀ j, colMean (Z * W) j = 0 := by
    intro m l Z W h j
    have h2 : ∀ i, ∑ a, Z a i = 0 := fun i => by
      have := h i
      unfold colMean at this
      exact (div_eq_zero_iff.1 this).resolve_right (by exact_mod_cast hn.ne')
    unfold colMean
    simp only [Matrix.mul_apply]
    rw [Finset.sum_comm]
    simp only [← Finset.sum_mul, h2, zero_mul, Finset.sum_const_zero, zero_div]
  refine ⟨fun j => ⟨mean _ _ (fun i => (csd_moments hn X i).1) j, mean _ _ (fun i => (csd_moments hn Y i).1) j⟩, fun i j => ?_, ?_, ?_, fun i => hs.nonneg _ i⟩
  · show cross (csd X * _) (csd Y * _) i j = _
    rw [cross_mul]
    have := congrFun (congrFun (cca_cross hs (cross (csd X) (csd Y)) (eigIsq eigp (cross (csd X) (csd X))) (eigIsq eigq (cross (csd Y) (csd Y))) (eigIsq_symm _))
      (Fin.castLE hk i)) (Fin.castLE hk j)
    rw [Matrix.diagonal_apply] at this
    simp only [Fin.castLE_inj] at this
    exact this
  · show cross (csd X) (csd X) * _ = cross (csd X) (csd X * _)
    conv_rhs => rw [← Matrix.mul_one (csd X)]
    rw [Matrix.mul_one (csd X)]
    have := cross_mul (csd X) (csd X) (1 : Matrix (Fin p) (Fin p) ℝ) ((ccaSvd svd (cross (csd X) (csd Y)) (eigIsq eigp (cross (csd X) (csd X))) (eigIsq eigq (cross (csd Y) (csd Y)))).1.submatrix id (Fin.castLE hk))
    rw [Matrix.mul_one, transpose_one, Matrix.one_mul] at this
    exact this.symm
  · have := cross_mul (csd Y) (csd Y) (1 : Matrix (Fin q) (Fin q) ℝ) ((ccaSvd svd (cross (csd X) (csd Y)) (eigIsq eigp (cross (csd X) (csd X))) (eigIsq eigq (cross (csd Y) (csd Y)))).2.1.submatrix id (Fin.castLE hk))
    rw [Matrix.mul_one, transpose_one, Matrix.one_mul] at this
    exact this.symm

/-- The variates that belong to correlations other than zero are uncorrelated within each side and have unit variance,
also for singular correlation matrices, as long as no eigenvalue lies strictly between zero and the cutoff. -/
theorem C141_unit_partial (hs : SvdThin svd) (hp : Verif.Cov.EighOk eigp) (hq : Verif.Cov.EighOk eigq)
    (cx : Clear eigp (cross (csd X) (csd X))) (cy : Clear eigq (cross (csd Y) (csd Y))) (i j : Fin k)
    (hj : (ccaFit eigp eigq svd X Y hk).rhos (Fin.castLE hk j) ≠ 0) :
    cross (ccaFit eigp eigq svd X Y hk).Zx (ccaFit eigp eigq svd X Y hk).Zx i j = (if i = j then 1 else 0) ∧
    cross (ccaFit eigp eigq svd X Y hk).Zy (ccaFit eigp eigq svd X Y hk).Zy i j = (if i = j then 1 else 0) := by
  have := cca_unit hs hp hq (cross (csd X) (csd X)) (cross (csd Y) (csd Y)) (cross (csd X) (csd Y)) (cross_symm _) (cross_symm _) cx cy (Fin.castLE hk i) (Fin.castLE hk j) hj
  simp only [Fin.castLE_inj] at this
  constructor
  · show cross (csd X * _) (csd X * _) i j = _
    rw [cross_mul]; exact this.1
  · show cross (csd Y * _) (csd Y * _) i j = _
    rw [cross_mul]; exact this.2

/-- With nonsingular correlation matrices: all variates are uncorrelated within each side with unit variance, and no
pair of linear combinations of the standardised variables has a larger correlation than the first canonical pair. -/
theorem C141_optimal [NeZero r] (hs : SvdThin svd) (hp : Verif.Cov.EighOk eigp) (hq : Verif.Cov.EighOk eigq)
    (cx : ∀ i, 1e-16 < (eigp (cross (csd X) (csd X))).1 i) (cy : ∀ i, 1e-16 < (eigq (cross (csd Y) (csd Y))).1 i) :
    (∀ i j, cross (ccaFit eigp eigq svd X Y hk).Zx (ccaFit eigp eigq svd X Y hk).Zx i j = (if i = j then 1 else 0) ∧
      cross (ccaFit eigp eigq svd X Y hk).Zy (ccaFit eigp eigq svd X Y hk).Zy i j = (if i = j then 1 else 0)) ∧
    ∀ (a : Fin p → ℝ) (b : Fin q → ℝ), (a ⬝ᵥ (cross (csd X) (csd Y) *ᵥ b)) ^ 2 ≤
      (ccaFit eigp eigq svd X Y hk).rhos 0 ^ 2 * ((a ⬝ᵥ (cross (csd X) (csd X) *ᵥ a)) * (b ⬝ᵥ (cross (csd Y) (csd Y) *ᵥ b))) := by
  refine ⟨fun i j => ?_, fun a b => cca_max hs hp hq _ _ _ (cross_symm _) (cross_symm _) cx cy a b⟩
  have := cca_unit_all hs hp hq (cross (csd X) (csd X)) (cross (csd Y) (csd Y)) (cross (csd X) (csd Y)) (cross_symm _) (cross_symm _) cx cy
  have t1 := congrFun (congrFun this.1 (Fin.castLE hk i)) (Fin.castLE hk j)
  have t2 := congrFun (congrFun this.2 (Fin.castLE hk i)) (Fin.castLE hk j)
  rw [Matrix.one_apply] at t1 t2
  simp only [Fin.castLE_inj] at t1 t2
  constructor
  · show cross (csd X * _) (csd X * _) i j = _
    rw [cross_mul]; exact t1
  · show cross (csd Y * _) (csd Y * _) i j = _
    rw [cross_mul]; exact t2

end data

/-- The contracts can be met. -/
example (p q : ℕ) : (∃ eigh, Verif.Cov.EighOk (m := p) eigh) ∧ (∃ eigh, Verif.Cov.EighOk (m := q) eigh) ∧
    ∃ svd : Matrix (Fin p) (Fin q) ℝ → Matrix (Fin p) (Fin (min p q)) ℝ × (Fin (min p q) → ℝ) × Matrix (Fin (min p q)) (Fin q) ℝ, SvdThin svd :=
  ⟨Verif.Cov.eigh_exists p, Verif.Cov.eigh_exists q, svdThin_exists p q _ rfl⟩

/-- A small positive eigenvalue is left as it is: the "inverse square root" of `[[1e-16]]` is `[[1e-16]]`, and the
variate it gives has variance `1e-48`. -/
theorem C141_cutoff_violated : uIsq 1e-16 = 1e-16 ∧ uIsq 1e-16 * 1e-16 * uIsq 1e-16 ≠ 1 := by
  have e : uIsq 1e-16 = 1e-16 := if_neg (lt_irrefl _)
  rw [e]; norm_num

/-- The default number of components raises exactly when the first data set has more variables than the second; any
number up to the smaller of the two works. -/
theorem C141_columns (p q : ℕ) :
    (fitCols p q none = none ↔ q < p) ∧ ∀ k, fitCols p q (some k) = if k ≤ min p q then some k else none := by
  constructor
  · unfold fitCols
    simp only [Option.getD_none]
    split_ifs with h
    · simp only [false_iff]; omega
    · simp only [true_iff]; omega
  · intro k
    unfold fitCols
    simp only [Option.getD_some]
    split_ifs with h1 h2 h2
    · rfl
    · omega
    · omega
    · rfl

/-- The default fails for three variables against two. -/
theorem C141_columns_violated : fitCols 3 2 none = none := rfl

end Verif.Mv
