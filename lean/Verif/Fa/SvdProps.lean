import Verif.Fa.OldGpaProps
import Verif.Cov.PsdProps
import Mathlib.Analysis.InnerProductSpace.PiL2
import Mathlib.Data.Fin.Tuple.Sort

/-! The contract of `np.linalg.svd` on square matrices can be met. -/

namespace Verif.Fa

open Matrix

variable {m : ℕ}

/-- Every real square matrix has a singular value decomposition with decreasing values. -/
theorem svd_square (X : Matrix (Fin m) (Fin m) ℝ) : ∃ r : Matrix (Fin m) (Fin m) ℝ × (Fin m → ℝ) × Matrix (Fin m) (Fin m) ℝ,
    r.1 * diagonal r.2.1 * r.2.2 = X ∧ r.1ᵀ * r.1 = 1 ∧ r.2.2 * r.2.2ᵀ = 1 ∧ (∀ i, 0 ≤ r.2.1 i) ∧ ∀ i j, i ≤ j → r.2.1 j ≤ r.2.1 i := by
  obtain ⟨eigh, he⟩ := Verif.Cov.eigh_exists m
  obtain ⟨h1, h2⟩ := he (Xᵀ * X) (by rw [Matrix.IsSymm, transpose_mul, transpose_transpose])
  set lam0 := (eigh (Xᵀ * X)).1
  set V0 := (eigh (Xᵀ * X)).2
  set σ := Tuple.sort fun i => -lam0 i
  set lam := lam0 ∘ σ with hlam
  set V := V0.submatrix id σ with hV
  have hanti : ∀ i j, i ≤ j → lam j ≤ lam i := fun i j h => by
    have := Tuple.monotone_sort (fun i => -lam0 i) h
    simp only [Function.comp_apply] at this
    exact neg_le_neg_iff.1 this
  have hVV : Vᵀ * V = 1 := by
    rw [hV, transpose_submatrix, ← submatrix_mul _ _ _ id _ Function.bijective_id, h1]
    exact submatrix_one_equiv σ
  set W := X * V with hW
  have hWW : Wᵀ * W = diagonal lam := by
    have e : V0ᵀ * (Xᵀ * X) * V0 = diagonal lam0 := by
      rw [h2, ← Matrix.mul_assoc, ← Matrix.mul_assoc, h1, Matrix.one_mul, Matrix.mul_assoc, h1, Matrix.mul_one]
    have e2 : Vᵀ * (Xᵀ * X) * V = (V0ᵀ * (Xᵀ * X) * V0).submatrix σ σ := by
      ext i j
      simp only [hV, Matrix.mul_apply, submatrix_apply, transpose_apply, id]
    rw [hW, transpose_mul, Matrix.mul_assoc, ← Matrix.mul_assoc Xᵀ, ← Matrix.mul_assoc, e2, e]
    exact submatrix_diagonal_equiv lam0 σ
  have hdot : ∀ i j, ∑ a, W a i * W a j = if i = j then lam i else 0 := fun i j => by
    have := congrFun (congrFun hWW i) j
    rw [Matrix.mul_apply] at this
    rw [← diagonal_apply, ← this]; rfl
  have hnn : ∀ i, 0 ≤ lam i := fun i => by
    have := hdot i i
    rw [if_pos rfl] at this
    rw [← this]; exact Finset.sum_nonneg fun a _ => mul_self_nonneg _
  set v : Fin m → EuclideanSpace ℝ (Fin m) := fun j => WithLp.toLp 2 fun a => W a j / √(lam j) with hv
  set s : Set (Fin m) := {j | 0 < lam j}
  have hon : Orthonormal ℝ (s.restrict v) := by
    rw [orthonormal_iff_ite]
    rintro ⟨i, hi⟩ ⟨j, hj⟩
    have hi' : 0 < lam i := hi
    have : inner ℝ (v i) (v j) = (∑ a, W a i * W a j) / (√(lam i) * √(lam j)) := by
      rw [hv, PiLp.inner_apply, Finset.sum_div]
      refine Finset.sum_congr rfl fun a _ => ?_
      simp only [RCLike.inner_apply, conj_trivial]
      rw [div_mul_div_comm]; ring
    simp only [Subtype.mk.injEq]
    change inner ℝ (v i) (v j) = _
    rw [this, hdot]
    split
    · rename_i e; subst e
      rw [Real.mul_self_sqrt (hnn i), div_self hi'.ne']
    · rw [zero_div]
  obtain ⟨b, hb⟩ := hon.exists_orthonormalBasis_extension_of_card_eq (by simp)
  set U : Matrix (Fin m) (Fin m) ℝ := of fun a j => b j a with hU
  have hUU : Uᵀ * U = 1 := by
    ext i j
    have := orthonormal_iff_ite.1 b.orthonormal i j
    rw [PiLp.inner_apply] at this
    rw [Matrix.mul_apply, Matrix.one_apply, ← this]
    refine Finset.sum_congr rfl fun a _ => ?_
    simp only [RCLike.inner_apply, conj_trivial, hU, transpose_apply, of_apply]
    ring
  have hUW : U * diagonal (fun j => √(lam j)) = W := by
    ext a j
    rw [mul_diagonal]
    rcases (hnn j).eq_or_lt with h0 | hpos
    · have hz := hdot j j
      rw [if_pos rfl, ← h0] at hz
      have := (Finset.sum_eq_zero_iff_of_nonneg fun a _ => mul_self_nonneg (W a j)).1 hz a (Finset.mem_univ a)
      rw [← h0, Real.sqrt_zero, mul_zero, mul_self_eq_zero.1 this]
    · have e : U a j = W a j / √(lam j) := by
        rw [hU, of_apply, hb j hpos]
      rw [e, div_mul_cancel₀ _ (Real.sqrt_pos.2 hpos).ne']
  refine ⟨(U, fun j => √(lam j), Vᵀ), ?_, hUU, ?_, fun i => Real.sqrt_nonneg _, fun i j h => Real.sqrt_le_sqrt (hanti i j h)⟩
  · show U * diagonal (fun j => √(lam j)) * Vᵀ = X
    rw [hUW, hW, Matrix.mul_assoc, mul_eq_one_comm.1 hVV, Matrix.mul_one]
  · show Vᵀ * Vᵀᵀ = 1
    rw [transpose_transpose, hVV]

theorem svd_exists (m : ℕ) : ∃ svd, SvdOk (m := m) svd := by
  choose svd h using svd_square (m := m)
  exact ⟨svd, fun X => (h X).1, fun X => (h X).2.1, fun X => (h X).2.2.1, fun X => (h X).2.2.2.1, fun X => (h X).2.2.2.2⟩

namespace Old

/-- The contracts of `C185_rotate` can be met. -/
example (m : ℕ) : (∃ svd, SvdOk (m := m) svd) ∧ ∃ pinv : Mat m m → Mat m m, PinvOk pinv := ⟨svd_exists m, fun X => X⁻¹, fun _ _ => rfl⟩

/-- C185: the orthogonal rotation of the example increases the criterion for a decomposition that exists. -/
theorem C185_descent_violated_exists : ∃ (A : Mat 1 2) (svd : Svd 2), SvdOk svd ∧
    (vgqCf A 0).1 < (rotateOrtho svd (fun L => vgqCf L 0) A none 1 (1 / 10 ^ 9) 1).ft := by
  obtain ⟨A, hA⟩ := C185_descent_violated
  obtain ⟨svd, hs⟩ := svd_exists 2
  obtain ⟨h1, h2⟩ := hA svd hs (1 / 10 ^ 9) (by norm_num)
  exact ⟨A, svd, hs, by rw [h1, h2]; norm_num⟩

end Old

end Verif.Fa
