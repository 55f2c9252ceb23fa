import Mathlib.LinearAlgebra.Matrix.SchurComplement
import Mathlib.LinearAlgebra.Matrix.Block
import Mathlib.LinearAlgebra.Matrix.PosDef
import Mathlib.Analysis.Matrix.PosDef
import Verif.Lmm.Model
import Verif.Like.LeverageProps
/-!
# Lemmas on the mixed model: determinants and inverses
-/
namespace Verif.Lmm
open Matrix Kronecker Verif.Fa Verif.Like

section general
variable {ι : Type} [Fintype ι] [DecidableEq ι] {q : ℕ}

/-- The solve with the permuted factor, as a plain function of the index type. -/
noncomputable def facS {k : Type} (e : ι ≃ Fin q) (L : Mat q q) (B : Matrix ι k ℝ) : Matrix ι k ℝ :=
  (L⁻¹ * B.submatrix e.symm id).submatrix e id

theorem fac_unit (e : ι ≃ Fin q) {L : Mat q q} {C : Matrix ι ι ℝ} (h : L * Lᵀ = C.submatrix e.symm e.symm)
    (hL : IsUnit L.det) : IsUnit C.det := by
  have h2 : (C.submatrix e.symm e.symm).det = C.det := det_submatrix_equiv_self e.symm C
  rw [← h2, ← h, det_mul, det_transpose]
  exact hL.mul hL

theorem facS_gram {k k' : Type} (e : ι ≃ Fin q) {L : Mat q q} {C : Matrix ι ι ℝ}
    (h : L * Lᵀ = C.submatrix e.symm e.symm) (hL : IsUnit L.det) (B : Matrix ι k ℝ) (B' : Matrix ι k' ℝ) :
    (facS e L B)ᵀ * facS e L B' = Bᵀ * C⁻¹ * B' := by
  have h1 : (L⁻¹)ᵀ * L⁻¹ = C⁻¹.submatrix e.symm e.symm := by
    have : C⁻¹.submatrix e.symm e.symm = (C.submatrix e.symm e.symm)⁻¹ := (inv_submatrix_equiv C e.symm e.symm).symm
    rw [this, ← h, Matrix.mul_inv_rev, transpose_nonsing_inv]
  unfold facS
  rw [transpose_submatrix, submatrix_mul_equiv, transpose_mul, Matrix.mul_assoc, ← Matrix.mul_assoc (L⁻¹)ᵀ, h1]
  rw [transpose_submatrix, submatrix_mul_equiv, submatrix_mul_equiv, ← Matrix.mul_assoc]
  simp

theorem log_sq_diag (e : ι ≃ Fin q) {L : Mat q q} {C : Matrix ι ι ℝ} (h : L * Lᵀ = C.submatrix e.symm e.symm)
    (hl : ∀ i j, i < j → L i j = 0) (hd : ∀ i, 0 < L i i) :
    2 * ∑ i, Real.log (L i i) = Real.log |C.det| := by
  have h2 : (C.submatrix e.symm e.symm).det = C.det := det_submatrix_equiv_self e.symm C
  have h3 : L.det = ∏ i, L i i := det_of_isLowerTriangular L (fun i j hij => hl i j hij)
  have hp : 0 < L.det := h3 ▸ Finset.prod_pos fun i _ => hd i
  rw [← h2, ← h, det_mul, det_transpose, abs_of_pos (mul_pos hp hp), Real.log_mul hp.ne' hp.ne', h3,
    Real.log_prod (fun i _ => (hd i).ne')]
  ring

end general

theorem det_block {K : ℕ} {m : Fin K → Type} [∀ k, Fintype (m k)] [∀ k, DecidableEq (m k)]
    (M : ∀ k, Matrix (m k) (m k) ℝ) : (blockDiagonal' M).det = ∏ k, (M k).det := by
  have ht : (blockDiagonal' M).BlockTriangular Sigma.fst := by
    intro i j hij
    rw [blockDiagonal'_apply, dif_neg (fun h => absurd h (by simpa using hij.ne'))]
  rw [ht.det_fintype]
  refine Finset.prod_congr rfl fun k _ => ?_
  let f : m k ≃ {x : Σ k, m k // x.1 = k} :=
    { toFun := fun x => ⟨⟨k, x⟩, rfl⟩
      invFun := fun x => x.2 ▸ x.1.2
      left_inv := fun x => rfl
      right_inv := fun ⟨⟨k', x⟩, h⟩ => by subst h; rfl }
  rw [← det_submatrix_equiv_self f]
  congr 1
  ext a b
  simp [f, toSquareBlock, toSquareBlockProp]

theorem inv_block {K : ℕ} {m : Fin K → Type} [∀ k, Fintype (m k)] [∀ k, DecidableEq (m k)]
    (M N : ∀ k, Matrix (m k) (m k) ℝ) (h : ∀ k, M k * N k = 1) :
    (blockDiagonal' M)⁻¹ = blockDiagonal' N := by
  refine inv_eq_right_inv ?_
  rw [← blockDiagonal'_mul]
  have : (fun k => M k * N k) = fun k => 1 := funext h
  rw [this]
  exact blockDiagonal'_one

theorem logpdet_posDef {m : ℕ} {B : Matrix (Fin m) (Fin m) ℝ} (h : B.PosDef) :
    Terms.logpdet B = Real.log |B.det| := by
  have hh : B.IsHermitian := h.isHermitian
  unfold Terms.logpdet
  rw [dif_pos hh, hh.det_eq_prod_eigenvalues]
  have hp : ∀ i, 0 < hh.eigenvalues i := h.eigenvalues_pos
  simp only [if_pos (hp _)]
  rw [← Real.log_prod (fun i _ => (hp i).ne')]
  congr 1
  have : (0 : ℝ) < ∏ i, hh.eigenvalues i := Finset.prod_pos fun i _ => hp i
  simp [abs_of_pos this]

variable {T : Terms} {n p q : ℕ}

/-- The level covariances are positive definite (`_resolve_a` raises otherwise). -/
def Terms.Pd (T : Terms) : Prop := ∀ k, ∀ B, T.acov k = some B → B.PosDef

theorem A_posDef (hT : T.Pd) (k : Fin T.K) : (T.A k).PosDef := by
  unfold Terms.A
  cases h : T.acov k with
  | none => exact PosDef.one
  | some B => exact hT k B h

theorem A_unit (hT : T.Pd) (k : Fin T.K) : IsUnit (T.A k).det := (A_posDef hT k).det_pos.ne'.isUnit

theorem lda_eq (hT : T.Pd) (k : Fin T.K) : T.lda k = T.nrv k * Real.log |(T.A k).det| := by
  unfold Terms.lda Terms.A
  cases h : T.acov k with
  | none => simp
  | some B => simp [logpdet_posDef (hT k B h), mul_comm]

theorem ginv_some {th : T.Par → ℝ} {Gi : Matrix T.RE T.RE ℝ} (hT : T.Pd) (h : T.ginv? th = some Gi) :
    Gi = (T.gcov th)⁻¹ ∧ IsUnit (T.gcov th).det ∧ T.lndetG th = Real.log |(T.gcov th).det| := by
  unfold Terms.ginv? at h
  split at h
  · rename_i hc
    have hk : ∀ k, (T.A k ⊗ₖ invech (Terms.sl th k)) * ((T.A k)⁻¹ ⊗ₖ (invech (Terms.sl th k))⁻¹) = 1 := fun k => by
      rw [← mul_kronecker_mul, mul_nonsing_inv _ (A_unit hT k), mul_nonsing_inv _ (hc.1 k), one_kronecker_one]
    have hd : (T.gcov th).det = ∏ k, ((T.A k).det ^ T.nrv k * (invech (Terms.sl th k)).det ^ T.nlv k) := by
      unfold Terms.gcov
      rw [det_block]
      refine Finset.prod_congr rfl fun k _ => ?_
      rw [det_kronecker, Fintype.card_fin, Fintype.card_fin]
    have hA : ∀ k, (T.A k).det ≠ 0 := fun k => (A_unit hT k).ne_zero
    have hG : ∀ k, (invech (Terms.sl th k)).det ≠ 0 := fun k => (hc.1 k).ne_zero
    refine ⟨?_, ?_, ?_⟩
    · rw [← Option.some.inj h]
      exact (inv_block _ _ hk).symm
    · rw [hd]
      exact (Finset.prod_ne_zero_iff.2 fun k _ => mul_ne_zero (pow_ne_zero _ (hA k)) (pow_ne_zero _ (hG k))).isUnit
    · rw [hd, Finset.abs_prod, Real.log_prod (fun k _ => abs_ne_zero.2 (mul_ne_zero (pow_ne_zero _ (hA k)) (pow_ne_zero _ (hG k))))]
      unfold Terms.lndetG
      refine Finset.sum_congr rfl fun k _ => ?_
      rw [lda_eq hT, abs_mul, abs_pow, abs_pow, Real.log_mul (pow_ne_zero _ (abs_ne_zero.2 (hA k))) (pow_ne_zero _ (abs_ne_zero.2 (hG k))),
        Real.log_pow, Real.log_pow]
      ring
  · simp at h

theorem ginv_defined {th : T.Par → ℝ} (hG : ∀ k, IsUnit (invech (Terms.sl th k)).det)
    (hpat : ∀ k, ∀ B, T.acov k = some B → ∀ i j, B⁻¹ i j = 0 ↔ B i j = 0) : ∃ Gi, T.ginv? th = some Gi := by
  unfold Terms.ginv?
  exact ⟨_, if_pos ⟨hG, hpat⟩⟩

end Verif.Lmm
