import Verif.Lmm.Lm
import Verif.Lmm.EffProps
/-!
# Lemmas on the mixed model equations of `LMM`
-/
namespace Verif.Lmm.Lm
open Matrix Kronecker Verif.Fa Verif.Like Verif.Calc
variable {T : Terms} {n p q N : ℕ}

/-- The coefficient matrix of the mixed model equations. -/
noncomputable def kmat (m : Mme T n p) (Gi : Matrix T.RE T.RE ℝ) (s2 : ℝ) : Matrix (Ix T p) (Ix T p) ℝ :=
  fromBlocks ((1 / s2) • (m.Xᵀ * m.X)) ((1 / s2) • (m.Xᵀ * m.Z)) ((1 / s2) • (m.Zᵀ * m.X)) (m.ZtRZ s2 + Gi)

/-- The right hand side of the mixed model equations. -/
noncomputable def rhs (m : Mme T n p) (s2 : ℝ) : Ix T p → ℝ := (1 / s2) • Sum.elim (m.Xᵀ *ᵥ m.y) (m.Zᵀ *ᵥ m.y)

theorem mme_k (m : Mme T n p) (Gi : Matrix T.RE T.RE ℝ) (s2 : ℝ) : (updateMme m Gi s2).submatrix Sum.inl Sum.inl = kmat m Gi s2 := by
  ext i j
  rcases i with i | i <;> rcases j with j | j <;>
  simp [updateMme, bigM, kmat, Mme.ZtRZ, transpose_mul]

theorem mme_w (m : Mme T n p) (Gi : Matrix T.RE T.RE ℝ) (s2 : ℝ) (i : Ix T p) :
    updateMme m Gi s2 (Sum.inl i) (Sum.inr ()) = rhs m s2 i := by
  rcases i with i | i <;>
  simp [updateMme, bigM, rhs, mulVec, dotProduct, mul_apply, transpose_mul]

theorem mme_yy (m : Mme T n p) (Gi : Matrix T.RE T.RE ℝ) (s2 : ℝ) :
    updateMme m Gi s2 (Sum.inr ()) (Sum.inr ()) = (1 / s2) * (m.y ⬝ᵥ m.y) := by
  simp [updateMme, bigM, dotProduct, mul_apply]

theorem mme_symm (m : Mme T n p) {Gi : Matrix T.RE T.RE ℝ} (hG : Giᵀ = Gi) (s2 : ℝ) : (updateMme m Gi s2)ᵀ = updateMme m Gi s2 := by
  have h1 : ∀ i j, Gi i j = Gi j i := fun i j => congrFun (congrFun hG.symm i) j
  ext i j
  rw [transpose_apply]
  rcases i with (i | i) | i <;> rcases j with (j | j) | j <;>
  simp [updateMme, bigM, mul_apply, mul_comm]
  exact h1 _ _

variable {m : Mme T n p} {th : T.Par → ℝ} {s2 : ℝ}

theorem vcov_unit (hs : s2 ≠ 0) (hG : IsUnit (T.gcov th).det) (hC : IsUnit (cmat m th s2).det) : IsUnit (vcov m th s2).det := by
  unfold vcov
  rw [vdet_eq hs hG]
  exact ((pow_ne_zero _ hs).isUnit.mul hG).mul hC

/-- The determinant of the coefficient matrix. -/
theorem kmat_det (hs : s2 ≠ 0) (hG : IsUnit (T.gcov th).det) (hC : IsUnit (cmat m th s2).det) :
    (kmat m (T.gcov th)⁻¹ s2).det = (cmat m th s2).det * (xvx m.X (vcov m th s2)).det := by
  have : Invertible (cmat m th s2) := invertibleOfIsUnitDet _ hC
  unfold kmat
  rw [show m.ZtRZ s2 + (T.gcov th)⁻¹ = cmat m th s2 from rfl, det_fromBlocks₂₂]
  congr 2
  rw [xvx, cross_eq hs hG hC, invOf_eq_nonsing_inv]
  simp only [cmat, transpose_smul, transpose_mul, transpose_transpose]

/-- The best linear unbiased predictor. -/
noncomputable def blup (m : Mme T n p) (th : T.Par → ℝ) (s2 : ℝ) : T.RE → ℝ :=
  T.gcov th *ᵥ (m.Zᵀ *ᵥ (pmat m.X (vcov m th s2) *ᵥ m.y))

theorem resid_blup (hV : IsUnit (vcov m th s2).det) :
    m.y - m.X *ᵥ gls m.X m.y (vcov m th s2) - m.Z *ᵥ blup m th s2 = s2 • (pmat m.X (vcov m th s2) *ᵥ m.y) := by
  have h1 : vcov m th s2 *ᵥ (pmat m.X (vcov m th s2) *ᵥ m.y) = m.y - m.X *ᵥ gls m.X m.y (vcov m th s2) := by
    rw [mulVec_mulVec, vp_eq hV, sub_mulVec, one_mulVec, gls]
    simp only [mulVec_mulVec, Matrix.mul_assoc]
  rw [← h1, blup]
  generalize pmat m.X (vcov m th s2) *ᵥ m.y = w
  rw [vcov, add_mulVec, smul_mulVec, one_mulVec]
  simp only [mulVec_mulVec, Matrix.mul_assoc]
  abel

/-- The generalised least squares estimate and the predictors solve the mixed model equations. -/
theorem kmat_solve (hT : T.Pd) (hs : s2 ≠ 0) (hG : IsUnit (T.gcov th).det) (hV : IsUnit (vcov m th s2).det)
    (hx : IsUnit (xvx m.X (vcov m th s2)).det) :
    kmat m (T.gcov th)⁻¹ s2 *ᵥ Sum.elim (gls m.X m.y (vcov m th s2)) (blup m th s2) = rhs m s2 := by
  have hr := resid_blup (m := m) (th := th) (s2 := s2) hV
  have hx0 : m.Xᵀ *ᵥ (pmat m.X (vcov m th s2) *ᵥ m.y) = 0 := by
    rw [mulVec_mulVec]
    have := congrArg transpose (px_eq hx)
    rw [transpose_mul, pmat_symm (vcov_symm hT m th s2), transpose_zero] at this
    rw [this, zero_mulVec]
  have hGi : (T.gcov th)⁻¹ *ᵥ blup m th s2 = m.Zᵀ *ᵥ (pmat m.X (vcov m th s2) *ᵥ m.y) := by
    rw [blup, mulVec_mulVec, nonsing_inv_mul _ hG, one_mulVec]
  unfold kmat rhs
  rw [fromBlocks_mulVec]
  have e1 := congrArg (fun v => (1 / s2) • (m.Xᵀ *ᵥ v)) hr
  have e2 := congrArg (fun v => (1 / s2) • (m.Zᵀ *ᵥ v)) hr
  simp only [mulVec_smul, hx0, smul_zero, mulVec_sub, smul_sub, smul_smul, one_div_mul_cancel hs, one_smul] at e1 e2
  have hl : ∀ (a : Fin p → ℝ) (b : T.RE → ℝ) (c : ℝ), c • Sum.elim a b = Sum.elim (c • a) (c • b) := by
    intro a b c; funext i; rcases i with i | i <;> rfl
  rw [hl]
  congr 1
  · simp only [Sum.elim_comp_inl, Sum.elim_comp_inr, smul_mulVec, ← mulVec_mulVec]
    rw [sub_sub, sub_eq_zero] at e1
    exact e1.symm
  · simp only [Sum.elim_comp_inl, Sum.elim_comp_inr, smul_mulVec, ← mulVec_mulVec, add_mulVec, hGi, Mme.ZtRZ]
    rw [← e2]
    abel

theorem kmat_inv (hT : T.Pd) (hs : s2 ≠ 0) (hG : IsUnit (T.gcov th).det) (hC : IsUnit (cmat m th s2).det)
    (hx : IsUnit (xvx m.X (vcov m th s2)).det) :
    (kmat m (T.gcov th)⁻¹ s2)⁻¹ *ᵥ rhs m s2 = Sum.elim (gls m.X m.y (vcov m th s2)) (blup m th s2) := by
  have hK : IsUnit (kmat m (T.gcov th)⁻¹ s2).det := by
    rw [kmat_det hs hG hC]; exact hC.mul hx
  rw [← kmat_solve hT hs hG (vcov_unit hs hG hC) hx, mulVec_mulVec, nonsing_inv_mul _ hK, one_mulVec]

/-- The Schur complement of the coefficient matrix is the quadratic form of the likelihood. -/
theorem schur_y (hT : T.Pd) (hs : s2 ≠ 0) (hG : IsUnit (T.gcov th).det) (hC : IsUnit (cmat m th s2).det)
    (hx : IsUnit (xvx m.X (vcov m th s2)).det) :
    (1 / s2) * (m.y ⬝ᵥ m.y) - rhs m s2 ⬝ᵥ ((kmat m (T.gcov th)⁻¹ s2)⁻¹ *ᵥ rhs m s2) = m.y ⬝ᵥ (pmat m.X (vcov m th s2) *ᵥ m.y) := by
  rw [kmat_inv hT hs hG hC hx]
  have hr := resid_blup (m := m) (th := th) (s2 := s2) (vcov_unit hs hG hC)
  have e := congrArg (fun v => (1 / s2) * (m.y ⬝ᵥ v)) hr
  simp only [dotProduct_sub, dotProduct_smul, smul_eq_mul, ← mul_assoc, one_div_mul_cancel hs, one_mul] at e
  rw [← e]
  have h1 : rhs m s2 ⬝ᵥ Sum.elim (gls m.X m.y (vcov m th s2)) (blup m th s2) =
      (1 / s2) * (m.y ⬝ᵥ (m.X *ᵥ gls m.X m.y (vcov m th s2)) + m.y ⬝ᵥ (m.Z *ᵥ blup m th s2)) := by
    rw [rhs, smul_dotProduct, smul_eq_mul, dotProduct_mulVec, dotProduct_mulVec, ← mulVec_transpose, ← mulVec_transpose]
    congr 1
    simp [dotProduct, Fintype.sum_sum_type]
  rw [h1]
  ring

end Verif.Lmm.Lm
