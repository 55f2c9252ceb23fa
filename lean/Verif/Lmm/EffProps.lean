import Verif.Lmm.GradProps
/-!
# C111: fixed effects, random effects and their variances
-/
namespace Verif.Lmm
open Matrix Kronecker Verif.Fa Verif.Like Verif.Calc
variable {T : Terms} {n p q : ℕ}

/-- The coefficient matrix of the random effects, factored by `_factor_C`. -/
noncomputable def cmat (m : Mme T n p) (th : T.Par → ℝ) (s2 : ℝ) : Matrix T.RE T.RE ℝ := m.ZtRZ s2 + (T.gcov th)⁻¹

/-- The generalised least squares estimate. -/
noncomputable def gls (X : Mat n p) (y : Fin n → ℝ) (V : Mat n n) : Fin p → ℝ := (xvx X V)⁻¹ *ᵥ (Xᵀ *ᵥ (V⁻¹ *ᵥ y))

theorem pmat_gls {X : Mat n p} {y : Fin n → ℝ} {V : Mat n n} : pmat X V *ᵥ y = V⁻¹ *ᵥ (y - X *ᵥ gls X y V) := by
  unfold pmat gls
  rw [sub_mulVec, mulVec_sub]
  simp only [mulVec_mulVec, Matrix.mul_assoc]

/-- `compute_effects` returns the generalised least squares estimate, its covariance matrix and the best linear unbiased
predictors. -/
theorem C111_effects (hT : T.Pd) {cq : Mat q q → Option (Mat q q)} (hq : CholOk cq) {e : T.RE ≃ Fin q} {m : Mme T n p}
    {th : T.Par → ℝ} {s2 : ℝ} (hs : s2 ≠ 0) {b : Fin p → ℝ} {M : Mat p p} {u : T.RE → ℝ}
    (h : computeEffects cq e m th s2 = some (b, M, u)) :
    b = gls m.X m.y (vcov m th s2) ∧ M = (xvx m.X (vcov m th s2))⁻¹ ∧
      u = T.gcov th *ᵥ (m.Zᵀ *ᵥ ((vcov m th s2)⁻¹ *ᵥ (m.y - m.X *ᵥ b))) := by
  unfold computeEffects at h
  cases hP : partsV2 cq e m th s2 with
  | none => simp [hP] at h
  | some P =>
  have ok := partsV2_ok hT hq hs hP
  simp only [hP, Option.bind_eq_bind, Option.bind_some] at h
  have h := Option.some.inj h
  simp only [Prod.mk.injEq] at h
  obtain ⟨h1, h2, h3⟩ := h
  have hb : b = gls m.X m.y (vcov m th s2) := by rw [← h1, ok.inv, ok.uxy]; rfl
  refine ⟨hb, by rw [← h2, ok.inv], ?_⟩
  rw [← h3, ok.vy, pmat_gls, hb]

/-- Henderson's mixed model equations. -/
theorem C111_henderson (hT : T.Pd) {cq : Mat q q → Option (Mat q q)} (hq : CholOk cq) {e : T.RE ≃ Fin q} {m : Mme T n p}
    {th : T.Par → ℝ} {s2 : ℝ} (hs : s2 ≠ 0) {b : Fin p → ℝ} {M : Mat p p} {u : T.RE → ℝ}
    (h : computeEffects cq e m th s2 = some (b, M, u)) :
    m.Xᵀ *ᵥ (m.X *ᵥ b) + m.Xᵀ *ᵥ (m.Z *ᵥ u) = m.Xᵀ *ᵥ m.y ∧
      m.Zᵀ *ᵥ (m.X *ᵥ b) + m.Zᵀ *ᵥ (m.Z *ᵥ u) + s2 • ((T.gcov th)⁻¹ *ᵥ u) = m.Zᵀ *ᵥ m.y := by
  unfold computeEffects at h
  have hgu : IsUnit (T.gcov th).det := by
    cases hg : T.ginv? th with
    | none => simp [partsV2, hg] at h
    | some Gi => exact (ginv_some hT hg).2.1
  cases hP : partsV2 cq e m th s2 with
  | none => simp [hP] at h
  | some P =>
  have ok := partsV2_ok hT hq hs hP
  simp only [hP, Option.bind_eq_bind, Option.bind_some] at h
  have h := Option.some.inj h
  simp only [Prod.mk.injEq] at h
  obtain ⟨h1, h2, h3⟩ := h
  have hr := resid_eq ok
  rw [h1, h3] at hr
  have hx : m.Xᵀ *ᵥ (pmat m.X (vcov m th s2) *ᵥ m.y) = 0 := by
    rw [mulVec_mulVec]
    have := congrArg transpose (px_eq ok.xu)
    rw [transpose_mul, pmat_symm (vcov_symm hT m th s2), transpose_zero] at this
    rw [this, zero_mulVec]
  have e1 := congrArg (fun v => m.Xᵀ *ᵥ v) hr
  have e2 := congrArg (fun v => m.Zᵀ *ᵥ v) hr
  simp only [mulVec_sub, mulVec_smul, hx, smul_zero] at e1 e2
  refine ⟨?_, ?_⟩
  · rw [sub_sub, sub_eq_zero] at e1
    exact e1.symm
  · have e3 : (T.gcov th)⁻¹ *ᵥ u = m.Zᵀ *ᵥ (pmat m.X (vcov m th s2) *ᵥ m.y) := by
      rw [← h3, mulVec_mulVec, nonsing_inv_mul _ hgu, one_mulVec, ok.vy]
    rw [e3, ← e2]
    abel

/-- The effects minimise the penalised least squares criterion jointly. -/
theorem C111_joint_minimum (hT : T.Pd) {cq : Mat q q → Option (Mat q q)} (hq : CholOk cq) {e : T.RE ≃ Fin q} {m : Mme T n p}
    {th : T.Par → ℝ} {s2 : ℝ} (hs : 0 < s2) (hth : ∀ k, (invech (Terms.sl th k)).PosDef) {b : Fin p → ℝ} {M : Mat p p}
    {u : T.RE → ℝ} (h : computeEffects cq e m th s2 = some (b, M, u)) (b' : Fin p → ℝ) (u' : T.RE → ℝ) :
    let Q := fun (b : Fin p → ℝ) (u : T.RE → ℝ) =>
      (m.y - m.X *ᵥ b - m.Z *ᵥ u) ⬝ᵥ (m.y - m.X *ᵥ b - m.Z *ᵥ u) + s2 * (u ⬝ᵥ ((T.gcov th)⁻¹ *ᵥ u))
    Q b u ≤ Q b' u' := by
  intro Q
  obtain ⟨h1, h2⟩ := C111_henderson hT hq hs.ne' h
  have hG := (gcov_posDef hT hth).inv
  have hGs : ((T.gcov th)⁻¹)ᵀ = (T.gcov th)⁻¹ := by rw [transpose_nonsing_inv, gcov_symm hT]
  set r := m.y - m.X *ᵥ b - m.Z *ᵥ u with hr
  set Gi := (T.gcov th)⁻¹ with hGi
  have x1 : m.Xᵀ *ᵥ r = 0 := by rw [hr, mulVec_sub, mulVec_sub, ← h1]; abel
  have x2 : m.Zᵀ *ᵥ r = s2 • (Gi *ᵥ u) := by rw [hr, mulVec_sub, mulVec_sub, ← h2]; abel
  set db := b' - b with hdb
  set du := u' - u with hdu
  have eb : b' = b + db := by rw [hdb]; abel
  have eu : u' = u + du := by rw [hdu]; abel
  set w := m.X *ᵥ db + m.Z *ᵥ du with hw
  have er : m.y - m.X *ᵥ b' - m.Z *ᵥ u' = r - w := by rw [eb, eu, mulVec_add, mulVec_add, hr, hw]; abel
  have hrw : r ⬝ᵥ w = s2 * (du ⬝ᵥ (Gi *ᵥ u)) := by
    rw [hw, dotProduct_add, dotProduct_mulVec, dotProduct_mulVec, ← mulVec_transpose, ← mulVec_transpose, x1, x2,
      zero_dotProduct, zero_add, smul_dotProduct, smul_eq_mul, dotProduct_comm]
  have hsym : u ⬝ᵥ (Gi *ᵥ du) = du ⬝ᵥ (Gi *ᵥ u) := by
    rw [dotProduct_mulVec, ← mulVec_transpose, hGs, dotProduct_comm]
  have hnn : 0 ≤ du ⬝ᵥ (Gi *ᵥ du) := hG.posSemidef.dotProduct_mulVec_nonneg du
  have hww : 0 ≤ w ⬝ᵥ w := by
    simp only [dotProduct]
    exact Finset.sum_nonneg fun i _ => mul_self_nonneg _
  show r ⬝ᵥ r + s2 * (u ⬝ᵥ (Gi *ᵥ u)) ≤ _
  show _ ≤ (m.y - m.X *ᵥ b' - m.Z *ᵥ u') ⬝ᵥ (m.y - m.X *ᵥ b' - m.Z *ᵥ u') + s2 * (u' ⬝ᵥ (Gi *ᵥ u'))
  rw [er, eu]
  simp only [sub_dotProduct, dotProduct_sub, add_dotProduct, dotProduct_add, mulVec_add]
  rw [dotProduct_comm w r, hrw, hsym]
  nlinarith [mul_nonneg hs.le hnn]

/-- The fixed effects minimise the generalised sum of squares and its minimum is the quadratic form in the likelihood. -/
theorem C111_profile {X : Mat n p} {y : Fin n → ℝ} {V : Mat n n} (hV : V.PosDef) (hx : IsUnit (xvx X V).det) (b : Fin p → ℝ) :
    y ⬝ᵥ (pmat X V *ᵥ y) = (y - X *ᵥ gls X y V) ⬝ᵥ (V⁻¹ *ᵥ (y - X *ᵥ gls X y V)) ∧
      y ⬝ᵥ (pmat X V *ᵥ y) ≤ (y - X *ᵥ b) ⬝ᵥ (V⁻¹ *ᵥ (y - X *ᵥ b)) := by
  have hs : Vᵀ = V := by
    have := hV.isHermitian
    rwa [IsHermitian, conjTranspose_eq_transpose_of_trivial] at this
  obtain ⟨r, hr⟩ : ∃ r, r = y - X *ᵥ gls X y V := ⟨_, rfl⟩
  rw [← hr]
  have hp : pmat X V *ᵥ y = V⁻¹ *ᵥ r := by rw [hr]; exact pmat_gls
  have hxr : Xᵀ *ᵥ (V⁻¹ *ᵥ r) = 0 := by
    rw [← hp, mulVec_mulVec]
    have := congrArg transpose (px_eq hx)
    rw [transpose_mul, pmat_symm hs, transpose_zero] at this
    rw [this, zero_mulVec]
  have h0 : ∀ d, (X *ᵥ d) ⬝ᵥ (V⁻¹ *ᵥ r) = 0 := fun d => by
    rw [dotProduct_comm, dotProduct_mulVec, ← mulVec_transpose, hxr, zero_dotProduct]
  have e1 : y ⬝ᵥ (pmat X V *ᵥ y) = r ⬝ᵥ (V⁻¹ *ᵥ r) := by
    rw [hp]
    have : y = r + X *ᵥ gls X y V := by rw [hr]; abel
    conv_lhs => arg 1; rw [this]
    rw [add_dotProduct, h0, add_zero]
  refine ⟨e1, ?_⟩
  rw [e1]
  have er : y - X *ᵥ b = r - X *ᵥ (b - gls X y V) := by rw [mulVec_sub, hr]; abel
  rw [er]
  have hd0 := h0 (b - gls X y V)
  have h1 : r ⬝ᵥ (V⁻¹ *ᵥ (X *ᵥ (b - gls X y V))) = 0 := by
    rw [dotProduct_mulVec, ← mulVec_transpose, vinv_symm hs, dotProduct_comm, h0]
  have h2 : 0 ≤ (X *ᵥ (b - gls X y V)) ⬝ᵥ (V⁻¹ *ᵥ (X *ᵥ (b - gls X y V))) :=
    hV.inv.posSemidef.dotProduct_mulVec_nonneg _
  generalize X *ᵥ (b - gls X y V) = d at *
  have hd : d ⬝ᵥ (V⁻¹ *ᵥ r) = 0 := hd0
  rw [mulVec_sub, sub_dotProduct, dotProduct_sub, dotProduct_sub, hd, h1]
  linarith

theorem blockZ (m : Mme T n p) (j : T.Par) : m.Z * T.gcov (Pi.single j 1) * m.Zᵀ =
    m.Z.submatrix id (fun x => (⟨j.1, x⟩ : T.RE)) * T.dG j * (m.Z.submatrix id fun x => (⟨j.1, x⟩ : T.RE))ᵀ := by
  ext i i'
  have h := trace_block (vecMulVec (m.Z i') (m.Z i)) j
  have e1 : (vecMulVec (m.Z i') (m.Z i) * T.gcov (Pi.single j 1)).trace = (m.Z * T.gcov (Pi.single j 1) * m.Zᵀ) i i' := by
    simp only [trace, diag, Matrix.mul_apply, vecMulVec_apply, transpose_apply, Finset.sum_mul]
    exact Finset.sum_congr rfl fun x _ => Finset.sum_congr rfl fun x' _ => by ring
  rw [← e1, h]
  simp only [Matrix.mul_apply, vecMulVec_apply, transpose_apply, submatrix_apply, id_eq, Finset.sum_mul]
  exact Finset.sum_congr rfl fun x _ => Finset.sum_congr rfl fun x' _ => by ring

section apply
variable {m : Mme T n p} {th : T.Par → ℝ} {s2 : ℝ} (hs : s2 ≠ 0) (hG : IsUnit (T.gcov th).det) (hC : IsUnit (cmat m th s2).det)
include hs hG hC

/-- `vinv_apply` multiplies by the inverse of the marginal covariance. -/
theorem C111_vinv_apply (v : Fin n → ℝ) : vinvApply m (cmat m th s2) v s2 = (vcov m th s2)⁻¹ *ᵥ v := by
  have h := vinv_eq hs hG hC
  unfold vcov
  rw [h, sub_mulVec]
  unfold vinvApply cmat Mme.ZtRZ
  simp only [smul_mulVec, one_mulVec, ← mulVec_mulVec, mulVec_smul, Matrix.smul_mul]

/-- `p_apply` multiplies by the projection of the restricted likelihood. -/
theorem C111_p_apply (v : Fin n → ℝ) (reml : Bool) :
    pApply m (cmat m th s2) (xvx m.X (vcov m th s2))⁻¹ v s2 reml =
      if reml then pmat m.X (vcov m th s2) *ᵥ v else (vcov m th s2)⁻¹ *ᵥ v := by
  unfold pApply
  simp only [C111_vinv_apply hs hG hC]
  cases reml
  · rfl
  · simp only [if_true]
    rw [pmat_gls, mulVec_sub]
    rfl

/-- `vinvcrossprod` is the cross product in the metric of the inverse covariance. -/
theorem C111_vinvcrossprod {a b : ℕ} (A : Mat n a) (B : Mat n b) :
    vinvCross m (cmat m th s2) A B s2 = Aᵀ * (vcov m th s2)⁻¹ * B := by
  rw [cross_eq hs hG hC]
  unfold vinvCross cmat
  simp only [Matrix.smul_mul, Matrix.mul_smul, Matrix.one_mul, transpose_smul, Matrix.mul_assoc]

theorem cinv_z : (cmat m th s2)⁻¹ * ((1 / s2) • m.Zᵀ) = T.gcov th * m.Zᵀ * (vcov m th s2)⁻¹ := by
  have hV : IsUnit (vcov m th s2).det := by
    unfold vcov
    rw [vdet_eq hs hG]
    exact ((pow_ne_zero _ hs).isUnit.mul hG).mul hC
  have h1 : cmat m th s2 * (T.gcov th * m.Zᵀ) = ((1 / s2) • m.Zᵀ) * vcov m th s2 := by
    unfold cmat vcov Mme.ZtRZ
    rw [Matrix.add_mul, ← Matrix.mul_assoc (T.gcov th)⁻¹, nonsing_inv_mul _ hG, Matrix.one_mul, Matrix.mul_add]
    simp only [Matrix.smul_mul, Matrix.mul_smul, Matrix.mul_one, smul_smul, mul_one_div_cancel hs, one_smul,
      Matrix.mul_assoc]
  have h2 : T.gcov th * m.Zᵀ = (cmat m th s2)⁻¹ * (((1 / s2) • m.Zᵀ) * vcov m th s2) := by
    rw [← h1, ← Matrix.mul_assoc, nonsing_inv_mul _ hC, Matrix.one_mul]
  rw [h2, Matrix.mul_assoc, Matrix.mul_assoc, mul_nonsing_inv _ hV, Matrix.mul_one]

theorem cinv_eq : (cmat m th s2)⁻¹ = T.gcov th - T.gcov th * m.Zᵀ * (vcov m th s2)⁻¹ * m.Z * T.gcov th := by
  rw [← cinv_z hs hG hC]
  have h1 : cmat m th s2 * T.gcov th = ((1 / s2) • m.Zᵀ) * m.Z * T.gcov th + 1 := by
    unfold cmat Mme.ZtRZ
    rw [Matrix.add_mul, nonsing_inv_mul _ hG, Matrix.smul_mul, Matrix.smul_mul, Matrix.smul_mul]
  refine inv_eq_right_inv ?_
  rw [Matrix.mul_sub, h1]
  simp only [← Matrix.mul_assoc]
  rw [mul_nonsing_inv _ hC, Matrix.one_mul]
  abel

/-- `random_effects_se` is the standard error of prediction: its square is the variance `G - G Zᵀ P Z G` of the prediction
errors. -/
theorem C111_ranef_var (hT : T.Pd) (hCp : (cmat m th s2).PosDef) (hx : (xvx m.X (vcov m th s2)).PosDef) (i : T.RE) :
    ranefVar m (cmat m th s2) (xvx m.X (vcov m th s2))⁻¹ s2 i =
      (T.gcov th - T.gcov th * m.Zᵀ * pmat m.X (vcov m th s2) * m.Z * T.gcov th) i i := by
  have hV := vcov_symm hT m th s2
  have hMX : (cmat m th s2)⁻¹ * (m.ZtRXy s2).submatrix id Fin.castSucc = T.gcov th * m.Zᵀ * (vcov m th s2)⁻¹ * m.X := by
    rw [← cinv_z hs hG hC]
    have : (m.ZtRXy s2).submatrix id Fin.castSucc = (1 / s2) • (m.Zᵀ * m.X) := by
      rw [← Xy_mul]; rfl
    rw [this, Matrix.mul_assoc, Matrix.smul_mul]
  set B := T.gcov th * m.Zᵀ * (vcov m th s2)⁻¹ * m.X with hB
  have hsum : ∑ k, ∑ l, B i k * (xvx m.X (vcov m th s2))⁻¹ k l * B i l = (B * (xvx m.X (vcov m th s2))⁻¹ * Bᵀ) i i := by
    simp only [mul_apply, transpose_apply, Finset.sum_mul]
    exact Finset.sum_comm
  have hpos : 0 ≤ (cmat m th s2)⁻¹ i i + (B * (xvx m.X (vcov m th s2))⁻¹ * Bᵀ) i i := by
    have h1 := hCp.inv.posSemidef.diag_nonneg (i := i)
    have h2 := (hx.inv.posSemidef.mul_mul_conjTranspose_same B).diag_nonneg (i := i)
    rw [conjTranspose_eq_transpose_of_trivial] at h2
    linarith
  unfold ranefVar
  simp only
  rw [hMX, hsum, max_eq_left hpos, cinv_eq hs hG hC, ← Matrix.add_apply]
  refine congrFun (congrFun (?_ : (_ : Matrix T.RE T.RE ℝ) = _) i) i
  unfold pmat
  rw [hB]
  simp only [transpose_mul, transpose_transpose, vinv_symm hV, gcov_symm hT, Matrix.mul_sub, Matrix.sub_mul, Matrix.mul_assoc]
  abel

/-- `_dC_dtheta` is the derivative of the covariance matrix of the fixed effects. -/
theorem dC_eq (hT : T.Pd) :
    (∀ j, dCG m (cmat m th s2) (xvx m.X (vcov m th s2))⁻¹ s2 j = (xvx m.X (vcov m th s2))⁻¹ *
      (m.Xᵀ * (vcov m th s2)⁻¹ * (m.Z * T.gcov (Pi.single j 1) * m.Zᵀ) * (vcov m th s2)⁻¹ * m.X) * (xvx m.X (vcov m th s2))⁻¹) ∧
    dCR m (cmat m th s2) (xvx m.X (vcov m th s2))⁻¹ s2 = (xvx m.X (vcov m th s2))⁻¹ *
      (m.Xᵀ * (vcov m th s2)⁻¹ * (1 : Mat n n) * (vcov m th s2)⁻¹ * m.X) * (xvx m.X (vcov m th s2))⁻¹ := by
  have hV := vcov_symm hT m th s2
  refine ⟨fun j => ?_, ?_⟩
  · have h1 : m.Xᵀ * (vcov m th s2)⁻¹ * m.Z.submatrix id (fun x => (⟨j.1, x⟩ : T.RE)) =
        m.Xᵀ * (((1 / s2) • (1 : Mat n n)) * m.Z.submatrix id (fun x => (⟨j.1, x⟩ : T.RE))) -
          (m.Zᵀ * (((1 / s2) • (1 : Mat n n)) * m.X))ᵀ * ((cmat m th s2)⁻¹ *
            (m.Zᵀ * (((1 / s2) • (1 : Mat n n)) * m.Z.submatrix id (fun x => (⟨j.1, x⟩ : T.RE))))) := by
      rw [cross_eq hs hG hC]
      unfold cmat
      simp only [Matrix.smul_mul, Matrix.mul_smul, Matrix.one_mul, transpose_smul, Matrix.mul_assoc]
    rw [blockZ]
    unfold dCG
    simp only
    rw [← h1]
    simp only [transpose_mul, transpose_transpose, vinv_symm hV, xvxi_symm hV, Matrix.mul_assoc]
  · have h1 : ((1 / s2) • (1 : Mat n n)) * m.X - ((1 / s2) • (1 : Mat n n)) * m.Z * ((cmat m th s2)⁻¹ *
        (m.Zᵀ * (((1 / s2) • (1 : Mat n n)) * m.X))) = (vcov m th s2)⁻¹ * m.X := by
      unfold vcov
      rw [vinv_eq hs hG hC, Matrix.sub_mul]
      unfold cmat Mme.ZtRZ
      simp only [Matrix.smul_mul, Matrix.mul_smul, Matrix.one_mul, Matrix.mul_assoc]
    unfold dCR
    simp only
    rw [h1]
    simp only [transpose_mul, transpose_transpose, vinv_symm hV, xvxi_symm hV, Matrix.mul_assoc, Matrix.one_mul]

end apply

/-- `_dC_dtheta` is the derivative of the covariance matrix of the fixed effects along every path of the parameters. -/
theorem C111_dC_dtheta (hT : T.Pd) {m : Mme T n p} {th : ℝ → T.Par → ℝ} {th' : T.Par → ℝ} {s2 : ℝ → ℝ} {s2' : ℝ}
    (h : ∀ j, HasDerivAt (fun t => th t j) (th' j) 0) (hs : HasDerivAt s2 s2' 0) (h0 : s2 0 ≠ 0)
    (hG : IsUnit (T.gcov (th 0)).det) (hC : IsUnit (cmat m (th 0) (s2 0)).det)
    (hx : IsUnit (xvx m.X (vcov m (th 0) (s2 0))).det) :
    let C := fun t => (xvx m.X (vcov m (th t) (s2 t)))⁻¹
    MD C (∑ j, th' j • dCG m (cmat m (th 0) (s2 0)) (C 0) (s2 0) j + s2' • dCR m (cmat m (th 0) (s2 0)) (C 0) (s2 0)) := by
  intro C
  have hV : IsUnit (vcov m (th 0) (s2 0)).det := by
    unfold vcov
    rw [vdet_eq h0 hG]
    exact ((pow_ne_zero _ h0).isUnit.mul hG).mul hC
  have hd := (md_xvx (X := m.X) (vcov_md (m := m) h hs) hV).inv hx
  refine hd.congr ?_
  obtain ⟨e1, e2⟩ := dC_eq h0 hG hC hT
  show _ = ∑ j, th' j • dCG m (cmat m (th 0) (s2 0)) (xvx m.X (vcov m (th 0) (s2 0)))⁻¹ (s2 0) j +
    s2' • dCR m (cmat m (th 0) (s2 0)) (xvx m.X (vcov m (th 0) (s2 0)))⁻¹ (s2 0)
  rw [e2]
  simp only [e1]
  have : m.Z * T.gcov th' * m.Zᵀ = ∑ j, th' j • (m.Z * T.gcov (Pi.single j 1) * m.Zᵀ) := by
    conv_lhs => rw [gcov_sum th']
    rw [Matrix.mul_sum, Matrix.sum_mul]
    simp only [Matrix.mul_smul, Matrix.smul_mul]
  rw [this]
  simp only [Matrix.mul_add, Matrix.add_mul, Matrix.mul_sum, Matrix.sum_mul, Matrix.mul_smul, Matrix.smul_mul, Matrix.neg_mul,
    Matrix.mul_neg, neg_neg, neg_add]

end Verif.Lmm
