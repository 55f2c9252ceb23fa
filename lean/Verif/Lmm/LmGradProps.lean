import Verif.Lmm.LmLikeProps
/-!
# C145: the derivatives of the likelihood of `LMM`
-/
namespace Verif.Lmm.Lm
open Matrix Kronecker Verif.Fa Verif.Like Verif.Calc
variable {T : Terms} {n p q N : ℕ} {m : Mme T n p} {th : T.Par → ℝ} {s2 : ℝ}

/-- The inverse formed from a factor in any ordering. -/
theorem fac_inv {ι : Type} [Fintype ι] [DecidableEq ι] {e : ι ≃ Fin q} {L : Mat q q} {C : Matrix ι ι ℝ}
    (h : L * Lᵀ = C.submatrix e.symm e.symm) : ((L⁻¹)ᵀ * L⁻¹).submatrix e e = C⁻¹ := by
  rw [transpose_nonsing_inv, ← Matrix.mul_inv_rev, h, inv_submatrix_equiv, submatrix_submatrix]
  simp

/-- The block of `Z` of a parameter. -/
def zb (m : Mme T n p) (j : T.Par) : Matrix (Fin n) (Fin (T.nlv j.1) × Fin (T.nrv j.1)) ℝ :=
  m.Z.submatrix id (fun x => (⟨j.1, x⟩ : T.RE))

/-- The derivative of the covariance with respect to a parameter. -/
noncomputable def dV (m : Mme T n p) (j : T.Par) : Mat n n := m.Z * T.gcov (Pi.single j 1) * m.Zᵀ

theorem dV_eq (m : Mme T n p) (j : T.Par) : dV m j = zb m j * T.dG j * (zb m j)ᵀ := blockZ m j

structure GOk (m : Mme T n p) (th : T.Par → ℝ) (s2 : ℝ) (P : GParts T n p) : Prop where
  hG : IsUnit (T.gcov th).det
  hC : IsUnit (cmat m th s2).det
  hx : IsUnit (xvx m.X (vcov m th s2)).det
  W : P.W = (1 / s2) • 1
  RZ : P.RZ = (1 / s2) • m.Z
  M : P.M = (cmat m th s2)⁻¹
  ZtWZ : P.ZtWZ = m.Zᵀ * (vcov m th s2)⁻¹ * m.Z
  Xi : P.XtWXinv = (xvx m.X (vcov m th s2))⁻¹
  ZtWX : P.ZtWX = m.Zᵀ * (vcov m th s2)⁻¹ * m.X
  WX : P.WX = (vcov m th s2)⁻¹ * m.X
  Py : P.Py = pmat m.X (vcov m th s2) *ᵥ m.y

theorem vinv_form (hs : s2 ≠ 0) (hG : IsUnit (T.gcov th).det) (hC : IsUnit (cmat m th s2).det) :
    (vcov m th s2)⁻¹ = (1 / s2) • 1 - ((1 / s2) • m.Z) * (cmat m th s2)⁻¹ * ((1 / s2) • m.Z)ᵀ := by
  unfold vcov
  rw [vinv_eq hs hG hC, transpose_smul]
  rfl

theorem cmat_symm (hT : T.Pd) (m : Mme T n p) (th : T.Par → ℝ) (s2 : ℝ) : (cmat m th s2)ᵀ = cmat m th s2 := by
  unfold cmat Mme.ZtRZ
  rw [transpose_add, transpose_smul, transpose_mul, transpose_transpose, transpose_nonsing_inv, gcov_symm hT]

theorem gparts_ok (hT : T.Pd) {cq : Mat q q → Option (Mat q q)} (hq : CholOk cq) {e : T.RE ≃ Fin q} {tr : Bool}
    (hs : s2 ≠ 0) {P : GParts T n p} (h : gparts cq e m tr th s2 = some P) : GOk m th s2 P := by
  unfold gparts at h
  cases hg : T.ginv? th with
  | none => simp [hg] at h
  | some Gi =>
  obtain ⟨h1, h2, h3⟩ := ginv_some hT hg
  subst h1
  have hRZ : ((1 / s2) • (1 : Mat n n)) * m.Z = (1 / s2) • m.Z := by rw [Matrix.smul_mul, Matrix.one_mul]
  have hRX : ((1 / s2) • (1 : Mat n n)) * m.X = (1 / s2) • m.X := by rw [Matrix.smul_mul, Matrix.one_mul]
  have hRy : ((1 / s2) • (1 : Mat n n)) *ᵥ m.y = (1 / s2) • m.y := by rw [smul_mulVec, one_mulVec]
  have hQ : (T.gcov th)⁻¹ + ((1 / s2) • m.Z)ᵀ * m.Z = cmat m th s2 := by
    rw [add_comm, transpose_smul, Matrix.smul_mul]; rfl
  simp only [hg, hRZ, hRX, hRy, hQ, Option.bind_eq_bind, Option.bind_some] at h
  cases hl : cq ((cmat m th s2).submatrix e.symm e.symm) with
  | none => simp [hl] at h
  | some L =>
  obtain ⟨l1, l2, l3⟩ := hq.ok _ _ hl
  have hC := fac_unit e l1 (unit_chol l2 l3)
  have hV := vinv_form hs h2 hC
  simp only [hl, Option.bind_some, fac_inv l1] at h
  have hC' := cmat_symm hT m th s2
  have hMt : ((cmat m th s2)⁻¹)ᵀ = (cmat m th s2)⁻¹ := by rw [transpose_nonsing_inv, hC']
  have hXV : m.Xᵀ * ((1 / s2) • m.X) - (((1 / s2) • m.Z)ᵀ * m.X)ᵀ * ((cmat m th s2)⁻¹ * (((1 / s2) • m.Z)ᵀ * m.X)) =
      xvx m.X (vcov m th s2) := by
    unfold xvx
    rw [hV, Matrix.mul_sub, Matrix.sub_mul, transpose_mul, transpose_transpose]
    simp only [Matrix.mul_assoc, Matrix.mul_smul, Matrix.smul_mul, Matrix.one_mul]
  rw [hXV] at h
  cases hi : inv? (xvx m.X (vcov m th s2)) with
  | none => simp [hi] at h
  | some Xi =>
  obtain ⟨hx, hXi⟩ := inv?_eq hi
  subst hXi
  simp only [hi, Option.bind_some] at h
  have h := Option.some.inj h
  subst h
  have hWX : (1 / s2) • m.X - (1 / s2) • m.Z * ((cmat m th s2)⁻¹ * (((1 / s2) • m.Z)ᵀ * m.X)) = (vcov m th s2)⁻¹ * m.X := by
    rw [hV, Matrix.sub_mul]
    simp only [Matrix.mul_assoc, Matrix.smul_mul, Matrix.one_mul]
  refine ⟨h2, hC, hx, rfl, rfl, rfl, ?_, rfl, ?_, hWX, ?_⟩
  · have hz : ((1 / s2) • m.Z)ᵀ * m.Z - ((1 / s2) • m.Z)ᵀ * m.Z * (cmat m th s2)⁻¹ * (((1 / s2) • m.Z)ᵀ * m.Z) =
        m.Zᵀ * (vcov m th s2)⁻¹ * m.Z := by
      rw [hV, Matrix.mul_sub, Matrix.sub_mul]
      simp only [transpose_smul, Matrix.mul_assoc, Matrix.mul_smul, Matrix.smul_mul, Matrix.one_mul]
    cases tr with
    | true =>
      simp only [if_true]
      rw [← hz, transpose_mul, transpose_transpose, transpose_transpose]
    | false =>
      simp only [Bool.false_eq_true, if_false]
      exact hz
  · rw [hV, Matrix.mul_sub, Matrix.sub_mul]
    simp only [transpose_smul, Matrix.mul_assoc, Matrix.mul_smul, Matrix.smul_mul, Matrix.one_mul]
  · simp only [hWX]
    have hVy : (1 / s2) • m.y - ((1 / s2) • m.Z) *ᵥ ((cmat m th s2)⁻¹ *ᵥ (((1 / s2) • m.Z)ᵀ *ᵥ m.y)) = (vcov m th s2)⁻¹ *ᵥ m.y := by
      rw [hV, sub_mulVec, hRy]
      simp only [mulVec_mulVec, Matrix.mul_assoc]
    rw [hVy, pmat, sub_mulVec]
    have hVt := vinv_symm (vcov_symm hT m th s2)
    rw [transpose_mul, hVt]
    simp only [mulVec_mulVec, Matrix.mul_assoc]

variable {P : GParts T n p}

theorem gcomp_eq (hT : T.Pd) (h : GOk m th s2 P) (reml : Bool) (j : T.Par) :
    gcomp reml m P j = dform reml m.X m.y (vcov m th s2) (dV m j) := by
  have hVt := vinv_symm (vcov_symm hT m th s2)
  unfold gcomp dform
  rw [dV_eq]
  have e1 : P.ZtWZ.submatrix (fun x => (⟨j.1, x⟩ : T.RE)) (fun x => (⟨j.1, x⟩ : T.RE)) = (zb m j)ᵀ * (vcov m th s2)⁻¹ * zb m j := by
    rw [h.ZtWZ]; rfl
  have e2 : P.ZtWX.submatrix (fun x => (⟨j.1, x⟩ : T.RE)) id = (zb m j)ᵀ * (vcov m th s2)⁻¹ * m.X := by
    rw [h.ZtWX]; rfl
  have e3 : (fun x => (m.Zᵀ *ᵥ P.Py) (⟨j.1, x⟩ : T.RE)) = (zb m j)ᵀ *ᵥ P.Py := rfl
  simp only [e1, e2, h.Xi]
  rw [e3, h.Py]
  have g1 : (T.dG j * ((zb m j)ᵀ * (vcov m th s2)⁻¹ * zb m j)).trace =
      ((vcov m th s2)⁻¹ * (zb m j * T.dG j * (zb m j)ᵀ)).trace := by
    rw [trace_mul_comm, Matrix.mul_assoc (_ * _), Matrix.mul_assoc, trace_mul_comm]
    simp only [Matrix.mul_assoc]
  have g2 : ∀ v : Fin n → ℝ, ((zb m j)ᵀ *ᵥ v) ⬝ᵥ (T.dG j *ᵥ ((zb m j)ᵀ *ᵥ v)) = v ⬝ᵥ ((zb m j * T.dG j * (zb m j)ᵀ) *ᵥ v) := by
    intro v
    rw [mulVec_transpose, ← dotProduct_mulVec]
    simp only [← mulVec_mulVec, mulVec_transpose]
  have g3 : ((zb m j)ᵀ * (vcov m th s2)⁻¹ * m.X)ᵀ * (T.dG j * ((zb m j)ᵀ * (vcov m th s2)⁻¹ * m.X)) =
      m.Xᵀ * (vcov m th s2)⁻¹ * (zb m j * T.dG j * (zb m j)ᵀ) * (vcov m th s2)⁻¹ * m.X := by
    simp only [transpose_mul, transpose_transpose, hVt, Matrix.mul_assoc]
  rw [g1, g2, g3]
  ring

theorem rcomp_eq (hT : T.Pd) (hs : s2 ≠ 0) (h : GOk m th s2 P) (reml tr : Bool) :
    rcomp reml tr P = dform reml m.X m.y (vcov m th s2) 1 := by
  have hVt := vinv_symm (vcov_symm hT m th s2)
  have hMt : ((cmat m th s2)⁻¹)ᵀ = (cmat m th s2)⁻¹ := by rw [transpose_nonsing_inv, cmat_symm hT]
  unfold rcomp dform
  dsimp only
  have g1 : ∀ b : Bool, P.W.trace - (if b then ((P.RZᵀ * (1 : Mat n n) * P.RZ)ᵀ * P.Mᵀ).trace else
      (P.M * (P.RZᵀ * (1 : Mat n n) * P.RZ)).trace) = ((vcov m th s2)⁻¹ * 1).trace := by
    intro b
    have h0 : (P.M * (P.RZᵀ * (1 : Mat n n) * P.RZ)).trace = (P.RZ * P.M * P.RZᵀ).trace := by
      rw [Matrix.mul_one, ← Matrix.mul_assoc, trace_mul_comm, ← Matrix.mul_assoc]
    have h1 : ((P.RZᵀ * (1 : Mat n n) * P.RZ)ᵀ * P.Mᵀ).trace = (P.M * (P.RZᵀ * (1 : Mat n n) * P.RZ)).trace := by
      rw [← transpose_mul, trace_transpose]
    rw [h1, ite_self, h0, Matrix.mul_one, vinv_form hs h.hG h.hC, trace_sub, h.W, h.RZ, h.M]
  rw [g1, h.WX, h.Xi, h.Py, one_mulVec]
  have g3 : ((vcov m th s2)⁻¹ * m.X)ᵀ * ((vcov m th s2)⁻¹ * m.X) = m.Xᵀ * (vcov m th s2)⁻¹ * (1 : Mat n n) * (vcov m th s2)⁻¹ * m.X := by
    simp only [transpose_mul, hVt, Matrix.mul_assoc, Matrix.one_mul]
  rw [g3]
  ring

/-- `gradient`, in all its branches, is the vector of derivatives of the likelihood with respect to the parameters: those of
the variances and covariances and that of the residual variance. -/
theorem C145_gradient_components (hT : T.Pd) {cq : Mat q q → Option (Mat q q)} (hq : CholOk cq) {e : T.RE ≃ Fin q}
    {tr tr' reml : Bool} (hs : s2 ≠ 0) {gG : T.Par → ℝ} {gR : ℝ} (h : gradient cq e m tr tr' reml th s2 = some (gG, gR)) :
    (∀ j, gG j = dform reml m.X m.y (vcov m th s2) (dV m j)) ∧ gR = dform reml m.X m.y (vcov m th s2) 1 := by
  unfold gradient at h
  cases hP : gparts cq e m tr th s2 with
  | none => simp [hP] at h
  | some P =>
  have ok := gparts_ok hT hq hs hP
  simp only [hP, Option.bind_eq_bind, Option.bind_some] at h
  have h := Option.some.inj h
  rw [Prod.mk.injEq] at h
  exact ⟨fun j => by rw [← h.1]; exact gcomp_eq hT ok reml j, by rw [← h.2]; exact rcomp_eq hT hs ok reml tr'⟩

theorem gradient_units (hT : T.Pd) {cq : Mat q q → Option (Mat q q)} (hq : CholOk cq) {e : T.RE ≃ Fin q}
    {tr tr' reml : Bool} (hs : s2 ≠ 0) {g : (T.Par → ℝ) × ℝ} (h : gradient cq e m tr tr' reml th s2 = some g) :
    IsUnit (vcov m th s2).det ∧ IsUnit (xvx m.X (vcov m th s2)).det := by
  unfold gradient at h
  cases hP : gparts cq e m tr th s2 with
  | none => simp [hP] at h
  | some P =>
  have ok := gparts_ok hT hq hs hP
  exact ⟨vcov_unit hs ok.hG ok.hC, ok.hx⟩

theorem vdir (m : Mme T n p) (th' : T.Par → ℝ) (s2' : ℝ) :
    m.Z * T.gcov th' * m.Zᵀ + s2' • (1 : Mat n n) = ∑ j, th' j • dV m j + s2' • 1 := by
  congr 1
  rw [gcov_sum, Matrix.mul_sum, Matrix.sum_mul]
  simp only [Matrix.mul_smul, Matrix.smul_mul]
  rfl

/-- `gradient` gives the derivative of the likelihood along every differentiable path of the parameters. -/
theorem C145_gradient (hT : T.Pd) {cq : Mat q q → Option (Mat q q)} (hq : CholOk cq) {e : T.RE ≃ Fin q} {tr tr' reml : Bool}
    {th : ℝ → T.Par → ℝ} {th' : T.Par → ℝ} {s2 : ℝ → ℝ} {s2' : ℝ}
    (h : ∀ j, HasDerivAt (fun t => th t j) (th' j) 0) (hs : HasDerivAt s2 s2' 0) (h0 : s2 0 ≠ 0) {gG : T.Par → ℝ} {gR : ℝ}
    (hg : gradient cq e m tr tr' reml (th 0) (s2 0) = some (gG, gR)) :
    HasDerivAt (fun t => devi reml m.X m.y (vcov m (th t) (s2 t))) (∑ j, th' j * gG j + s2' * gR) 0 := by
  obtain ⟨c1, c2⟩ := C145_gradient_components hT hq h0 hg
  obtain ⟨u1, u2⟩ := gradient_units hT hq h0 hg
  have := devi_deriv (reml := reml) (X := m.X) (y := m.y) (vcov_md (m := m) h hs) (vcov_symm hT m _ _) u1 u2
  refine this.congr_deriv ?_
  rw [vdir, dform_add, dform_sum, dform_smul, c2]
  simp only [dform_smul, c1]

/-- `gradient` returns whenever the covariances are invertible, the factored matrix is positive definite and the design is of
full rank. -/
theorem C145_defined (hT : T.Pd) (hI : ∀ k, T.acov k = none) {cq : Mat q q → Option (Mat q q)} (hq : CholOk cq) (e : T.RE ≃ Fin q)
    (tr tr' reml : Bool) (hs : 0 < s2) (hth : ∀ k, (invech (Terms.sl th k)).PosDef) (hX : Function.Injective m.X.mulVec) :
    ∃ g, gradient cq e m tr tr' reml th s2 = some g := by
  obtain ⟨Gi, hg⟩ := ginv_defined (T := T) (th := th) (fun k => (hth k).det_pos.ne'.isUnit)
    (fun k B hB => by rw [hI k] at hB; simp at hB)
  obtain ⟨h1, h2, h3⟩ := ginv_some hT hg
  subst h1
  have hRZ : ((1 / s2) • (1 : Mat n n)) * m.Z = (1 / s2) • m.Z := by rw [Matrix.smul_mul, Matrix.one_mul]
  have hQ : (T.gcov th)⁻¹ + ((1 / s2) • m.Z)ᵀ * m.Z = cmat m th s2 := by
    rw [add_comm, transpose_smul, Matrix.smul_mul]; rfl
  obtain ⟨L, hl⟩ := hq.total ((cmat m th s2).submatrix e.symm e.symm) ((cmat_posDef (m := m) hT hs hth).submatrix e.symm.injective)
  obtain ⟨l1, l2, l3⟩ := hq.ok _ _ hl
  have hC := fac_unit e l1 (unit_chol l2 l3)
  have hV := vinv_form hs.ne' h2 hC
  have hXV : m.Xᵀ * ((1 / s2) • (1 : Mat n n) * m.X) - (((1 / s2) • m.Z)ᵀ * m.X)ᵀ * ((cmat m th s2)⁻¹ * (((1 / s2) • m.Z)ᵀ * m.X)) =
      xvx m.X (vcov m th s2) := by
    unfold xvx
    rw [hV, Matrix.mul_sub, Matrix.sub_mul, transpose_mul, transpose_transpose]
    simp only [Matrix.mul_assoc, Matrix.mul_smul, Matrix.smul_mul, Matrix.one_mul]
  have hx : IsUnit (xvx m.X (vcov m th s2)).det := by
    have := (vcov_posDef (m := m) hT hs hth).inv.conjTranspose_mul_mul_same hX
    rw [conjTranspose_eq_transpose_of_trivial] at this
    exact this.det_pos.ne'.isUnit
  obtain ⟨Xi, hi⟩ : ∃ Xi, inv? (xvx m.X (vcov m th s2)) = some Xi := ⟨_, inv?_unit hx⟩
  unfold gradient gparts
  simp only [hg, hRZ, hQ, hl, Option.bind_eq_bind, Option.bind_some, fac_inv l1, hXV, hi]
  exact ⟨_, rfl⟩

/-- The gradient of the restricted likelihood in a direction. -/
theorem dform_reml {X : Mat n p} {y : Fin n → ℝ} {V : Mat n n} (D : Mat n n) :
    dform true X y V D = (pmat X V * D).trace - (pmat X V *ᵥ y) ⬝ᵥ (D *ᵥ (pmat X V *ᵥ y)) := by
  unfold dform
  simp only [if_true]
  congr 1
  unfold pmat
  rw [Matrix.sub_mul, trace_sub]
  congr 1
  have : V⁻¹ * X * (xvx X V)⁻¹ * Xᵀ * V⁻¹ * D = (V⁻¹ * X) * ((xvx X V)⁻¹ * (Xᵀ * V⁻¹ * D)) := by simp only [Matrix.mul_assoc]
  rw [this, trace_mul_comm (V⁻¹ * X)]
  simp only [Matrix.mul_assoc]

theorem vd_quad {P : ℝ → Mat n n} {P' : Mat n n} (h : MD P P') (hs' : P'ᵀ = P') (y : Fin n → ℝ)
    {D : Mat n n} (hD : Dᵀ = D) :
    HasDerivAt (fun t => (P t *ᵥ y) ⬝ᵥ (D *ᵥ (P t *ᵥ y))) (2 * (y ⬝ᵥ (P' *ᵥ (D *ᵥ (P 0 *ᵥ y))))) 0 := by
  have h1 : ∀ i, HasDerivAt (fun t => (P t *ᵥ y) i) ((P' *ᵥ y) i) 0 := fun i => by
    simp only [mulVec, dotProduct]
    exact HasDerivAt.fun_sum fun j _ => (h i j).mul_const _
  have h2 : ∀ i, HasDerivAt (fun t => (D *ᵥ (P t *ᵥ y)) i) ((D *ᵥ (P' *ᵥ y)) i) 0 := fun i => by
    show HasDerivAt (fun t => ∑ j, D i j * (P t *ᵥ y) j) (∑ j, D i j * (P' *ᵥ y) j) 0
    exact HasDerivAt.fun_sum fun j _ => (h1 j).const_mul _
  have h3 : HasDerivAt (fun t => ∑ i, (P t *ᵥ y) i * (D *ᵥ (P t *ᵥ y)) i)
      (∑ i, ((P' *ᵥ y) i * (D *ᵥ (P 0 *ᵥ y)) i + (P 0 *ᵥ y) i * (D *ᵥ (P' *ᵥ y)) i)) 0 :=
    HasDerivAt.fun_sum fun i _ => (h1 i).mul (h2 i)
  refine h3.congr_deriv ?_
  rw [Finset.sum_add_distrib]
  have e1 : ∑ i, (P' *ᵥ y) i * (D *ᵥ (P 0 *ᵥ y)) i = y ⬝ᵥ (P' *ᵥ (D *ᵥ (P 0 *ᵥ y))) := by
    rw [dotProduct_mulVec, ← mulVec_transpose, hs']; rfl
  have e2 : ∑ i, (P 0 *ᵥ y) i * (D *ᵥ (P' *ᵥ y)) i = (P' *ᵥ y) ⬝ᵥ (D *ᵥ (P 0 *ᵥ y)) := by
    show (P 0 *ᵥ y) ⬝ᵥ (D *ᵥ (P' *ᵥ y)) = _
    rw [dotProduct_mulVec, ← mulVec_transpose, hD, dotProduct_comm]
  rw [e2]
  have e3 : (P' *ᵥ y) ⬝ᵥ (D *ᵥ (P 0 *ᵥ y)) = y ⬝ᵥ (P' *ᵥ (D *ᵥ (P 0 *ᵥ y))) := e1
  rw [e3, e1]
  ring

/-- The second derivative of the restricted likelihood in two directions. -/
noncomputable def hform (X : Mat n p) (y : Fin n → ℝ) (V D E : Mat n n) : ℝ :=
  2 * ((pmat X V *ᵥ y) ⬝ᵥ (E *ᵥ (pmat X V *ᵥ (D *ᵥ (pmat X V *ᵥ y))))) - (pmat X V * E * pmat X V * D).trace

theorem hform_symm {X : Mat n p} {y : Fin n → ℝ} {V D E : Mat n n} (hV : Vᵀ = V) (hD : Dᵀ = D) (hE : Eᵀ = E) :
    hform X y V D E = hform X y V E D := by
  have hPt := pmat_symm (X := X) hV
  unfold hform
  congr 1
  · congr 1
    rw [dotProduct_mulVec, ← mulVec_transpose, hE, dotProduct_mulVec, ← mulVec_transpose, hPt, dotProduct_mulVec,
      ← mulVec_transpose, hD, dotProduct_comm]
  · rw [Matrix.mul_assoc (pmat X V * E), trace_mul_comm]
    simp only [Matrix.mul_assoc]

theorem dform_deriv {X : Mat n p} {y : Fin n → ℝ} {V : ℝ → Mat n n} {V' : Mat n n} (h : MD V V')
    (hs : (V 0)ᵀ = V 0) (hs' : V'ᵀ = V') (hu : IsUnit (V 0).det) (hx : IsUnit (xvx X (V 0)).det) {D : Mat n n} (hD : Dᵀ = D) :
    HasDerivAt (fun t => dform true X y (V t) D) (hform X y (V 0) D V') 0 := by
  have hP := md_pmat (X := X) h hu hx
  have hPs := pmat_symm (X := X) hs
  have h1 := trace_deriv (hP.mul (MD.const D))
  have h2 := vd_quad hP (by simp only [transpose_neg, transpose_mul, hPs, hs', Matrix.mul_assoc]) y hD
  have h3 := h1.sub h2
  simp only [dform_reml]
  refine h3.congr_deriv ?_
  unfold hform
  rw [Matrix.mul_zero, add_zero, Matrix.neg_mul, trace_neg, neg_mulVec, dotProduct_neg]
  have e : y ⬝ᵥ ((pmat X (V 0) * V' * pmat X (V 0)) *ᵥ (D *ᵥ (pmat X (V 0) *ᵥ y))) =
      (pmat X (V 0) *ᵥ y) ⬝ᵥ (V' *ᵥ (pmat X (V 0) *ᵥ (D *ᵥ (pmat X (V 0) *ᵥ y)))) := by
    simp only [← mulVec_mulVec]
    rw [dotProduct_mulVec y, ← mulVec_transpose, hPs]
  rw [e]
  ring

structure HOk (m : Mme T n p) (th : T.Par → ℝ) (s2 : ℝ) (H : HParts T n p) : Prop where
  hG : IsUnit (T.gcov th).det
  hC : IsUnit (cmat m th s2).det
  hx : IsUnit (xvx m.X (vcov m th s2)).det
  P : H.P = pmat m.X (vcov m th s2)
  ZtP : H.ZtP = m.Zᵀ * pmat m.X (vcov m th s2)
  ZtPZ : H.ZtPZ = m.Zᵀ * pmat m.X (vcov m th s2) * m.Z
  Py : H.Py = pmat m.X (vcov m th s2) *ᵥ m.y
  ZtPy : H.ZtPy = m.Zᵀ *ᵥ (pmat m.X (vcov m th s2) *ᵥ m.y)
  PPy : H.PPy = pmat m.X (vcov m th s2) *ᵥ (pmat m.X (vcov m th s2) *ᵥ m.y)
  ZtPPy : H.ZtPPy = m.Zᵀ *ᵥ (pmat m.X (vcov m th s2) *ᵥ (pmat m.X (vcov m th s2) *ᵥ m.y))

theorem hparts_ok (hT : T.Pd) {cq : Mat q q → Option (Mat q q)} (hq : CholOk cq) {e : T.RE ≃ Fin q}
    (hs : s2 ≠ 0) {H : HParts T n p} (h : hparts cq e m th s2 = some H) : HOk m th s2 H := by
  unfold hparts at h
  cases hg : T.ginv? th with
  | none => simp [hg] at h
  | some Gi =>
  obtain ⟨h1, h2, h3⟩ := ginv_some hT hg
  subst h1
  have hRZ : ((1 / s2) • (1 : Mat n n)) * m.Z = (1 / s2) • m.Z := by rw [Matrix.smul_mul, Matrix.one_mul]
  have hQ : ((1 / s2) • m.Z)ᵀ * m.Z + (T.gcov th)⁻¹ = cmat m th s2 := by
    rw [transpose_smul, Matrix.smul_mul]; rfl
  simp only [hg, hRZ, hQ, Option.bind_eq_bind, Option.bind_some] at h
  cases hl : cq ((cmat m th s2).submatrix e.symm e.symm) with
  | none => simp [hl] at h
  | some L =>
  obtain ⟨l1, l2, l3⟩ := hq.ok _ _ hl
  have hC := fac_unit e l1 (unit_chol l2 l3)
  have hV := vinv_form hs h2 hC
  have hVt := vinv_symm (vcov_symm hT m th s2)
  have hPt := pmat_symm (X := m.X) (vcov_symm hT m th s2)
  simp only [hl, Option.bind_some, fac_inv l1, ← hV] at h
  have hXV : ((vcov m th s2)⁻¹ * m.X)ᵀ * m.X = xvx m.X (vcov m th s2) := by
    rw [transpose_mul, hVt]; rfl
  rw [hXV] at h
  cases hi : inv? (xvx m.X (vcov m th s2)) with
  | none => simp [hi] at h
  | some Xi =>
  obtain ⟨hx, hXi⟩ := inv?_eq hi
  subst hXi
  simp only [hi, Option.bind_some] at h
  have h := Option.some.inj h
  subst h
  have hPm : (vcov m th s2)⁻¹ - (vcov m th s2)⁻¹ * m.X * ((xvx m.X (vcov m th s2))⁻¹ * ((vcov m th s2)⁻¹ * m.X)ᵀ) =
      pmat m.X (vcov m th s2) := by
    unfold pmat
    rw [transpose_mul, hVt]
    simp only [Matrix.mul_assoc]
  have hPv : ∀ v : Fin n → ℝ, (vcov m th s2)⁻¹ *ᵥ v -
      ((vcov m th s2)⁻¹ * m.X) *ᵥ (((xvx m.X (vcov m th s2))⁻¹ * ((vcov m th s2)⁻¹ * m.X)ᵀ) *ᵥ v) =
      pmat m.X (vcov m th s2) *ᵥ v := by
    intro v
    rw [← hPm, sub_mulVec, mulVec_mulVec]
  have hZP : ((vcov m th s2)⁻¹ * m.Z)ᵀ -
      m.Zᵀ * ((vcov m th s2)⁻¹ * m.X) * ((xvx m.X (vcov m th s2))⁻¹ * ((vcov m th s2)⁻¹ * m.X)ᵀ) =
      m.Zᵀ * pmat m.X (vcov m th s2) := by
    rw [← hPm, Matrix.mul_sub, transpose_mul, hVt]
    simp only [Matrix.mul_assoc]
  refine ⟨h2, hC, hx, hPm, hZP, ?_, hPv _, ?_, ?_, ?_⟩
  · dsimp only
    rw [hZP, transpose_mul, hPt, transpose_transpose]
    simp only [Matrix.mul_assoc]
  · rw [hPv]
  · simp only [hPv]
  · simp only [hPv]

variable {H : HParts T n p}

theorem trace_sum {a b : Type} [Fintype a] [Fintype b] (A : Matrix a b ℝ) (B : Matrix b a ℝ) :
    ∑ i, ∑ j, A i j * B j i = (A * B).trace := rfl

theorem hGG_eq (hT : T.Pd) (h : HOk m th s2 H) (i j : T.Par) :
    hGG H i j = hform m.X m.y (vcov m th s2) (dV m i) (dV m j) := by
  have hPt := pmat_symm (X := m.X) (vcov_symm hT m th s2)
  unfold hGG hform
  rw [dV_eq, dV_eq]
  dsimp only
  set P := pmat m.X (vcov m th s2) with hP
  have e1 : ∀ i j : T.Par, H.ZtPZ.submatrix (fun x => (⟨i.1, x⟩ : T.RE)) (fun x => (⟨j.1, x⟩ : T.RE)) =
      (zb m i)ᵀ * P * zb m j := fun i j => by rw [h.ZtPZ]; rfl
  have e2 : ∀ i j : T.Par, (T.dG i * H.ZtPZ.submatrix (fun x => (⟨i.1, x⟩ : T.RE)) id).submatrix id (fun x => (⟨j.1, x⟩ : T.RE)) =
      T.dG i * ((zb m i)ᵀ * P * zb m j) := fun i j => by rw [← e1]; rfl
  have e3 : ∀ i : T.Par, (fun x => H.ZtPy (⟨i.1, x⟩ : T.RE)) = (zb m i)ᵀ *ᵥ (P *ᵥ m.y) := fun i => by rw [h.ZtPy]; rfl
  rw [trace_sum, e1, e2, e2, e3, e3]
  have t : (T.dG i * ((zb m i)ᵀ * P * zb m j) * (T.dG j * ((zb m j)ᵀ * P * zb m i))).trace =
      (P * (zb m j * T.dG j * (zb m j)ᵀ) * P * (zb m i * T.dG i * (zb m i)ᵀ)).trace := by
    rw [show T.dG i * ((zb m i)ᵀ * P * zb m j) * (T.dG j * ((zb m j)ᵀ * P * zb m i)) =
      (T.dG i * (zb m i)ᵀ) * (P * (zb m j * T.dG j * (zb m j)ᵀ) * P * zb m i) by simp only [Matrix.mul_assoc], trace_mul_comm]
    simp only [Matrix.mul_assoc]
  have d : ((T.dG i *ᵥ ((zb m i)ᵀ *ᵥ (P *ᵥ m.y))) ᵥ* ((zb m i)ᵀ * P * zb m j)) ⬝ᵥ (T.dG j *ᵥ ((zb m j)ᵀ *ᵥ (P *ᵥ m.y))) =
      (P *ᵥ m.y) ⬝ᵥ ((zb m j * T.dG j * (zb m j)ᵀ) *ᵥ (P *ᵥ ((zb m i * T.dG i * (zb m i)ᵀ) *ᵥ (P *ᵥ m.y)))) := by
    rw [← dotProduct_mulVec]
    have hA : ((zb m i)ᵀ * P * zb m j) *ᵥ (T.dG j *ᵥ ((zb m j)ᵀ *ᵥ (P *ᵥ m.y))) =
        (zb m i)ᵀ *ᵥ (P *ᵥ ((zb m j * T.dG j * (zb m j)ᵀ) *ᵥ (P *ᵥ m.y))) := by
      simp only [mulVec_mulVec, Matrix.mul_assoc]
    have hB : (zb m i * T.dG i * (zb m i)ᵀ) *ᵥ (P *ᵥ m.y) = zb m i *ᵥ (T.dG i *ᵥ ((zb m i)ᵀ *ᵥ (P *ᵥ m.y))) := by
      simp only [mulVec_mulVec, Matrix.mul_assoc]
    have hS : (zb m j * T.dG j * (zb m j)ᵀ)ᵀ = zb m j * T.dG j * (zb m j)ᵀ := by
      rw [← dV_eq, dV, transpose_mul, transpose_mul, transpose_transpose, gcov_symm hT, Matrix.mul_assoc]
    rw [hA, hB]
    generalize T.dG i *ᵥ ((zb m i)ᵀ *ᵥ (P *ᵥ m.y)) = w
    rw [mulVec_transpose, dotProduct_comm, ← dotProduct_mulVec, dotProduct_comm]
    rw [dotProduct_mulVec (zb m i *ᵥ w), ← mulVec_transpose, hPt, dotProduct_mulVec (P *ᵥ (zb m i *ᵥ w)), ← mulVec_transpose, hS,
      dotProduct_comm]
  rw [t, d]
  ring

theorem hGR_eq (hT : T.Pd) (h : HOk m th s2 H) (i : T.Par) :
    hGR H i = hform m.X m.y (vcov m th s2) (dV m i) 1 ∧ hGR H i = hform m.X m.y (vcov m th s2) 1 (dV m i) := by
  have hPt := pmat_symm (X := m.X) (vcov_symm hT m th s2)
  have hS : (zb m i * T.dG i * (zb m i)ᵀ)ᵀ = zb m i * T.dG i * (zb m i)ᵀ := by
    rw [← dV_eq, dV, transpose_mul, transpose_mul, transpose_transpose, gcov_symm hT, Matrix.mul_assoc]
  have hsym := hform_symm (X := m.X) (y := m.y) (vcov_symm hT m th s2) (D := dV m i) (E := 1) (by rw [dV_eq, hS]) transpose_one
  have key : hGR H i = hform m.X m.y (vcov m th s2) (dV m i) 1 := by
    unfold hGR hform
    rw [dV_eq]
    dsimp only
    set P := pmat m.X (vcov m th s2) with hP
    have e2 : (T.dG i * H.ZtP.submatrix (fun x => (⟨i.1, x⟩ : T.RE)) id) = T.dG i * ((zb m i)ᵀ * P) := by rw [h.ZtP]; rfl
    have e3 : (fun x => H.ZtPy (⟨i.1, x⟩ : T.RE)) = (zb m i)ᵀ *ᵥ (P *ᵥ m.y) := by rw [h.ZtPy]; rfl
    have e4 : (fun x => H.ZtPPy (⟨i.1, x⟩ : T.RE)) = (zb m i)ᵀ *ᵥ (P *ᵥ (P *ᵥ m.y)) := by rw [h.ZtPPy]; rfl
    have e5 : ∀ b a, ((1 : Mat n n) * H.ZtPᵀ) b (⟨i.1, a⟩ : T.RE) = (P * zb m i) b a := fun b a => by
      rw [Matrix.one_mul, h.ZtP, transpose_mul, hPt, transpose_transpose]; rfl
    simp only [e5]
    rw [trace_sum, transpose_transpose, e2, e3, e4, one_mulVec]
    have t : (T.dG i * ((zb m i)ᵀ * P) * (P * zb m i)).trace = (P * 1 * P * (zb m i * T.dG i * (zb m i)ᵀ)).trace := by
      rw [show T.dG i * ((zb m i)ᵀ * P) * (P * zb m i) = (T.dG i * (zb m i)ᵀ) * (P * P * zb m i) by simp only [Matrix.mul_assoc],
        trace_mul_comm, Matrix.mul_one]
      simp only [Matrix.mul_assoc]
    have d : (T.dG i *ᵥ ((zb m i)ᵀ *ᵥ (P *ᵥ m.y))) ⬝ᵥ ((zb m i)ᵀ *ᵥ (P *ᵥ (P *ᵥ m.y))) =
        (P *ᵥ m.y) ⬝ᵥ (P *ᵥ ((zb m i * T.dG i * (zb m i)ᵀ) *ᵥ (P *ᵥ m.y))) := by
      have hB : (zb m i * T.dG i * (zb m i)ᵀ) *ᵥ (P *ᵥ m.y) = zb m i *ᵥ (T.dG i *ᵥ ((zb m i)ᵀ *ᵥ (P *ᵥ m.y))) := by
        simp only [mulVec_mulVec, Matrix.mul_assoc]
      rw [hB]
      generalize T.dG i *ᵥ ((zb m i)ᵀ *ᵥ (P *ᵥ m.y)) = w
      rw [mulVec_transpose, dotProduct_comm, ← dotProduct_mulVec, dotProduct_mulVec (P *ᵥ m.y), ← mulVec_transpose, hPt]
    rw [t, d]
  exact ⟨key, key.trans hsym⟩

theorem hRR_eq (h : HOk m th s2 H) : hRR H = hform m.X m.y (vcov m th s2) 1 1 := by
  unfold hRR hform
  rw [trace_sum, h.P, h.Py, h.PPy, one_mulVec, one_mulVec, Matrix.mul_one, Matrix.mul_one]
  ring

theorem dV_symm (hT : T.Pd) (m : Mme T n p) (j : T.Par) : (dV m j)ᵀ = dV m j := by
  rw [dV, transpose_mul, transpose_mul, transpose_transpose, gcov_symm hT, Matrix.mul_assoc]

theorem hform_add (X : Mat n p) (y : Fin n → ℝ) (V D E F : Mat n n) :
    hform X y V D (E + F) = hform X y V D E + hform X y V D F := by
  unfold hform
  rw [add_mulVec, dotProduct_add, Matrix.mul_add, Matrix.add_mul, Matrix.add_mul, trace_add]
  ring

theorem hform_smul (X : Mat n p) (y : Fin n → ℝ) (V D E : Mat n n) (c : ℝ) :
    hform X y V D (c • E) = c * hform X y V D E := by
  unfold hform
  rw [smul_mulVec, dotProduct_smul, Matrix.mul_smul, Matrix.smul_mul, Matrix.smul_mul, trace_smul, smul_eq_mul, smul_eq_mul]
  ring

theorem hform_sum {ι : Type} (s : Finset ι) (X : Mat n p) (y : Fin n → ℝ) (V D : Mat n n) (E : ι → Mat n n) :
    hform X y V D (∑ i ∈ s, E i) = ∑ i ∈ s, hform X y V D (E i) := by
  classical
  induction s using Finset.induction_on with
  | empty => simpa using hform_smul X y V D 0 0
  | insert a s ha ih => rw [Finset.sum_insert ha, Finset.sum_insert ha, hform_add, ih]

/-- `hessian` is the matrix of derivatives of the gradient of the restricted likelihood: each row gives the derivative of
that component along every differentiable path of the parameters. -/
theorem C145_hessian_partial (hT : T.Pd) {cq : Mat q q → Option (Mat q q)} (hq : CholOk cq) {e : T.RE ≃ Fin q} {reml : Bool}
    {th : ℝ → T.Par → ℝ} {th' : T.Par → ℝ} {s2 : ℝ → ℝ} {s2' : ℝ}
    (h : ∀ j, HasDerivAt (fun t => th t j) (th' j) 0) (hs : HasDerivAt s2 s2' 0) (h0 : s2 0 ≠ 0)
    {HG : T.Par → T.Par → ℝ} {HGR : T.Par → ℝ} {HR : ℝ} (hH : hessian cq e m reml (th 0) (s2 0) = some (HG, HGR, HR)) :
    (∀ i, HasDerivAt (fun t => dform true m.X m.y (vcov m (th t) (s2 t)) (dV m i)) (∑ j, th' j * HG i j + s2' * HGR i) 0) ∧
      HasDerivAt (fun t => dform true m.X m.y (vcov m (th t) (s2 t)) 1) (∑ j, th' j * HGR j + s2' * HR) 0 := by
  unfold hessian at hH
  cases hP : hparts cq e m (th 0) (s2 0) with
  | none => simp [hP] at hH
  | some H =>
  have ok := hparts_ok hT hq h0 hP
  simp only [hP, Option.bind_eq_bind, Option.bind_some] at hH
  have hH := Option.some.inj hH
  simp only [Prod.mk.injEq] at hH
  obtain ⟨a1, a2, a3⟩ := hH
  subst a1 a2 a3
  have hV := vcov_symm hT m (th 0) (s2 0)
  have hmd := vcov_md (m := m) h hs
  have hu := vcov_unit h0 ok.hG ok.hC
  have hV' : (m.Z * T.gcov th' * m.Zᵀ + s2' • (1 : Mat n n))ᵀ = m.Z * T.gcov th' * m.Zᵀ + s2' • 1 := by
    simp only [transpose_add, transpose_mul, transpose_smul, transpose_one, transpose_transpose, gcov_symm hT, Matrix.mul_assoc]
  refine ⟨fun i => ?_, ?_⟩
  · refine (dform_deriv hmd hV hV' hu ok.hx (dV_symm hT m i)).congr_deriv ?_
    rw [vdir, hform_add, hform_sum, hform_smul, (hGR_eq hT ok i).1]
    simp only [hform_smul, hGG_eq hT ok]
  · refine (dform_deriv hmd hV hV' hu ok.hx transpose_one).congr_deriv ?_
    rw [vdir, hform_add, hform_sum, hform_smul, hRR_eq ok]
    simp only [hform_smul, fun j => (hGR_eq hT ok j).2]

/-- With `reml=True`, `hessian` is the derivative of `gradient`. -/
theorem C145_hessian_gradient (hT : T.Pd) {cq : Mat q q → Option (Mat q q)} (hq : CholOk cq) {e : T.RE ≃ Fin q} {tr tr' : Bool}
    {th : ℝ → T.Par → ℝ} {th' : T.Par → ℝ} {s2 : ℝ → ℝ} {s2' : ℝ}
    (h : ∀ j, HasDerivAt (fun t => th t j) (th' j) 0) (hs : HasDerivAt s2 s2' 0) (h0 : s2 0 ≠ 0)
    {HG : T.Par → T.Par → ℝ} {HGR : T.Par → ℝ} {HR : ℝ} (hH : hessian cq e m true (th 0) (s2 0) = some (HG, HGR, HR))
    {g : ℝ → (T.Par → ℝ) × ℝ} (hg : ∀ᶠ t in nhds 0, gradient cq e m tr tr' true (th t) (s2 t) = some (g t)) :
    (∀ i, HasDerivAt (fun t => (g t).1 i) (∑ j, th' j * HG i j + s2' * HGR i) 0) ∧
      HasDerivAt (fun t => (g t).2) (∑ j, th' j * HGR j + s2' * HR) 0 := by
  obtain ⟨c1, c2⟩ := C145_hessian_partial hT hq h hs h0 hH
  refine ⟨fun i => (c1 i).congr_of_eventuallyEq ?_, c2.congr_of_eventuallyEq ?_⟩
  · filter_upwards [hg, hs.continuousAt.eventually_ne h0] with t ht hst
    exact (C145_gradient_components hT hq hst ht).1 i
  · filter_upwards [hg, hs.continuousAt.eventually_ne h0] with t ht hst
    exact (C145_gradient_components hT hq hst ht).2

/-- The matrix returned by `hessian` is symmetric. -/
theorem C145_hessian_symm (hT : T.Pd) {cq : Mat q q → Option (Mat q q)} (hq : CholOk cq) {e : T.RE ≃ Fin q} {reml : Bool}
    (h0 : s2 ≠ 0) {HG : T.Par → T.Par → ℝ} {HGR : T.Par → ℝ} {HR : ℝ} (hH : hessian cq e m reml th s2 = some (HG, HGR, HR))
    (i j : T.Par) : HG i j = HG j i := by
  unfold hessian at hH
  cases hP : hparts cq e m th s2 with
  | none => simp [hP] at hH
  | some H =>
  have ok := hparts_ok hT hq h0 hP
  simp only [hP, Option.bind_eq_bind, Option.bind_some] at hH
  have hH := Option.some.inj hH
  simp only [Prod.mk.injEq] at hH
  rw [← hH.1, hGG_eq hT ok, hGG_eq hT ok]
  exact hform_symm (vcov_symm hT m th s2) (dV_symm hT m i) (dV_symm hT m j)

/-- `hessian` returns for positive definite covariances and a design of full rank. -/
theorem C145_hessian_defined (hT : T.Pd) (hI : ∀ k, T.acov k = none) {cq : Mat q q → Option (Mat q q)} (hq : CholOk cq)
    (e : T.RE ≃ Fin q) (reml : Bool) (hs : 0 < s2) (hth : ∀ k, (invech (Terms.sl th k)).PosDef)
    (hX : Function.Injective m.X.mulVec) : ∃ g, hessian cq e m reml th s2 = some g := by
  obtain ⟨Gi, hg⟩ := ginv_defined (T := T) (th := th) (fun k => (hth k).det_pos.ne'.isUnit)
    (fun k B hB => by rw [hI k] at hB; simp at hB)
  obtain ⟨h1, h2, h3⟩ := ginv_some hT hg
  subst h1
  have hRZ : ((1 / s2) • (1 : Mat n n)) * m.Z = (1 / s2) • m.Z := by rw [Matrix.smul_mul, Matrix.one_mul]
  have hQ : ((1 / s2) • m.Z)ᵀ * m.Z + (T.gcov th)⁻¹ = cmat m th s2 := by
    rw [transpose_smul, Matrix.smul_mul]; rfl
  obtain ⟨L, hl⟩ := hq.total ((cmat m th s2).submatrix e.symm e.symm) ((cmat_posDef (m := m) hT hs hth).submatrix e.symm.injective)
  obtain ⟨l1, l2, l3⟩ := hq.ok _ _ hl
  have hC := fac_unit e l1 (unit_chol l2 l3)
  have hV := vinv_form hs.ne' h2 hC
  have hVt := vinv_symm (vcov_symm hT m th s2)
  have hXV : ((vcov m th s2)⁻¹ * m.X)ᵀ * m.X = xvx m.X (vcov m th s2) := by
    rw [transpose_mul, hVt]; rfl
  have hx : IsUnit (xvx m.X (vcov m th s2)).det := by
    have := (vcov_posDef (m := m) hT hs hth).inv.conjTranspose_mul_mul_same hX
    rw [conjTranspose_eq_transpose_of_trivial] at this
    exact this.det_pos.ne'.isUnit
  unfold hessian hparts
  simp only [hg, hRZ, hQ, hl, Option.bind_eq_bind, Option.bind_some, fac_inv l1, ← hV, hXV, inv?_unit hx]
  exact ⟨_, rfl⟩

theorem exM1_diff {s : ℝ} (hs : 0 < s) :
    dform false exM1.X exM1.y (vcov exM1 (fun _ => 1) s) 1 = dform true exM1.X exM1.y (vcov exM1 (fun _ => 1) s) 1 + 1 / s := by
  have hp : ∀ k, (invech (Terms.sl (T := exT1) (fun _ => 1) k)).PosDef := fun k => by
    have := exT1_th k
    rw [this]
    exact PosDef.one
  have hV : IsUnit (vcov exM1 (fun _ => 1) s).det := (vcov_posDef (m := exM1) exT1_pd hs hp).det_pos.ne'.isUnit
  have hZX : exM1.Zᵀ * exM1.X = 0 := by
    ext i j
    simp [exM1, mul_apply, Fin.sum_univ_three]
  have hVX : vcov exM1 (fun _ => 1) s * exM1.X = s • exM1.X := by
    rw [vcov, Matrix.add_mul, Matrix.mul_assoc, hZX, Matrix.mul_zero, zero_add, Matrix.smul_mul, Matrix.one_mul]
  have hX : (vcov exM1 (fun _ => 1) s)⁻¹ * exM1.X = (1 / s) • exM1.X := by
    have : exM1.X = (1 / s) • (vcov exM1 (fun _ => 1) s * exM1.X) := by
      rw [hVX, smul_smul, one_div_mul_cancel hs.ne', one_smul]
    conv_lhs => rw [this]
    rw [Matrix.mul_smul, ← Matrix.mul_assoc, nonsing_inv_mul _ hV, Matrix.one_mul]
  have hXX : exM1.Xᵀ * exM1.X = 1 := by
    ext i j
    fin_cases i; fin_cases j
    simp [exM1, mul_apply]
  have hxv : xvx exM1.X (vcov exM1 (fun _ => 1) s) = (1 / s) • 1 := by
    rw [xvx, Matrix.mul_assoc, hX, Matrix.mul_smul, hXX]
  have hi : (xvx exM1.X (vcov exM1 (fun _ => 1) s))⁻¹ = s • 1 := by
    rw [hxv]
    refine inv_eq_right_inv ?_
    rw [smul_mul_smul_comm, Matrix.one_mul, one_div_mul_cancel hs.ne', one_smul]
  have h2 : exM1.Xᵀ * (vcov exM1 (fun _ => 1) s)⁻¹ * (1 : Mat 3 3) * (vcov exM1 (fun _ => 1) s)⁻¹ * exM1.X =
      (1 / s * (1 / s)) • (1 : Mat 1 1) := by
    rw [Matrix.mul_one, Matrix.mul_assoc, hX, Matrix.mul_smul, Matrix.mul_assoc, hX, Matrix.mul_smul, hXX, smul_smul]
  unfold dform
  rw [h2, hi, smul_mul_smul_comm, Matrix.one_mul, trace_smul]
  simp
  field_simp
  ring

/-- `hessian` ignores `reml`: with `reml=False` it is not the derivative of `gradient`. -/
theorem C145_hessian_ml_violated {cq : Mat 1 1 → Option (Mat 1 1)} (hq : CholOk cq) (e : exT1.RE ≃ Fin 1) (tr tr' : Bool) :
    (∀ t > -1, ∃ g, gradient cq e exM1 tr tr' false (fun _ => 1) (1 + t) = some g) ∧
    ∃ HG HGR HR, hessian cq e exM1 false (fun _ => 1) 1 = some (HG, HGR, HR) ∧
      ∀ g : ℝ → (exT1.Par → ℝ) × ℝ, (∀ t > -1, gradient cq e exM1 tr tr' false (fun _ => 1) (1 + t) = some (g t)) →
        ¬ HasDerivAt (fun t => (g t).2) HR 0 := by
  have hp : ∀ k, (invech (Terms.sl (T := exT1) (fun _ => 1) k)).PosDef := fun k => by
    have := exT1_th k
    rw [this]
    exact PosDef.one
  have hX : Function.Injective exM1.X.mulVec := fun u v huv => by
    have := congrFun huv 0
    simp [exM1, mulVec, dotProduct] at this
    funext i
    fin_cases i
    exact this
  refine ⟨fun t ht => C145_defined exT1_pd (fun _ => rfl) hq e tr tr' false (by linarith) hp hX, ?_⟩
  obtain ⟨⟨HG, HGR, HR⟩, hH⟩ := C145_hessian_defined (m := exM1) (th := fun _ => 1) (s2 := 1) exT1_pd (fun _ => rfl) hq e false
    one_pos hp hX
  refine ⟨HG, HGR, HR, hH, fun g hg hd => ?_⟩
  have h1 : HasDerivAt (fun t : ℝ => 1 + t) 1 0 := by simpa using (hasDerivAt_id (0 : ℝ)).const_add 1
  have h2 := (C145_hessian_partial (m := exM1) (th := fun _ _ => 1) (th' := fun _ => 0) (s2 := fun t => 1 + t) (reml := false)
    exT1_pd hq (fun _ => hasDerivAt_const _ _) h1 (by norm_num) (by simpa using hH)).2
  simp only [zero_mul, Finset.sum_const_zero, zero_add, one_mul] at h2
  have h3 : HasDerivAt (fun t : ℝ => 1 / (1 + t)) (-1) 0 := by
    have := h1.fun_inv (by norm_num)
    simpa [one_div] using this
  have h4 : HasDerivAt (fun t => (g t).2) (HR + -1) 0 := by
    refine (h2.add h3).congr_of_eventuallyEq ?_
    filter_upwards [lt_mem_nhds (show (-1 : ℝ) < 0 by norm_num)] with t ht
    have hs : (0 : ℝ) < 1 + t := by linarith
    rw [(C145_gradient_components exT1_pd hq hs.ne' (hg t ht)).2]
    exact exM1_diff hs
  have := hd.unique h4
  linarith

end Verif.Lmm.Lm
