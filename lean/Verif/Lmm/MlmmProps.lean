import Verif.Lmm.MlmmLemmas
/-!
# C200: the likelihood, the gradient and the effects of `MLMM`
-/
namespace Verif.Lmm.Mlmm
open Matrix Kronecker Verif.Fa Verif.Like Verif.Lmm.Lm Verif.Calc
variable {T : Terms} {n p q N k : ℕ} {m : Mme T n p} {th : T.Par → ℝ}

theorem cmat_of_chol (hT : T.Pd) {cN : Mat (N + 1) (N + 1) → Option (Mat (N + 1) (N + 1))} (hN : CholOk cN)
    {e : Ix T p ⊕ Unit ≃ Fin (N + 1)} {s2 : ℝ} {L : Mat (N + 1) (N + 1)}
    (hl : cN ((Lm.updateMme m (T.gcov th)⁻¹ s2).submatrix e.symm e.symm) = some L) : (cmat m th s2).PosDef := by
  obtain ⟨l1, l2, l3⟩ := hN.ok _ _ hl
  have hpd := chol_posDef l1 (unit_chol l2 l3)
  have := hpd.submatrix (e := fun i : T.RE => (Sum.inl (Sum.inr i) : Ix T p ⊕ Unit)) (fun a b hab => by simpa using hab)
  have hc : (Lm.updateMme m (T.gcov th)⁻¹ s2).submatrix (fun i : T.RE => (Sum.inl (Sum.inr i) : Ix T p ⊕ Unit))
      (fun i => Sum.inl (Sum.inr i)) = cmat m th s2 := by
    ext i j
    have := congrFun (congrFun (mme_k m (T.gcov th)⁻¹ s2) (Sum.inr i)) (Sum.inr j)
    exact this
  rwa [hc] at this

theorem loglike_units (hT : T.Pd) {cN : Mat (N + 1) (N + 1) → Option (Mat (N + 1) (N + 1))} (hN : CholOk cN)
    {cq : Mat q q → Option (Mat q q)} {e : Ix T p ⊕ Unit ≃ Fin (N + 1)} {e' : T.RE ≃ Fin q} {reml : Bool} {s2 v : ℝ} (hs : s2 ≠ 0)
    (h : Lm.loglike cN cq e e' m reml th s2 = some v) : IsUnit (vcov m th s2).det := by
  unfold Lm.loglike at h
  cases hg : T.ginv? th with
  | none => simp [hg] at h
  | some Gi =>
  obtain ⟨h1, h2, h3⟩ := ginv_some hT hg
  subst h1
  cases hl : cN ((Lm.updateMme m (T.gcov th)⁻¹ s2).submatrix e.symm e.symm) with
  | none => simp [hg, hl] at h
  | some L => exact vcov_unit hs h2 (cmat_of_chol hT hN hl).det_pos.ne'.isUnit

theorem mvcov_unit {w ρ : Fin n → ℝ} (h : ∀ i, w i * w i * ρ i = 1) (hu : IsUnit (vcov (wh m w) th 1).det) :
    IsUnit (mvcov m th ρ).det := by
  rw [vcov_wh h, det_mul, det_mul] at hu
  exact isUnit_of_mul_isUnit_right (isUnit_of_mul_isUnit_left hu)

theorem two_log_det {w ρ : Fin n → ℝ} (hw : ∀ i, 0 < w i) (h : ∀ i, 2 * Real.log (w i) = -Real.log (ρ i)) :
    2 * Real.log |(diagonal w : Mat n n).det| = -∑ i, Real.log (ρ i) := by
  rw [det_diagonal, abs_of_pos (Finset.prod_pos fun i _ => hw i), Real.log_prod (fun i _ => (hw i).ne'), Finset.mul_sum,
    ← Finset.sum_neg_distrib]
  exact Finset.sum_congr rfl fun i _ => h i

/-- The likelihood of the scaled data and that of the data. -/
theorem devi_scaled {w ρ : Fin n → ℝ} (hw : ∀ i, 0 < w i) (h1 : ∀ i, w i * w i * ρ i = 1)
    (h2 : ∀ i, 2 * Real.log (w i) = -Real.log (ρ i)) (hu : IsUnit (vcov (wh m w) th 1).det) (reml : Bool) :
    devi reml (wh m w).X (wh m w).y (vcov (wh m w) th 1) + ∑ i, Real.log (ρ i) = devi reml m.X m.y (mvcov m th ρ) := by
  have hV := mvcov_unit h1 hu
  rw [vcov_wh h1]
  show devi reml (diagonal w * m.X) (diagonal w *ᵥ m.y) _ + _ = _
  rw [devi_wh (det_w h1) (diagonal_transpose w) hV, two_log_det hw h2]
  ring

section like
variable {cN : Mat (N + 1) (N + 1) → Option (Mat (N + 1) (N + 1))} {cq : Mat q q → Option (Mat q q)}
  {e : Ix T p ⊕ Unit ≃ Fin (N + 1)} {e' : T.RE ≃ Fin q} {out : Fin n → Fin (k + 1)} {r : Fin (k + 1) → ℝ}

/-- With `reml`, `loglike` is minus twice the restricted log likelihood of the marginal model whose residual variance is that of
the response of the row, whenever the stacked response is the last to be eliminated. -/
theorem C200_reml_partial (hT : T.Pd) (hN : CholOk cN) (hq : CholOk cq) (he : e (Sum.inr ()) = Fin.last N) (hr : ∀ j, 0 < r j)
    {v : ℝ} (h : loglike cN cq e e' m out true th r = some v) :
    v = devi true m.X m.y (mvcov m th fun i => r (out i)) := by
  obtain ⟨w, w1, w2, w3, w4⟩ := inv_sq (fun i => r (out i)) (fun i => hr (out i))
  rw [loglike_wh w2] at h
  cases hv : Lm.loglike cN cq e e' (wh m w) true th 1 with
  | none => simp [hv] at h
  | some v' =>
  rw [hv] at h
  have h := Option.some.inj h
  rw [← h, C144_loglike_partial hT hN hq he one_pos hv]
  exact devi_scaled w1 w3 w4 (loglike_units hT hN one_ne_zero hv) true

/-- The matrix whose determinant the marginal covariance has. -/
noncomputable def qmat (m : Mme T n p) (th : T.Par → ℝ) (w : Fin n → ℝ) : Matrix T.RE T.RE ℝ :=
  (T.gcov th)⁻¹ + m.Zᵀ * (diagonal w * m.Z)

/-- Without `reml`, `loglike` uses the last residual variance for every row in the determinant: it is off by the difference of
two log determinants. -/
theorem C200_ml_value (hT : T.Pd) (hN : CholOk cN) (hq : CholOk cq) (he : e (Sum.inr ()) = Fin.last N) (hr : ∀ j, 0 < r j)
    {v : ℝ} (h : loglike cN cq e e' m out false th r = some v) :
    v = devi false m.X m.y (mvcov m th fun i => r (out i)) + (Real.log |(qmat m th fun _ => 1 / r (Fin.last k)).det| -
      Real.log |(qmat m th fun i => 1 / r (out i)).det|) := by
  obtain ⟨w, w1, w2, w3, w4⟩ := inv_sq (fun i => r (out i)) (fun i => hr (out i))
  unfold loglike at h
  rw [upd_true w2] at h
  cases hg : T.ginv? th with
  | none => simp [hg] at h
  | some Gi =>
  obtain ⟨h1, h2, h3⟩ := ginv_some hT hg
  subst h1
  simp only [hg, Option.bind_eq_bind, Option.bind_some, mme_wh] at h
  cases hl : cN ((Lm.updateMme (wh m w) (T.gcov th)⁻¹ 1).submatrix e.symm e.symm) with
  | none => simp [hl] at h
  | some L =>
  have hC := cmat_of_chol hT hN hl
  have hQ : (T.gcov th)⁻¹ + (1 / (1 : ℝ)) • ((wh m w).Zᵀ * (wh m w).Z) = cmat (wh m w) th 1 := by rw [add_comm]; rfl
  have hQ' : cmat (wh m w) th 1 = qmat m th fun i => 1 / r (out i) := by
    rw [← hQ, qmat, div_one, one_smul]
    have : (fun i => 1 / r (out i)) = fun i => w i * w i := funext w2
    rw [this, cross_mm']
    rfl
  obtain ⟨Lq, hLq⟩ := hq.total ((cmat (wh m w) th 1).submatrix e'.symm e'.symm) (hC.submatrix e'.symm.injective)
  obtain ⟨v', hv⟩ : ∃ v', Lm.loglike cN cq e e' (wh m w) false th 1 = some v' := by
    unfold Lm.loglike
    simp only [hg, hl, Option.bind_eq_bind, Option.bind_some, Bool.false_eq_true, if_false, hQ, hLq]
    exact ⟨_, rfl⟩
  have hd := C144_loglike_partial hT hN hq he one_pos hv
  have hd' := devi_scaled w1 w3 w4 (loglike_units hT hN one_ne_zero hv) false
  unfold Lm.loglike at hv
  simp only [hg, hl, Option.bind_eq_bind, Option.bind_some, Bool.false_eq_true, if_false, hQ, hLq] at hv
  have hv := Option.some.inj hv
  simp only [hl, Option.bind_some, Bool.false_eq_true, if_false] at h
  have hS : (T.gcov th)⁻¹ + m.Zᵀ * ((1 / r (Fin.last k)) • (1 : Mat n n) * m.Z) = qmat m th fun _ => 1 / r (Fin.last k) := by
    rw [qmat]
    have : (diagonal fun _ : Fin n => 1 / r (Fin.last k)) = (1 / r (Fin.last k)) • (1 : Mat n n) := by
      rw [smul_one_eq_diagonal]
    rw [this]
  rw [hS] at h
  cases hs : cq ((qmat m th fun _ => 1 / r (Fin.last k)).submatrix e'.symm e'.symm) with
  | none => rw [hs] at h; exact absurd h (by simp)
  | some Ls =>
  simp only [hs, Option.bind_some] at h
  have h := Option.some.inj h
  obtain ⟨k1, k2, k3⟩ := hq.ok _ _ hLq
  obtain ⟨s1, s2, s3⟩ := hq.ok _ _ hs
  rw [log_sq_diag e' k1 k2 k3, Real.log_one, zero_mul, zero_add, hQ'] at hv
  rw [log_sq_diag e' s1 s2 s3] at h
  have hR : ∑ i, Real.log (updateR out r false i) = ∑ i, Real.log (r (out i)) :=
    Finset.sum_congr rfl fun i _ => by simp [updateR]
  rw [hR] at h
  rw [← h, ← hd', ← hd, ← hv]
  ring

/-- If the residual variances are equal, `loglike` without `reml` is minus twice the profiled log likelihood. -/
theorem C200_ml_partial (hT : T.Pd) (hN : CholOk cN) (hq : CholOk cq) (he : e (Sum.inr ()) = Fin.last N) (hr : ∀ j, 0 < r j)
    (heq : ∀ j, r j = r (Fin.last k)) {v : ℝ} (h : loglike cN cq e e' m out false th r = some v) :
    v = devi false m.X m.y (mvcov m th fun i => r (out i)) := by
  rw [C200_ml_value hT hN hq he hr h]
  have : (fun i => 1 / r (out i)) = fun _ : Fin n => 1 / r (Fin.last k) := by funext i; rw [heq (out i)]
  rw [this]
  ring

theorem wh_inj {w : Fin n → ℝ} (hw : ∀ i, 0 < w i) (h : Function.Injective m.Xy.mulVec) :
    Function.Injective (wh m w).Xy.mulVec := by
  have : (wh m w).Xy = diagonal w * m.Xy := by
    ext i j
    rw [diagonal_mul]
    refine Fin.lastCases ?_ (fun j => ?_) j
    · simp [Mme.Xy, wh, mulVec_diagonal]
    · simp [Mme.Xy, wh, diagonal_mul]
  intro a b hab
  rw [this, ← mulVec_mulVec, ← mulVec_mulVec] at hab
  apply h
  funext i
  have := congrFun hab i
  simp only [mulVec_diagonal] at this
  exact mul_left_cancel₀ (hw i).ne' this

theorem qmat_posDef (hT : T.Pd) (hth : ∀ k, (invech (Terms.sl th k)).PosDef) {w : Fin n → ℝ} (hw : ∀ i, 0 < w i) :
    (qmat m th w).PosDef := by
  unfold qmat
  refine (gcov_posDef hT hth).inv.add_posSemidef ?_
  have := (PosSemidef.diagonal (n := Fin n) (d := w) (fun i => (hw i).le)).conjTranspose_mul_mul_same m.Z
  rwa [conjTranspose_eq_transpose_of_trivial, Matrix.mul_assoc] at this

/-- `loglike` returns a value if the covariances are positive definite, the residual variances positive and the columns of the
design and the response independent. -/
theorem C200_defined (hT : T.Pd) (hI : ∀ k, T.acov k = none) (hN : CholOk cN) (hq : CholOk cq)
    (e : Ix T p ⊕ Unit ≃ Fin (N + 1)) (e' : T.RE ≃ Fin q) (out : Fin n → Fin (k + 1)) (reml : Bool) (hr : ∀ j, 0 < r j)
    (hth : ∀ k, (invech (Terms.sl th k)).PosDef) (hX : Function.Injective m.Xy.mulVec) :
    ∃ v, loglike cN cq e e' m out reml th r = some v := by
  obtain ⟨w, w1, w2, w3, w4⟩ := inv_sq (fun i => r (out i)) (fun i => hr (out i))
  obtain ⟨v, hv⟩ := C144_defined hT hI hN hq e e' true one_pos hth (wh_inj w1 hX)
  cases reml with
  | true => exact ⟨_, by rw [loglike_wh w2, hv]; rfl⟩
  | false =>
  unfold Lm.loglike at hv
  cases hg : T.ginv? th with
  | none => simp [hg] at hv
  | some Gi =>
  obtain ⟨h1, h2, h3⟩ := ginv_some hT hg
  subst h1
  cases hl : cN ((Lm.updateMme (wh m w) (T.gcov th)⁻¹ 1).submatrix e.symm e.symm) with
  | none => simp [hg, hl] at hv
  | some L =>
  have hS : (T.gcov th)⁻¹ + m.Zᵀ * ((1 / r (Fin.last k)) • (1 : Mat n n) * m.Z) = qmat m th fun _ => 1 / r (Fin.last k) := by
    rw [qmat]
    have : (diagonal fun _ : Fin n => 1 / r (Fin.last k)) = (1 / r (Fin.last k)) • (1 : Mat n n) := by
      rw [smul_one_eq_diagonal]
    rw [this]
  obtain ⟨Ls, hs⟩ := hq.total ((qmat m th fun _ => 1 / r (Fin.last k)).submatrix e'.symm e'.symm)
    ((qmat_posDef hT hth fun _ => one_div_pos.2 (hr _)).submatrix e'.symm.injective)
  unfold loglike
  rw [upd_true w2]
  simp only [hg, Option.bind_eq_bind, Option.bind_some, mme_wh, hl, hS, hs, Bool.false_eq_true, if_false]
  exact ⟨_, rfl⟩

/-- Whatever `reml`, the objective of `fit` is the restricted likelihood: the flag only selects the factorisation. -/
theorem C200_objective_partial (hT : T.Pd) (hN : CholOk cN) (hq : CholOk cq) {es ed : Ix T p ⊕ Unit ≃ Fin (N + 1)}
    (hes : es (Sum.inr ()) = Fin.last N) (hed : ed (Sum.inr ()) = Fin.last N) (hr : ∀ j, 0 < r j) {reml : Bool}
    {v : ℝ} (h : loglikeC cN cq es ed e' m out reml th r = some v) :
    v = devi true m.X m.y (mvcov m th fun i => r (out i)) := by
  unfold loglikeC at h
  refine C200_reml_partial hT hN hq ?_ hr h
  cases reml <;> simpa
end like

section grad
variable {cq : Mat q q → Option (Mat q q)} {e : T.RE ≃ Fin q} {out : Fin n → Fin k} {r : Fin k → ℝ}

theorem gcomp_wh {w : Fin n → ℝ} (reml : Bool) (P : GParts T n p) (j : T.Par) :
    gcomp reml m (unwh w P) j = gcomp reml (wh m w) P j := by
  unfold gcomp unwh wh
  have : m.Zᵀ *ᵥ (diagonal w *ᵥ P.Py) = (diagonal w * m.Z)ᵀ *ᵥ P.Py := by
    rw [transpose_mul, diagonal_transpose, mulVec_mulVec]
  simp only [this]

theorem dV_wh {w : Fin n → ℝ} (j : T.Par) : dV (wh m w) j = diagonal w * dV m j * diagonal w := by
  unfold dV wh
  simp only [transpose_mul, diagonal_transpose, Matrix.mul_assoc]

theorem rcomp_wh (hT : T.Pd) {w : Fin n → ℝ} (reml : Bool) {P : GParts T n p} (h : GOk (wh m w) th 1 P) (E : Mat n n) :
    rcomp reml (unwh w P) E = dform reml (wh m w).X (wh m w).y (vcov (wh m w) th 1) (diagonal w * E * diagonal w) := by
  have hVt := vinv_symm (vcov_symm hT (wh m w) th 1)
  have hV : (vcov (wh m w) th 1)⁻¹ = 1 - P.RZ * P.M * P.RZᵀ := by
    rw [vinv_form one_ne_zero h.hG h.hC, h.RZ, h.M, div_one, one_smul]
  unfold rcomp dform
  dsimp only [unwh]
  rw [← h.Xi, ← h.Py]
  have g1 : (diagonal (fun i => w i * w i) * E).trace - (P.M * ((diagonal w * P.RZ)ᵀ * E * (diagonal w * P.RZ))).trace =
      ((vcov (wh m w) th 1)⁻¹ * (diagonal w * E * diagonal w)).trace := by
    rw [hV, Matrix.sub_mul, trace_sub, Matrix.one_mul, diag_sq]
    congr 1
    · rw [Matrix.mul_assoc, trace_mul_comm, Matrix.mul_assoc]
    · have : P.RZ * P.M * P.RZᵀ * (diagonal w * E * diagonal w) = P.RZ * (P.M * P.RZᵀ * (diagonal w * E * diagonal w)) := by
        simp only [Matrix.mul_assoc]
      rw [this, trace_mul_comm P.RZ, transpose_mul, diagonal_transpose]
      simp only [Matrix.mul_assoc]
  have g2 : (E *ᵥ (diagonal w *ᵥ P.Py)) ⬝ᵥ (diagonal w *ᵥ P.Py) = P.Py ⬝ᵥ ((diagonal w * E * diagonal w) *ᵥ P.Py) := by
    rw [dotProduct_comm, sym_dot (diagonal_transpose w)]
    simp only [mulVec_mulVec, Matrix.mul_assoc]
  have g3 : (diagonal w * P.WX)ᵀ * (E * (diagonal w * P.WX)) =
      (wh m w).Xᵀ * (vcov (wh m w) th 1)⁻¹ * (diagonal w * E * diagonal w) * (vcov (wh m w) th 1)⁻¹ * (wh m w).X := by
    rw [h.WX]
    simp only [transpose_mul, hVt, diagonal_transpose, Matrix.mul_assoc]
  rw [g1, g2, g3]
  ring

theorem mvcov_symm (hT : T.Pd) (m : Mme T n p) (th : T.Par → ℝ) (ρ : Fin n → ℝ) : (mvcov m th ρ)ᵀ = mvcov m th ρ := by
  unfold mvcov
  simp only [transpose_add, transpose_mul, transpose_transpose, diagonal_transpose, gcov_symm hT, Matrix.mul_assoc]

/-- The entries of `gradient`. -/
theorem C200_gradient_components (hT : T.Pd) (hq : CholOk cq) (hr : ∀ j, 0 < r j) {reml : Bool} {gG : T.Par → ℝ} {gR : Fin k → ℝ}
    (h : gradient cq e m out reml th r = some (gG, gR)) :
    (∀ j, gG j = dform reml m.X m.y (mvcov m th fun i => r (out i)) (dV m j)) ∧
      (∀ j, gR j = dform reml m.X m.y (mvcov m th fun i => r (out i)) (dR out j)) ∧
      IsUnit (mvcov m th fun i => r (out i)).det ∧ IsUnit (xvx m.X (mvcov m th fun i => r (out i))).det := by
  obtain ⟨w, w1, w2, w3, w4⟩ := inv_sq (fun i => r (out i)) (fun i => hr (out i))
  unfold gradient at h
  rw [upd_true w2, gparts_wh] at h
  cases hP : Lm.gparts cq e (wh m w) false th 1 with
  | none => simp [hP] at h
  | some P =>
  have ok := gparts_ok hT hq one_ne_zero hP
  rw [hP] at h
  have h := Option.some.inj h
  rw [Prod.mk.injEq] at h
  have hD := det_w w3
  have hDt := diagonal_transpose w
  refine ⟨fun j => ?_, fun j => ?_, mvcov_unit w3 (vcov_unit one_ne_zero ok.hG ok.hC), ?_⟩
  · rw [← h.1, gcomp_wh, gcomp_eq hT ok, dV_wh, vcov_wh w3]
    exact dform_wh hD hDt reml _
  · rw [← h.2]
    show rcomp reml (unwh w P) (dR out j) = _
    rw [rcomp_wh hT reml ok, vcov_wh w3]
    exact dform_wh hD hDt reml _
  · have := ok.hx
    rw [vcov_wh w3] at this
    have e2 : xvx (wh m w).X (diagonal w * mvcov m th (fun i => r (out i)) * diagonal w) = xvx m.X (mvcov m th fun i => r (out i)) :=
      xvx_wh hD hDt
    rwa [e2] at this

/-- `gradient` gives the derivative of the likelihood, restricted or not, along every differentiable path of the covariances of
the random effects and the residual variances of the responses. -/
theorem C200_gradient (hT : T.Pd) (hq : CholOk cq) {th : ℝ → T.Par → ℝ} {th' : T.Par → ℝ} {r : ℝ → Fin k → ℝ} {r' : Fin k → ℝ}
    (h : ∀ j, HasDerivAt (fun t => th t j) (th' j) 0) (hrd : ∀ j, HasDerivAt (fun t => r t j) (r' j) 0) (hr : ∀ j, 0 < r 0 j)
    {reml : Bool} {gG : T.Par → ℝ} {gR : Fin k → ℝ} (hg : gradient cq e m out reml (th 0) (r 0) = some (gG, gR)) :
    HasDerivAt (fun t => devi reml m.X m.y (mvcov m (th t) fun i => r t (out i))) (∑ j, th' j * gG j + ∑ j, r' j * gR j) 0 := by
  obtain ⟨c1, c2, u1, u2⟩ := C200_gradient_components hT hq hr hg
  have hd : MD (fun t => diagonal (fun i => r t (out i)) : ℝ → Mat n n) (∑ j, r' j • dR out j) := by
    intro a b
    by_cases hab : a = b
    · subst hab
      simp only [diagonal_apply_eq]
      refine (hrd (out a)).congr_deriv ?_
      simp [Matrix.sum_apply, dR]
    · simp only [diagonal_apply_ne _ hab]
      refine (hasDerivAt_const (0 : ℝ) (0 : ℝ)).congr_deriv ?_
      simp [Matrix.sum_apply, dR, diagonal_apply_ne _ hab]
  have hmd : MD (fun t => mvcov m (th t) fun i => r t (out i)) (m.Z * T.gcov th' * m.Zᵀ + ∑ j, r' j • dR out j) := by
    have h1 := ((MD.const m.Z).mul (gcov_md h)).mul (MD.const m.Zᵀ)
    refine (h1.add hd).congr ?_
    simp
  have := devi_deriv (reml := reml) (X := m.X) (y := m.y) hmd (mvcov_symm hT m _ _) u1 u2
  refine this.congr_deriv ?_
  have hz : m.Z * T.gcov th' * m.Zᵀ = ∑ j, th' j • dV m j := by
    have := vdir m th' 0
    simpa using this
  rw [hz, dform_add, dform_sum, dform_sum]
  simp only [dform_smul, c1, c2]

/-- `gradient` returns a value if the covariances are positive definite, the residual variances positive and the design of full
rank. -/
theorem C200_gradient_defined (hT : T.Pd) (hI : ∀ k, T.acov k = none) (hq : CholOk cq) (e : T.RE ≃ Fin q) (out : Fin n → Fin k)
    (reml : Bool) (hr : ∀ j, 0 < r j) (hth : ∀ k, (invech (Terms.sl th k)).PosDef) (hX : Function.Injective m.X.mulVec) :
    ∃ g, gradient cq e m out reml th r = some g := by
  obtain ⟨w, w1, w2, w3, w4⟩ := inv_sq (fun i => r (out i)) (fun i => hr (out i))
  have hX' : Function.Injective (wh m w).X.mulVec := by
    intro a b hab
    apply hX
    have hab : (diagonal w * m.X) *ᵥ a = (diagonal w * m.X) *ᵥ b := hab
    rw [← mulVec_mulVec, ← mulVec_mulVec] at hab
    funext i
    have := congrFun hab i
    simp only [mulVec_diagonal] at this
    exact mul_left_cancel₀ (w1 i).ne' this
  obtain ⟨g, hg⟩ := C145_defined (m := wh m w) (s2 := 1) hT hI hq e false false reml one_pos hth hX'
  unfold Lm.gradient at hg
  cases hP : Lm.gparts cq e (wh m w) false th 1 with
  | none => simp [hP] at hg
  | some P =>
  unfold gradient
  rw [upd_true w2, gparts_wh, hP]
  exact ⟨_, rfl⟩
end grad

/-- `_compute_effects` gives the generalised least squares estimate, its covariance and the best linear unbiased predictor. -/
theorem C200_effects (hT : T.Pd) {cN : Mat N N → Option (Mat N N)} (hN : CholOk cN) {cq : Mat q q → Option (Mat q q)}
    (hq : CholOk cq) {e : Ix T p ≃ Fin N} {e' : T.RE ≃ Fin q} {out : Fin n → Fin k} {r : Fin k → ℝ} (hr : ∀ j, 0 < r j)
    {b : Fin p → ℝ} {M : Mat p p} {u : T.RE → ℝ} (h : computeEffects cN cq e e' m out th r = some (b, M, u)) :
    b = gls m.X m.y (mvcov m th fun i => r (out i)) ∧ M = (xvx m.X (mvcov m th fun i => r (out i)))⁻¹ ∧
      u = T.gcov th *ᵥ (m.Zᵀ *ᵥ ((mvcov m th fun i => r (out i))⁻¹ *ᵥ (m.y - m.X *ᵥ b))) := by
  obtain ⟨w, w1, w2, w3, w4⟩ := inv_sq (fun i => r (out i)) (fun i => hr (out i))
  rw [effects_wh w2] at h
  obtain ⟨h1, h2, h3⟩ := C146_effects hT hN hq one_ne_zero h
  have hD := det_w w3
  have hDt := diagonal_transpose w
  rw [vcov_wh w3] at h1 h2 h3
  refine ⟨h1.trans (gls_wh hD hDt), h2.trans (congrArg (fun A => A⁻¹) (xvx_wh hD hDt)), h3.trans ?_⟩
  show T.gcov th *ᵥ ((diagonal w * m.Z)ᵀ *ᵥ (_ *ᵥ (diagonal w *ᵥ m.y - (diagonal w * m.X) *ᵥ b))) = _
  rw [← inv_wh (V := mvcov m th fun i => r (out i)) hD, transpose_mul, hDt, ← mulVec_mulVec b, ← mulVec_sub]
  simp only [mulVec_mulVec, Matrix.mul_assoc]

end Verif.Lmm.Mlmm
