import Verif.Lmm.Mlmm
import Verif.Lmm.LmEffProps
/-!
# The multivariate mixed model and the univariate one with scaled rows
-/
namespace Verif.Lmm.Mlmm
open Matrix Kronecker Verif.Fa Verif.Like Verif.Lmm.Lm
variable {T : Terms} {n p q N k : ℕ} {m : Mme T n p} {th : T.Par → ℝ} {w ρ : Fin n → ℝ}

/-- The data with rows multiplied by `w`. -/
noncomputable def wh (m : Mme T n p) (w : Fin n → ℝ) : Mme T n p := ⟨diagonal w * m.X, diagonal w *ᵥ m.y, diagonal w * m.Z⟩

/-- The marginal covariance. -/
noncomputable def mvcov (m : Mme T n p) (th : T.Par → ℝ) (ρ : Fin n → ℝ) : Mat n n := m.Z * T.gcov th * m.Zᵀ + diagonal ρ

theorem diag_sq (w : Fin n → ℝ) : diagonal (fun i => w i * w i) = diagonal w * diagonal w := by rw [diagonal_mul_diagonal]

theorem cross_mm {a b : Type} [Fintype a] [Fintype b] (A : Matrix (Fin n) a ℝ) (B : Matrix (Fin n) b ℝ) :
    (diagonal (fun i => w i * w i) * A)ᵀ * B = (diagonal w * A)ᵀ * (diagonal w * B) := by
  rw [diag_sq]
  simp only [transpose_mul, diagonal_transpose, Matrix.mul_assoc]

theorem cross_mm' {a b : Type} [Fintype a] [Fintype b] (A : Matrix (Fin n) a ℝ) (B : Matrix (Fin n) b ℝ) :
    Aᵀ * (diagonal (fun i => w i * w i) * B) = (diagonal w * A)ᵀ * (diagonal w * B) := by
  rw [diag_sq]
  simp only [transpose_mul, diagonal_transpose, Matrix.mul_assoc]

theorem cross_mv {a : Type} [Fintype a] (A : Matrix (Fin n) a ℝ) (y : Fin n → ℝ) :
    (diagonal (fun i => w i * w i) * A)ᵀ *ᵥ y = (diagonal w * A)ᵀ *ᵥ (diagonal w *ᵥ y) := by
  rw [diag_sq, mulVec_mulVec]
  simp only [transpose_mul, diagonal_transpose, Matrix.mul_assoc]

theorem xzy_wh (m : Mme T n p) (w : Fin n → ℝ) : xzy (wh m w) = diagonal w * xzy m := by
  ext i j
  rw [diagonal_mul]
  rcases j with (j | j) | j <;> simp [xzy, wh, diagonal_mul, mulVec_diagonal]

theorem bigM_eq (m : Mme T n p) : bigM m = (xzy m)ᵀ * xzy m := by
  ext i j
  rcases i with (i | i) | i <;> rcases j with (j | j) | j <;>
    simp [bigM, xzy, Matrix.mul_apply, mul_comm]

theorem mme_wh (m : Mme T n p) (Gi : Matrix T.RE T.RE ℝ) (w : Fin n → ℝ) :
    updateMme m Gi (fun i => w i * w i) = Lm.updateMme (wh m w) Gi 1 := by
  unfold updateMme Lm.updateMme
  rw [bigM_eq, xzy_wh, ← cross_mm', div_one, one_smul]

theorem vcov_wh (h : ∀ i, w i * w i * ρ i = 1) : vcov (wh m w) th 1 = diagonal w * mvcov m th ρ * diagonal w := by
  have h1 : diagonal w * diagonal ρ * diagonal w = (1 : Mat n n) := by
    rw [diagonal_mul_diagonal, diagonal_mul_diagonal, ← diagonal_one]
    congr 1
    funext i
    rw [← h i]; ring
  unfold vcov mvcov wh
  rw [Matrix.mul_add, Matrix.add_mul, h1, one_smul]
  simp only [transpose_mul, diagonal_transpose, Matrix.mul_assoc]

theorem det_w (h : ∀ i, w i * w i * ρ i = 1) : IsUnit (diagonal w : Mat n n).det := by
  rw [det_diagonal]
  refine (Finset.prod_ne_zero_iff.2 fun i _ h0 => ?_).isUnit
  have := h i
  rw [h0] at this
  simp at this

section inv
variable {D V : Mat n n} {X : Mat n p} {y : Fin n → ℝ}

theorem inv_wh (hD : IsUnit D.det) : D * (D * V * D)⁻¹ * D = V⁻¹ := by
  rw [Matrix.mul_inv_rev, Matrix.mul_inv_rev, ← Matrix.mul_assoc, ← Matrix.mul_assoc, mul_nonsing_inv _ hD, Matrix.one_mul,
    Matrix.mul_assoc, nonsing_inv_mul _ hD, Matrix.mul_one]

theorem xvx_wh (hD : IsUnit D.det) (hDt : Dᵀ = D) : xvx (D * X) (D * V * D) = xvx X V := by
  unfold xvx
  rw [← inv_wh (V := V) hD, transpose_mul, hDt]
  simp only [Matrix.mul_assoc]

theorem pmat_wh (hD : IsUnit D.det) (hDt : Dᵀ = D) : D * pmat (D * X) (D * V * D) * D = pmat X V := by
  unfold pmat
  rw [xvx_wh hD hDt, Matrix.mul_sub, Matrix.sub_mul, inv_wh hD]
  conv_rhs => rw [← inv_wh (V := V) hD]
  rw [inv_wh hD]
  congr 1
  rw [transpose_mul, hDt]
  conv_rhs => rw [← inv_wh (V := V) hD]
  simp only [Matrix.mul_assoc]

theorem pmat_wh_mv (hD : IsUnit D.det) (hDt : Dᵀ = D) : D *ᵥ (pmat (D * X) (D * V * D) *ᵥ (D *ᵥ y)) = pmat X V *ᵥ y := by
  rw [← pmat_wh (V := V) (X := X) hD hDt]
  simp only [mulVec_mulVec, Matrix.mul_assoc]

theorem sym_dot (hDt : Dᵀ = D) (u v : Fin n → ℝ) : (D *ᵥ u) ⬝ᵥ v = u ⬝ᵥ (D *ᵥ v) := by
  rw [dotProduct_mulVec, ← mulVec_transpose, hDt]

theorem devi_wh (hD : IsUnit D.det) (hDt : Dᵀ = D) (hV : IsUnit V.det) (reml : Bool) :
    devi reml (D * X) (D *ᵥ y) (D * V * D) = devi reml X y V + 2 * Real.log |D.det| := by
  unfold devi
  rw [xvx_wh hD hDt, sym_dot hDt, pmat_wh_mv hD hDt, det_mul, det_mul, abs_mul, abs_mul,
    Real.log_mul (mul_ne_zero (abs_ne_zero.2 hD.ne_zero) (abs_ne_zero.2 hV.ne_zero)) (abs_ne_zero.2 hD.ne_zero),
    Real.log_mul (abs_ne_zero.2 hD.ne_zero) (abs_ne_zero.2 hV.ne_zero)]
  ring

theorem gls_wh (hD : IsUnit D.det) (hDt : Dᵀ = D) : gls (D * X) (D *ᵥ y) (D * V * D) = gls X y V := by
  unfold gls
  rw [xvx_wh hD hDt, ← inv_wh (V := V) hD, transpose_mul, hDt]
  simp only [mulVec_mulVec, Matrix.mul_assoc]

theorem dform_wh (hD : IsUnit D.det) (hDt : Dᵀ = D) (reml : Bool) (E : Mat n n) :
    dform reml (D * X) (D *ᵥ y) (D * V * D) (D * E * D) = dform reml X y V E := by
  unfold dform
  rw [xvx_wh hD hDt]
  have h1 : ((D * V * D)⁻¹ * (D * E * D)).trace = (V⁻¹ * E).trace := by
    rw [← inv_wh (V := V) hD, show (D * V * D)⁻¹ * (D * E * D) = ((D * V * D)⁻¹ * D * E) * D by simp only [Matrix.mul_assoc],
      trace_mul_comm]
    simp only [Matrix.mul_assoc]
  have h2 : (D * X)ᵀ * (D * V * D)⁻¹ * (D * E * D) * (D * V * D)⁻¹ * (D * X) = Xᵀ * V⁻¹ * E * V⁻¹ * X := by
    rw [← inv_wh (V := V) hD, transpose_mul, hDt]
    simp only [Matrix.mul_assoc]
  have h3 : ∀ v : Fin n → ℝ, v ⬝ᵥ ((D * E * D) *ᵥ v) = (D *ᵥ v) ⬝ᵥ (E *ᵥ (D *ᵥ v)) := fun v => by
    rw [sym_dot hDt]
    simp only [mulVec_mulVec, Matrix.mul_assoc]
  rw [h1, h2, h3, pmat_wh_mv hD hDt]

end inv

theorem inv_sq (r : Fin n → ℝ) (h : ∀ i, 0 < r i) : ∃ w : Fin n → ℝ, (∀ i, 0 < w i) ∧ (∀ i, 1 / r i = w i * w i) ∧
    (∀ i, w i * w i * r i = 1) ∧ ∀ i, 2 * Real.log (w i) = -Real.log (r i) := by
  refine ⟨fun i => 1 / √(r i), fun i => one_div_pos.2 (Real.sqrt_pos.2 (h i)), fun i => ?_, fun i => ?_, fun i => ?_⟩
  · rw [div_mul_div_comm, one_mul, Real.mul_self_sqrt (h i).le]
  · rw [div_mul_div_comm, one_mul, Real.mul_self_sqrt (h i).le, one_div, inv_mul_cancel₀ (h i).ne']
  · rw [Real.log_div one_ne_zero (Real.sqrt_pos.2 (h i)).ne', Real.log_one, Real.log_sqrt (h i).le]
    ring

theorem upd_true {out : Fin n → Fin k} {r : Fin k → ℝ} (h : ∀ i, 1 / r (out i) = w i * w i) :
    updateR out r true = fun i => w i * w i := by
  funext i
  simp [updateR, ← h i]

/-- The restricted likelihood is that of the scaled data. -/
theorem loglike_wh {cN : Mat (N + 1) (N + 1) → Option (Mat (N + 1) (N + 1))} {cq : Mat q q → Option (Mat q q)}
    {e : Ix T p ⊕ Unit ≃ Fin (N + 1)} {e' : T.RE ≃ Fin q} {out : Fin n → Fin (k + 1)} {r : Fin (k + 1) → ℝ}
    (h : ∀ i, 1 / r (out i) = w i * w i) :
    loglike cN cq e e' m out true th r =
      (Lm.loglike cN cq e e' (wh m w) true th 1).map (fun v => v + ∑ i, Real.log (r (out i))) := by
  unfold loglike Lm.loglike
  rw [upd_true h]
  cases T.ginv? th with
  | none => rfl
  | some Gi =>
  simp only [Option.bind_eq_bind, Option.bind_some, mme_wh]
  cases cN ((Lm.updateMme (wh m w) Gi 1).submatrix e.symm e.symm) with
  | none => rfl
  | some L =>
  simp only [Option.bind_some, if_true, Real.log_one, zero_mul, zero_add]
  show some _ = some _
  congr 1
  simp only [updateR, Bool.false_eq_true, if_false]
  ring

/-- The quantities of the gradient, from those of the scaled data. -/
noncomputable def unwh (w : Fin n → ℝ) (P : GParts T n p) : GParts T n p :=
  ⟨diagonal fun i => w i * w i, diagonal w * P.RZ, P.M, P.ZtWZ, P.XtWXinv, P.ZtWX, diagonal w * P.WX, diagonal w *ᵥ P.Py⟩

theorem gparts_wh {cq : Mat q q → Option (Mat q q)} {e : T.RE ≃ Fin q} :
    gparts cq e m (fun i => w i * w i) th = (Lm.gparts cq e (wh m w) false th 1).map (unwh w) := by
  have eZ : (wh m w).Z = diagonal w * m.Z := rfl
  have eX : (wh m w).X = diagonal w * m.X := rfl
  have ey : (wh m w).y = diagonal w *ᵥ m.y := rfl
  unfold gparts Lm.gparts
  cases T.ginv? th with
  | none => rfl
  | some Gi =>
  simp only [Option.bind_eq_bind, Option.bind_some, div_one, one_smul, Matrix.one_mul, one_mulVec, eZ, eX, ey, cross_mm, cross_mm', cross_mv]
  cases cq ((Gi + (diagonal w * m.Z)ᵀ * (diagonal w * m.Z)).submatrix e.symm e.symm) with
  | none => rfl
  | some L =>
  simp only [Option.bind_some, Bool.false_eq_true, if_false]
  cases inv? ((diagonal w * m.X)ᵀ * (diagonal w * m.X) - ((diagonal w * m.Z)ᵀ * (diagonal w * m.X))ᵀ *
      (((L⁻¹)ᵀ * L⁻¹).submatrix e e * ((diagonal w * m.Z)ᵀ * (diagonal w * m.X)))) with
  | none => rfl
  | some Xi =>
  show some _ = some _
  congr 1
  unfold unwh
  generalize ((L⁻¹)ᵀ * L⁻¹).submatrix e e = M
  generalize hA : ((diagonal w * m.Z)ᵀ * (diagonal w * m.X)) = A
  generalize hB : ((diagonal w * m.Z)ᵀ *ᵥ (diagonal w *ᵥ m.y)) = B
  have h1 : diagonal (fun i => w i * w i) * m.X - diagonal (fun i => w i * w i) * m.Z * (M * A) =
      diagonal w * (diagonal w * m.X - diagonal w * m.Z * (M * A)) := by
    rw [diag_sq, Matrix.mul_sub]
    simp only [Matrix.mul_assoc]
  simp only [h1]
  congr 1
  · rw [diag_sq, Matrix.mul_assoc]
  · rw [mulVec_sub, mulVec_sub, diag_sq]
    congr 1
    · simp only [mulVec_mulVec, Matrix.mul_assoc]
    · rw [transpose_mul, diagonal_transpose]
      simp only [mulVec_mulVec, Matrix.mul_assoc]

theorem effects_wh {cN : Mat N N → Option (Mat N N)} {cq : Mat q q → Option (Mat q q)}
    {e : Ix T p ≃ Fin N} {e' : T.RE ≃ Fin q} {out : Fin n → Fin k} {r : Fin k → ℝ} (h : ∀ i, 1 / r (out i) = w i * w i) :
    computeEffects cN cq e e' m out th r = Lm.computeEffects cN cq e e' (wh m w) th 1 := by
  have eZ : (wh m w).Z = diagonal w * m.Z := rfl
  have eX : (wh m w).X = diagonal w * m.X := rfl
  have hy : (fromCols m.X m.Z)ᵀ *ᵥ (diagonal (fun i => w i * w i) *ᵥ m.y) =
      (1 / (1 : ℝ)) • Sum.elim ((wh m w).Xᵀ *ᵥ (wh m w).y) ((wh m w).Zᵀ *ᵥ (wh m w).y) := by
    rw [div_one, one_smul, transpose_fromCols, fromRows_mulVec, diag_sq]
    simp only [wh, transpose_mul, diagonal_transpose, mulVec_mulVec, Matrix.mul_assoc]
  unfold computeEffects Lm.computeEffects
  rw [upd_true h]
  cases T.ginv? th with
  | none => rfl
  | some Gi =>
  simp only [Option.bind_eq_bind, Option.bind_some]
  rw [hy]
  simp only [mme_wh, div_one, one_smul, Matrix.one_mul, eZ, eX, cross_mm', transpose_transpose]
  have hc : ((diagonal w * m.Z)ᵀ * (diagonal w * m.X))ᵀ = (diagonal w * m.X)ᵀ * (diagonal w * m.Z) := by
    rw [transpose_mul, transpose_transpose]
  have hc' : ((diagonal w * m.X)ᵀ * (diagonal w * m.Z))ᵀ = (diagonal w * m.Z)ᵀ * (diagonal w * m.X) := by
    rw [transpose_mul, transpose_transpose]
  simp only [hc, hc']

end Verif.Lmm.Mlmm
