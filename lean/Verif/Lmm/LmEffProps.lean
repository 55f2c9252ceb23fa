import Verif.Lmm.LmGradProps
/-!
# C146: the estimates of `LMM`
-/
namespace Verif.Lmm.Lm
open Matrix Kronecker Verif.Fa Verif.Like Verif.Calc
variable {T : Terms} {n p q N : ℕ} {m : Mme T n p} {th : T.Par → ℝ} {s2 : ℝ}

/-- `vinvcrossprod` forms the product with the inverse of the marginal covariance. -/
theorem C146_vinvcrossprod {a b : Type} [Fintype a] [Fintype b] (hT : T.Pd) {cq : Mat q q → Option (Mat q q)} (hq : CholOk cq)
    {e : T.RE ≃ Fin q} (hs : s2 ≠ 0) {A : Matrix (Fin n) a ℝ} {B : Matrix (Fin n) b ℝ} {C : Matrix a b ℝ}
    (h : vinvcross cq e m A B th s2 = some C) : C = Aᵀ * (vcov m th s2)⁻¹ * B := by
  unfold vinvcross at h
  cases hg : T.ginv? th with
  | none => simp [hg] at h
  | some Gi =>
  obtain ⟨h1, h2, h3⟩ := ginv_some hT hg
  subst h1
  have hRZ : ((1 / s2) • (1 : Mat n n)) * m.Z = (1 / s2) • m.Z := by rw [Matrix.smul_mul, Matrix.one_mul]
  have hQ : (T.gcov th)⁻¹ + m.Zᵀ * ((1 / s2) • m.Z) = cmat m th s2 := by
    rw [add_comm, Matrix.mul_smul]; rfl
  simp only [hg, hRZ, hQ, Option.bind_eq_bind, Option.bind_some] at h
  cases hl : cq ((cmat m th s2).submatrix e.symm e.symm) with
  | none => simp [hl] at h
  | some L =>
  obtain ⟨l1, l2, l3⟩ := hq.ok _ _ hl
  have hC := fac_unit e l1 (unit_chol l2 l3)
  simp only [hl, Option.bind_some, fac_inv l1] at h
  have h := Option.some.inj h
  rw [← h, vinv_form hs h2 hC, Matrix.mul_sub, Matrix.sub_mul]
  simp only [transpose_mul, transpose_transpose, transpose_smul, Matrix.mul_assoc, Matrix.mul_smul, Matrix.smul_mul, Matrix.one_mul,
    transpose_one]

/-- `_compute_effects` returns the generalised least squares estimate, its covariance, and the best linear unbiased
predictors. -/
theorem C146_effects (hT : T.Pd) {cN : Mat N N → Option (Mat N N)} (hN : CholOk cN) {cq : Mat q q → Option (Mat q q)}
    (hq : CholOk cq) {e : Ix T p ≃ Fin N} {e' : T.RE ≃ Fin q} (hs : s2 ≠ 0) {b : Fin p → ℝ} {M : Mat p p} {u : T.RE → ℝ}
    (h : computeEffects cN cq e e' m th s2 = some (b, M, u)) :
    b = gls m.X m.y (vcov m th s2) ∧ M = (xvx m.X (vcov m th s2))⁻¹ ∧
      u = T.gcov th *ᵥ (m.Zᵀ *ᵥ ((vcov m th s2)⁻¹ *ᵥ (m.y - m.X *ᵥ b))) := by
  unfold computeEffects at h
  cases hg : T.ginv? th with
  | none => simp [hg] at h
  | some Gi =>
  obtain ⟨h1, h2, h3⟩ := ginv_some hT hg
  subst h1
  simp only [hg, mme_k, Option.bind_eq_bind, Option.bind_some] at h
  cases hk : cN ((kmat m (T.gcov th)⁻¹ s2).submatrix e.symm e.symm) with
  | none => simp [hk] at h
  | some K =>
  obtain ⟨k1, k2, k3⟩ := hN.ok _ _ hk
  have hRZ : ((1 / s2) • (1 : Mat n n)) * m.Z = (1 / s2) • m.Z := by rw [Matrix.smul_mul, Matrix.one_mul]
  have hRX : ((1 / s2) • (1 : Mat n n)) * m.X = (1 / s2) • m.X := by rw [Matrix.smul_mul, Matrix.one_mul]
  have hQ : (T.gcov th)⁻¹ + m.Zᵀ * ((1 / s2) • m.Z) = cmat m th s2 := by
    rw [add_comm, Matrix.mul_smul]; rfl
  simp only [hk, hRZ, hRX, hQ, Option.bind_some, fac_inv k1] at h
  cases hl : cq ((cmat m th s2).submatrix e'.symm e'.symm) with
  | none => simp [hl] at h
  | some L =>
  obtain ⟨l1, l2, l3⟩ := hq.ok _ _ hl
  have hC := fac_unit e' l1 (unit_chol l2 l3)
  have hV := vinv_form hs h2 hC
  simp only [hl, Option.bind_some, fac_inv l1] at h
  have hXV : m.Xᵀ * ((1 / s2) • m.X) - (((1 / s2) • m.Z)ᵀ * m.X)ᵀ * ((cmat m th s2)⁻¹ * (((1 / s2) • m.Z)ᵀ * m.X)ᵀᵀ) =
      xvx m.X (vcov m th s2) := by
    unfold xvx
    rw [hV, Matrix.mul_sub, Matrix.sub_mul, transpose_transpose, transpose_mul, transpose_transpose]
    simp only [Matrix.mul_assoc, Matrix.mul_smul, Matrix.smul_mul, Matrix.one_mul]
  rw [hXV] at h
  cases hi : inv? (xvx m.X (vcov m th s2)) with
  | none => simp [hi] at h
  | some Xi =>
  obtain ⟨hx, hXi⟩ := inv?_eq hi
  subst hXi
  simp only [hi, Option.bind_some] at h
  have h := Option.some.inj h
  simp only [Prod.mk.injEq] at h
  obtain ⟨a1, a2, a3⟩ := h
  have hsol := kmat_inv hT hs h2 hC hx
  have hrhs : (1 / s2) • Sum.elim (m.Xᵀ *ᵥ m.y) (m.Zᵀ *ᵥ m.y) = rhs m s2 := rfl
  rw [hrhs, hsol] at a1 a3
  have hb : b = gls m.X m.y (vcov m th s2) := by rw [← a1]; rfl
  refine ⟨hb, a2.symm, ?_⟩
  rw [hb, ← pmat_gls, ← a3]
  rfl

section pls
variable {cq : Mat q q → Option (Mat q q)} {e : T.RE ≃ Fin q} {Lm : Matrix T.RE T.RE ℝ}

/-- `update_lmat` is a factor of the covariance of the random effects. -/
theorem lmat_mul {ch : (k : ℕ) → Mat k k → Option (Mat k k)} (hch : ∀ k, CholOk (ch k)) (hI : ∀ k, T.acov k = none)
    (h : lmat? ch th = some Lm) : Lm * Lmᵀ = T.gcov th := by
  unfold lmat? at h
  split at h
  · next hh =>
    have h := Option.some.inj h
    rw [← h, blockDiagonal'_transpose, ← blockDiagonal'_mul, Terms.gcov]
    congr 1
    funext k
    have hA : T.A k = 1 := by unfold Terms.A; rw [hI k]; rfl
    obtain ⟨l1, -, -⟩ := (hch _).ok _ _ (Option.some_get (hh k)).symm
    have ht : ∀ (A : Mat (T.nlv k) (T.nlv k)) (B : Mat (T.nrv k) (T.nrv k)), (A ⊗ₖ B)ᵀ = Aᵀ ⊗ₖ Bᵀ := fun A B => rfl
    rw [hA, ht, ← mul_kronecker_mul, transpose_one, Matrix.one_mul, l1]
  · simp at h

/-- Weights are the same as weighted data. -/
theorem C146_pls_weights (σ : Fin q ≃ Fin q) (w : Fin n → ℝ) (s : ℝ) :
    pls cq e σ m w Lm s = pls cq e σ ⟨diagonal w * m.X, diagonal w *ᵥ m.y, diagonal w * m.Z⟩ (fun _ => 1) Lm s := by
  have h1 : (diagonal fun _ : Fin n => (1 : ℝ)) = 1 := diagonal_one
  have hZ : (diagonal w * m.Z)ᵀ = m.Zᵀ * diagonal w := by rw [transpose_mul, diagonal_transpose]
  have hr : ∀ (b : Fin p → ℝ) (u : T.RE → ℝ), diagonal w *ᵥ (m.y - (m.X *ᵥ b + m.Z *ᵥ u)) =
      diagonal w *ᵥ m.y - ((diagonal w * m.X) *ᵥ b + (diagonal w * m.Z) *ᵥ u) := fun b u => by
    rw [mulVec_sub, mulVec_add, mulVec_mulVec, mulVec_mulVec]
  unfold pls
  simp only [h1, Matrix.mul_one, Matrix.one_mul, one_mulVec, hZ, hr]

/-- In the natural ordering `pls` returns the estimates and predictors of the model whose covariance of the random effects
is `theta` times the residual variance, and `n log (2 π s)` plus the determinants and quadratic form of that model. -/
theorem C146_pls_partial (hG : Lm * Lmᵀ = T.gcov th) (hq : CholOk cq) {s : ℝ} {d : ℝ} {b : Fin p → ℝ} {u : T.RE → ℝ}
    (h : pls cq e (Equiv.refl _) m (fun _ => 1) Lm s = some (d, b, u)) :
    b = gls m.X m.y (vcov m th 1) ∧ u = blup m th 1 ∧
      d = n * Real.log (2 * Real.pi * s) + (Real.log |(vcov m th 1).det| + Real.log |(xvx m.X (vcov m th 1)).det|) +
        (m.y ⬝ᵥ (pmat m.X (vcov m th 1) *ᵥ m.y)) / s := by
  have h1 : (diagonal fun _ : Fin n => (1 : ℝ)) = 1 := diagonal_one
  unfold pls at h
  simp only [h1, Matrix.mul_one, Matrix.one_mul, one_mulVec, Equiv.refl_symm, Equiv.coe_refl, submatrix_id_id] at h
  obtain ⟨B, hB⟩ : ∃ B, B = m.Z * Lm := ⟨_, rfl⟩
  have hBt : Lmᵀ * m.Zᵀ = Bᵀ := by rw [hB, transpose_mul]
  have hV : vcov m th 1 = 1 + B * Bᵀ := by
    rw [vcov, one_smul, ← hG, hB, transpose_mul, add_comm]
    simp only [Matrix.mul_assoc]
  rw [hBt, transpose_transpose] at h
  obtain ⟨S, hS⟩ : ∃ S, S = Bᵀ * B + 1 := ⟨_, rfl⟩
  rw [← hS] at h
  cases hl : cq (S.submatrix e.symm e.symm) with
  | none => simp [hl] at h
  | some L =>
  obtain ⟨l1, l2, l3⟩ := hq.ok _ _ hl
  have hL := unit_chol l2 l3
  have hSu := fac_unit e l1 hL
  have hdet : (vcov m th 1).det = S.det := by
    rw [hV, hS, add_comm (Bᵀ * B), det_one_add_mul_comm]
  have hVu : IsUnit (vcov m th 1).det := hdet ▸ hSu
  have hVs : (vcov m th 1)ᵀ = vcov m th 1 := by
    rw [hV, transpose_add, transpose_mul, transpose_transpose, transpose_one]
  have hVi : (vcov m th 1)⁻¹ = 1 - B * S⁻¹ * Bᵀ := by
    refine inv_eq_right_inv ?_
    have hSB : B * S = B + B * Bᵀ * B := by rw [hS, Matrix.mul_add, Matrix.mul_one, add_comm, Matrix.mul_assoc]
    have : (1 + B * Bᵀ) * (B * S⁻¹ * Bᵀ) = B * Bᵀ := by
      have h0 : (1 + B * Bᵀ) * B = B * S := by rw [hSB, Matrix.add_mul, Matrix.one_mul]
      rw [← Matrix.mul_assoc, ← Matrix.mul_assoc, h0, Matrix.mul_assoc B, mul_nonsing_inv _ hSu, Matrix.mul_one]
    rw [hV, Matrix.mul_sub, this, Matrix.mul_one, add_sub_cancel_right]
  have hgram : ∀ {k k' : Type} (C : Matrix T.RE k ℝ) (D : Matrix T.RE k' ℝ),
      (L⁻¹ * C.submatrix e.symm id)ᵀ * (L⁻¹ * D.submatrix e.symm id) = Cᵀ * S⁻¹ * D := by
    intro k k' C D
    rw [← facS_gram e l1 hL C D]
    unfold facS
    ext a b
    simp only [mul_apply (M := (_ : Matrix k _ ℝ)), transpose_apply, submatrix_apply, id]
    exact (Equiv.sum_comp e fun i => (L⁻¹ * C.submatrix e.symm id) i a * (L⁻¹ * D.submatrix e.symm id) i b).symm
  simp only [hl, Option.bind_eq_bind, Option.bind_some] at h
  have hLZX : Lmᵀ * (m.Zᵀ * m.X) = Bᵀ * m.X := by rw [← Matrix.mul_assoc, hBt]
  have hLZy : Lmᵀ *ᵥ (m.Zᵀ *ᵥ m.y) = Bᵀ *ᵥ m.y := by rw [mulVec_mulVec, hBt]
  rw [hLZX, hLZy, hgram] at h
  have hXV : m.Xᵀ * m.X - (Bᵀ * m.X)ᵀ * S⁻¹ * (Bᵀ * m.X) = xvx m.X (vcov m th 1) := by
    rw [xvx, hVi, Matrix.mul_sub, Matrix.sub_mul, Matrix.mul_one, transpose_mul, transpose_transpose]
    simp only [Matrix.mul_assoc]
  rw [hXV] at h
  cases hi : inv? (xvx m.X (vcov m th 1)) with
  | none => simp [hi] at h
  | some Xi =>
  obtain ⟨hx, hXi⟩ := inv?_eq hi
  subst hXi
  simp only [hi, Option.bind_some] at h
  have hvec : ∀ r : Fin n → ℝ, (fun i => (Bᵀ *ᵥ r) (e.symm i)) = (Bᵀ *ᵥ r) ∘ e.symm := fun r => rfl
  have hgv : ∀ r : Fin n → ℝ, (L⁻¹ * (Bᵀ * m.X).submatrix e.symm id)ᵀ *ᵥ (L⁻¹ *ᵥ fun i => (Bᵀ *ᵥ r) (e.symm i)) =
      m.Xᵀ *ᵥ (B *ᵥ (S⁻¹ *ᵥ (Bᵀ *ᵥ r))) := by
    intro r
    have := hgram (Bᵀ * m.X) (replicateCol Unit (Bᵀ *ᵥ r))
    have h' := congrArg (fun M => M *ᵥ fun _ : Unit => (1 : ℝ)) this
    simp only [← mulVec_mulVec] at h'
    have e1 : (replicateCol Unit (Bᵀ *ᵥ r)).submatrix e.symm id *ᵥ (fun _ : Unit => (1 : ℝ)) = fun i => (Bᵀ *ᵥ r) (e.symm i) := by
      funext i; simp [mulVec, dotProduct]
    have e2 : replicateCol Unit (Bᵀ *ᵥ r) *ᵥ (fun _ : Unit => (1 : ℝ)) = Bᵀ *ᵥ r := by
      funext i; simp [mulVec, dotProduct]
    rw [e1, e2] at h'
    rw [h', transpose_mul, transpose_transpose, ← mulVec_mulVec]
  have hb' : m.Xᵀ *ᵥ m.y - m.Xᵀ *ᵥ (B *ᵥ (S⁻¹ *ᵥ (Bᵀ *ᵥ m.y))) = m.Xᵀ *ᵥ ((vcov m th 1)⁻¹ *ᵥ m.y) := by
    rw [hVi, sub_mulVec, one_mulVec, mulVec_sub]
    simp only [mulVec_mulVec, Matrix.mul_assoc]
  have hbg : (xvx m.X (vcov m th 1))⁻¹ *ᵥ (m.Xᵀ *ᵥ m.y -
      (L⁻¹ * (Bᵀ * m.X).submatrix e.symm id)ᵀ *ᵥ (L⁻¹ *ᵥ fun i => (Bᵀ *ᵥ m.y) (e.symm i))) = gls m.X m.y (vcov m th 1) := by
    rw [hgv, hb']; rfl
  rw [hbg] at h
  obtain ⟨r, hr⟩ : ∃ r, r = m.y - m.X *ᵥ gls m.X m.y (vcov m th 1) := ⟨_, rfl⟩
  have hcu : (L⁻¹ *ᵥ fun i => (Bᵀ *ᵥ m.y) (e.symm i)) - (L⁻¹ * (Bᵀ * m.X).submatrix e.symm id) *ᵥ gls m.X m.y (vcov m th 1) =
      L⁻¹ *ᵥ fun i => (Bᵀ *ᵥ r) (e.symm i) := by
    rw [← mulVec_mulVec, ← mulVec_sub, hr]
    congr 1
    funext i
    rw [mulVec_sub, Pi.sub_apply, Pi.sub_apply, mulVec_mulVec]
    rfl
  rw [hcu] at h
  obtain ⟨v, hv⟩ : ∃ v : T.RE → ℝ, v = S⁻¹ *ᵥ (Bᵀ *ᵥ r) := ⟨_, rfl⟩
  have hvv : (L⁻¹)ᵀ *ᵥ (L⁻¹ *ᵥ fun i => (Bᵀ *ᵥ r) (e.symm i)) = v ∘ e.symm := by
    have hf := fac_inv l1
    have : (L⁻¹)ᵀ * L⁻¹ = S⁻¹.submatrix e.symm e.symm := by
      rw [← hf, submatrix_submatrix]; simp
    rw [mulVec_mulVec, this, submatrix_mulVec_equiv, hv]
    have : (fun i => (Bᵀ *ᵥ r) (e.symm i)) ∘ e.symm.symm = Bᵀ *ᵥ r := by funext i; simp
    rw [this]
  rw [hvv] at h
  have hve : (fun i => (v ∘ e.symm) (e i)) = v := by funext i; simp
  rw [hve] at h
  have hPr : pmat m.X (vcov m th 1) *ᵥ m.y = (vcov m th 1)⁻¹ *ᵥ r := by rw [pmat_gls, hr]
  have hvB : v = Bᵀ *ᵥ ((vcov m th 1)⁻¹ *ᵥ r) := by
    rw [hv, hVi]
    have : S⁻¹ * Bᵀ = Bᵀ * (1 - B * S⁻¹ * Bᵀ) := by
      have h0 : S⁻¹ = 1 - Bᵀ * B * S⁻¹ := by
        have : S * S⁻¹ = 1 := mul_nonsing_inv _ hSu
        rw [hS, Matrix.add_mul, Matrix.one_mul, ← hS] at this
        rw [← this]; abel
      conv_lhs => rw [h0]
      rw [Matrix.sub_mul, Matrix.one_mul, Matrix.mul_sub, Matrix.mul_one]
      simp only [Matrix.mul_assoc]
    rw [mulVec_mulVec, this, ← mulVec_mulVec]
  have hu : Lm *ᵥ v = blup m th 1 := by
    rw [blup, hPr, hvB, ← hG, hB, transpose_mul]
    simp only [← mulVec_mulVec]
  have hres : m.y - (m.X *ᵥ gls m.X m.y (vcov m th 1) + m.Z *ᵥ (Lm *ᵥ v)) = (vcov m th 1)⁻¹ *ᵥ r := by
    rw [mulVec_mulVec, ← hB, ← sub_sub, ← hr, hVi, sub_mulVec, one_mulVec, hv]
    simp only [mulVec_mulVec, Matrix.mul_assoc]
  rw [hres] at h
  have hvn : (v ∘ e.symm) ⬝ᵥ (v ∘ e.symm) = v ⬝ᵥ v := by
    simp only [dotProduct, Function.comp]
    exact Equiv.sum_comp e.symm fun i => v i * v i
  have hss : ((vcov m th 1)⁻¹ *ᵥ r) ⬝ᵥ ((vcov m th 1)⁻¹ *ᵥ r) + v ⬝ᵥ v = m.y ⬝ᵥ (pmat m.X (vcov m th 1) *ᵥ m.y) := by
    obtain ⟨z, hz⟩ : ∃ z, z = (vcov m th 1)⁻¹ *ᵥ r := ⟨_, rfl⟩
    have e1 : v ⬝ᵥ v = z ⬝ᵥ ((B * Bᵀ) *ᵥ z) := by
      rw [hvB, ← hz, dotProduct_mulVec (Bᵀ *ᵥ z), ← mulVec_transpose, transpose_transpose, dotProduct_comm, mulVec_mulVec]
    have e2 : z ⬝ᵥ z + z ⬝ᵥ ((B * Bᵀ) *ᵥ z) = z ⬝ᵥ r := by
      rw [← dotProduct_add]
      congr 1
      have : vcov m th 1 *ᵥ z = r := by rw [hz, mulVec_mulVec, mul_nonsing_inv _ hVu, one_mulVec]
      rw [← this, hV, add_mulVec, one_mulVec]
    rw [← hz, e1, e2, hPr, ← hz, hr, dotProduct_sub]
    have e3 : z ⬝ᵥ (m.X *ᵥ gls m.X m.y (vcov m th 1)) = 0 := by
      rw [dotProduct_mulVec, ← mulVec_transpose, hz, ← hPr, mulVec_mulVec]
      have := congrArg transpose (px_eq hx)
      rw [transpose_mul, pmat_symm hVs, transpose_zero] at this
      rw [this, zero_mulVec, zero_dotProduct]
    rw [e3, sub_zero, dotProduct_comm]
  rw [hvn, hss] at h
  have h := Option.some.inj h
  simp only [Prod.mk.injEq] at h
  obtain ⟨a1, a2, a3⟩ := h
  refine ⟨a2.symm, by rw [← a3, hu], ?_⟩
  rw [← a1, log_sq_diag e l1 l2 l3, hdet]

theorem gcov_smul (s : ℝ) : T.gcov (s • th) = s • T.gcov th := by
  ext ⟨k, x⟩ ⟨k', x'⟩
  by_cases hk : k = k'
  · subst hk
    simp only [Matrix.smul_apply, gcov_entry, Pi.smul_apply, smul_eq_mul]
    ring
  · rw [Matrix.smul_apply, gcov_entry_ne _ hk, gcov_entry_ne _ hk, smul_zero]

theorem vcov_scale {s : ℝ} : vcov m (s • th) s = s • vcov m th 1 := by
  rw [vcov, vcov, gcov_smul, smul_add, one_smul, Matrix.mul_smul, Matrix.smul_mul]

theorem smul_inv {k : ℕ} {s : ℝ} (hs : s ≠ 0) {V : Mat k k} (hu : IsUnit V.det) : (s • V)⁻¹ = (1 / s) • V⁻¹ := by
  refine inv_eq_right_inv ?_
  rw [smul_mul_smul_comm, mul_one_div_cancel hs, one_smul, mul_nonsing_inv _ hu]

theorem gls_smul {s : ℝ} (hs : s ≠ 0) {X : Mat n p} {y : Fin n → ℝ} {V : Mat n n} (hu : IsUnit V.det)
    (hx : IsUnit (xvx X V).det) : gls X y (s • V) = gls X y V := by
  have h1 : xvx X (s • V) = (1 / s) • xvx X V := by
    rw [xvx, xvx, smul_inv hs hu, Matrix.mul_smul, Matrix.smul_mul]
  rw [gls, gls, h1, smul_inv (one_div_ne_zero hs) hx, smul_inv hs hu, smul_mulVec, smul_mulVec, mulVec_smul, mulVec_smul, smul_smul,
    one_div_one_div, mul_one_div_cancel hs, one_smul]

/-- The deviance of `pls` is that of the restricted likelihood of this model plus `p log s`: its minimum over the residual
variance divides by `n`, not by the degrees of freedom. -/
theorem C146_pls_deviance (hG : Lm * Lmᵀ = T.gcov th) (hq : CholOk cq) {s : ℝ} (hs : 0 < s) {d : ℝ} {b : Fin p → ℝ} {u : T.RE → ℝ}
    (hV : IsUnit (vcov m th 1).det) (hx : IsUnit (xvx m.X (vcov m th 1)).det)
    (h : pls cq e (Equiv.refl _) m (fun _ => 1) Lm s = some (d, b, u)) :
    d = devi true m.X m.y (vcov m (s • th) s) + n * Real.log (2 * Real.pi) + p * Real.log s := by
  obtain ⟨-, -, hd⟩ := C146_pls_partial hG hq h
  have h1 : xvx m.X (s • vcov m th 1) = (1 / s) • xvx m.X (vcov m th 1) := by
    rw [xvx, xvx, smul_inv hs.ne' hV, Matrix.mul_smul, Matrix.smul_mul]
  have h2 : pmat m.X (s • vcov m th 1) = (1 / s) • pmat m.X (vcov m th 1) := by
    unfold pmat
    rw [h1, smul_inv (one_div_ne_zero hs.ne') hx, smul_inv hs.ne' hV, one_div_one_div, smul_sub]
    simp only [Matrix.smul_mul, Matrix.mul_smul, smul_smul]
    rw [mul_one_div_cancel hs.ne', mul_one]
  rw [hd, vcov_scale, devi, h1, h2, det_smul, det_smul, Fintype.card_fin, Fintype.card_fin, abs_mul, abs_mul,
    Real.log_mul (abs_ne_zero.2 (pow_ne_zero _ hs.ne')) (abs_ne_zero.2 hV.ne_zero),
    Real.log_mul (abs_ne_zero.2 (pow_ne_zero _ (one_div_ne_zero hs.ne'))) (abs_ne_zero.2 hx.ne_zero), abs_pow, abs_pow, Real.log_pow,
    Real.log_pow, smul_mulVec, dotProduct_smul, smul_eq_mul, Real.log_mul (by positivity) hs.ne']
  simp only [if_true, Real.log_abs, one_div, Real.log_inv]
  ring

end pls

/-- Three observations in two groups. -/
noncomputable def exM2 : Mme (exT none) 3 1 := ⟨of fun _ _ => 1, fun i => if i = 0 then 1 else 0,
  of fun i l => if (i.1 = 0 ↔ l.2.1.1 = 0) then 1 else 0⟩

def exE2 : (exT none).RE ≃ Fin 2 where
  toFun x := x.2.1
  invFun i := ⟨(0 : Fin 1), i, (0 : Fin 1)⟩
  left_inv x := by
    rcases x with ⟨x, y, z⟩
    fin_cases x; fin_cases z; rfl
  right_inv x := rfl

theorem gramL {k a b : ℕ} (L : Mat k k) (C : Mat k a) (D : Mat k b) : (L⁻¹ * C)ᵀ * (L⁻¹ * D) = Cᵀ * (L * Lᵀ)⁻¹ * D := by
  rw [Matrix.mul_inv_rev, transpose_mul, ← transpose_nonsing_inv]
  simp only [Matrix.mul_assoc]

theorem exZ2 : exM2.Z.submatrix id exE2.symm = !![1, 0; 0, 1; 0, 1] := by
  ext i k
  show (if (i.1 = 0 ↔ k.1 = 0) then (1 : ℝ) else 0) = _
  fin_cases i <;> fin_cases k <;> simp

theorem exS2 (c : ℝ) : (((c • (1 : Matrix (exT none).RE (exT none).RE ℝ))ᵀ * exM2.Zᵀ) * ((c • (1 : Matrix (exT none).RE (exT none).RE ℝ))ᵀ * exM2.Zᵀ)ᵀ + 1).submatrix
    exE2.symm exE2.symm = diagonal ![c * c + 1, 2 * (c * c) + 1] := by
  rw [transpose_smul, transpose_one, Matrix.smul_mul, Matrix.one_mul, transpose_smul, transpose_transpose, Matrix.smul_mul, Matrix.mul_smul,
    submatrix_add, Pi.add_apply, Pi.add_apply, submatrix_one_equiv]
  have : (c • c • (exM2.Zᵀ * exM2.Z)).submatrix exE2.symm exE2.symm =
      c • c • ((exM2.Z.submatrix id exE2.symm)ᵀ * exM2.Z.submatrix id exE2.symm) := rfl
  rw [this, exZ2]
  ext i j
  fin_cases i <;> fin_cases j <;>
  simp [mul_apply, Fin.sum_univ_three] <;> ring

/-- The estimate returned by `pls` in the example. -/
theorem exPls {cq : Mat 2 2 → Option (Mat 2 2)} (hq : CholOk cq) (σ : Fin 2 ≃ Fin 2) {a b : ℝ} (ha : 0 < a) (hb : 0 < b) (c s : ℝ)
    (hσ : (diagonal ![c * c + 1, 2 * (c * c) + 1] : Mat 2 2).submatrix σ.symm σ.symm = diagonal ![a, b])
    (hd : 3 - c * c / a - 4 * (c * c) / b ≠ 0) :
    ∃ d u, pls cq exE2 σ exM2 (fun _ => 1) (c • 1) s =
      some (d, fun _ => (1 - c * c / a) / (3 - c * c / a - 4 * (c * c) / b), u) := by
  have h1 : (diagonal fun _ : Fin 3 => (1 : ℝ)) = 1 := diagonal_one
  obtain ⟨L, hl⟩ := hq.total (diagonal ![a, b]) (PosDef.diagonal fun i => by fin_cases i <;> simp [ha, hb])
  obtain ⟨l1, l2, l3⟩ := hq.ok _ _ hl
  have hinv : (diagonal ![a, b] : Mat 2 2)⁻¹ = diagonal ![1 / a, 1 / b] := by
    refine inv_eq_right_inv ?_
    rw [diagonal_mul_diagonal, ← diagonal_one]
    congr 1
    funext i
    fin_cases i <;> simp [ha.ne', hb.ne']
  have hC : ((c • (1 : Matrix (exT none).RE (exT none).RE ℝ))ᵀ * (exM2.Zᵀ * exM2.X)).submatrix exE2.symm id = !![c; 2 * c] := by
    rw [transpose_smul, transpose_one, Matrix.smul_mul, Matrix.one_mul]
    have : (c • (exM2.Zᵀ * exM2.X)).submatrix exE2.symm id = c • ((exM2.Z.submatrix id exE2.symm)ᵀ * exM2.X) := rfl
    rw [this, exZ2]
    ext i j
    fin_cases j
    fin_cases i <;> simp [exM2, mul_apply, Fin.sum_univ_three] <;> ring
  have hy : (fun i => ((c • (1 : Matrix (exT none).RE (exT none).RE ℝ))ᵀ *ᵥ (exM2.Zᵀ *ᵥ exM2.y)) (exE2.symm i)) = ![c, 0] := by
    rw [transpose_smul, transpose_one, smul_mulVec, one_mulVec]
    have : (fun i => (c • (exM2.Zᵀ *ᵥ exM2.y)) (exE2.symm i)) = c • ((exM2.Z.submatrix id exE2.symm)ᵀ *ᵥ exM2.y) := rfl
    rw [this, exZ2]
    funext i
    fin_cases i <;> simp [exM2, mulVec, dotProduct, Fin.sum_univ_three]
  have hR : exM2.Xᵀ * exM2.X - (L⁻¹ * !![c; 2 * c])ᵀ * (L⁻¹ * !![c; 2 * c]) = of fun _ _ => 3 - c * c / a - 4 * (c * c) / b := by
    rw [gramL, l1, hinv]
    ext i j
    fin_cases i; fin_cases j
    simp [exM2, mul_apply, Fin.sum_univ_three, Fin.sum_univ_two, diagonal]
    ring
  have hRi : (of fun _ _ => 3 - c * c / a - 4 * (c * c) / b : Mat 1 1)⁻¹ = of fun _ _ => 1 / (3 - c * c / a - 4 * (c * c) / b) := by
    refine inv_eq_right_inv ?_
    ext i j
    fin_cases i; fin_cases j
    simp only [mul_apply, of_apply, Finset.univ_unique, Finset.sum_const, Finset.card_singleton, one_smul]
    rw [mul_one_div_cancel hd]
    simp
  have hRu : IsUnit (of fun _ _ => 3 - c * c / a - 4 * (c * c) / b : Mat 1 1).det := by
    rw [det_fin_one]
    exact hd.isUnit
  have hgv : exM2.Xᵀ *ᵥ exM2.y - (L⁻¹ * !![c; 2 * c])ᵀ *ᵥ (L⁻¹ *ᵥ ![c, 0]) = fun _ => 1 - c * c / a := by
    have : (L⁻¹ * !![c; 2 * c])ᵀ *ᵥ (L⁻¹ *ᵥ ![c, 0]) = (!![c; 2 * c]ᵀ * (L * Lᵀ)⁻¹) *ᵥ ![c, 0] := by
      rw [Matrix.mul_inv_rev, transpose_mul, ← transpose_nonsing_inv, mulVec_mulVec]
      simp only [Matrix.mul_assoc]
    rw [this, l1, hinv]
    funext i
    fin_cases i
    simp [exM2, mulVec, dotProduct, mul_apply, Fin.sum_univ_three, Fin.sum_univ_two, diagonal]
    ring
  unfold pls
  simp only [h1, Matrix.mul_one, Matrix.one_mul, one_mulVec]
  rw [exS2, hσ, hl]
  simp only [Option.bind_eq_bind, Option.bind_some]
  rw [hC, hy, hR, inv?_unit hRu, hRi]
  simp only [Option.bind_some]
  rw [hgv]
  have hb0 : (of fun _ _ => 1 / (3 - c * c / a - 4 * (c * c) / b) : Mat 1 1) *ᵥ (fun _ => 1 - c * c / a) =
      fun _ => (1 - c * c / a) / (3 - c * c / a - 4 * (c * c) / b) := by
    funext i
    simp [mulVec, dotProduct]
    ring
  rw [hb0]
  exact ⟨_, _, rfl⟩

theorem exG2 (c : ℝ) : (c • (1 : Matrix (exT none).RE (exT none).RE ℝ)) * (c • (1 : Matrix (exT none).RE (exT none).RE ℝ))ᵀ =
    (exT none).gcov (fun _ => c * c) := by
  rw [transpose_smul, transpose_one, smul_mul_smul_comm, Matrix.one_mul]
  have h1 : (fun _ => c * c : (exT none).Par → ℝ) = (c * c) • fun _ => 1 := by funext i; simp
  have h2 : (exT none).gcov (fun _ => 1) = 1 := by
    have : (fun k => (exT none).A k ⊗ₖ invech (Terms.sl (T := exT none) (fun _ => 1) k)) = fun _ => 1 := by
      funext k
      have : invech (Terms.sl (T := exT none) (fun _ => 1) k) = (1 : Mat 1 1) := by
        ext i j; fin_cases i; fin_cases j; rfl
      rw [this]
      exact one_kronecker_one
    rw [Terms.gcov, this]
    exact blockDiagonal'_one
  rw [h1, gcov_smul, h2]

theorem exGls2 {cq : Mat 2 2 → Option (Mat 2 2)} (hq : CholOk cq) {c : ℝ}
    (hd : 3 - c * c / (c * c + 1) - 4 * (c * c) / (2 * (c * c) + 1) ≠ 0) :
    gls exM2.X exM2.y (vcov exM2 (fun _ => c * c) 1) =
      fun _ => (1 - c * c / (c * c + 1)) / (3 - c * c / (c * c + 1) - 4 * (c * c) / (2 * (c * c) + 1)) := by
  obtain ⟨d, u, h⟩ := exPls hq (Equiv.refl _) (a := c * c + 1) (b := 2 * (c * c) + 1) (by nlinarith [mul_self_nonneg c])
    (by nlinarith [mul_self_nonneg c]) c 1 rfl hd
  exact (C146_pls_partial (exG2 c) hq h).1.symm

/-- `solve_L` does not apply the permutation of the factor: when CHOLMOD reorders the random effects the estimate is not that
of the model. -/
theorem C146_pls_order_violated {cq : Mat 2 2 → Option (Mat 2 2)} (hq : CholOk cq) :
    ∃ d b u, pls cq exE2 (Equiv.swap 0 1) exM2 (fun _ => 1) 1 1 = some (d, b, u) ∧
      b ≠ gls exM2.X exM2.y (vcov exM2 (fun _ => 1) 1) := by
  have hσ : (diagonal ![(1 : ℝ) * 1 + 1, 2 * (1 * 1) + 1] : Mat 2 2).submatrix (Equiv.swap 0 1).symm (Equiv.swap 0 1).symm =
      diagonal ![3, 2] := by
    ext i j
    fin_cases i <;> fin_cases j <;> simp <;> norm_num
  obtain ⟨d, u, h⟩ := exPls hq (Equiv.swap 0 1) (by norm_num) two_pos 1 1 hσ (by norm_num)
  rw [one_smul] at h
  refine ⟨_, _, _, h, ?_⟩
  have := exGls2 hq (c := 1) (by norm_num)
  rw [one_mul] at this
  rw [this]
  intro h0
  have := congrFun h0 0
  norm_num at this

/-- `pls` takes the covariances relative to the residual variance, `loglike` does not: away from `s = 1` the estimate is not
that of the model of `loglike`. -/
theorem C146_pls_scale_violated {cq : Mat 2 2 → Option (Mat 2 2)} (hq : CholOk cq) :
    ∃ d b u, pls cq exE2 (Equiv.refl _) exM2 (fun _ => 1) 1 2 = some (d, b, u) ∧
      b ≠ gls exM2.X exM2.y (vcov exM2 (fun _ => 1) 2) := by
  obtain ⟨d, u, h⟩ := exPls hq (Equiv.refl _) (a := 1 * 1 + 1) (b := 2 * (1 * 1) + 1) (by norm_num) (by norm_num) 1 2 rfl (by norm_num)
  rw [one_smul] at h
  refine ⟨_, _, _, h, ?_⟩
  obtain ⟨c, hc⟩ : ∃ c : ℝ, c * c = 1 / 2 := ⟨√(1 / 2), Real.mul_self_sqrt (by norm_num)⟩
  have hg := exGls2 hq (c := c) (by rw [hc]; norm_num)
  rw [hc] at hg
  have hth : (fun _ => 1 : (exT none).Par → ℝ) = (2 : ℝ) • fun _ => 1 / 2 := by funext i; simp
  have hI : (exT none).Pd := fun k B hB => by simp [exT] at hB
  have hp : ∀ k, (invech (Terms.sl (T := exT none) (fun _ => 1 / 2) k)).PosDef := fun k => by
    have : invech (Terms.sl (T := exT none) (fun _ => 1 / 2) k) = ((1 / 2 : ℝ) • 1 : Mat 1 1) := by
      ext i j; fin_cases i; fin_cases j
      show (1 / 2 : ℝ) = 1 / 2 * (1 : Mat 1 1) 0 0
      simp
    rw [this]; exact PosDef.one.smul (by norm_num)
  have hVp := vcov_posDef (m := exM2) hI one_pos hp
  have hX : Function.Injective exM2.X.mulVec := fun u v huv => by
    have := congrFun huv 0
    simp [exM2, mulVec, dotProduct] at this
    funext i
    fin_cases i
    exact this
  have hx : IsUnit (xvx exM2.X (vcov exM2 (fun _ => 1 / 2) 1)).det := by
    have := hVp.inv.conjTranspose_mul_mul_same hX
    rw [conjTranspose_eq_transpose_of_trivial] at this
    exact this.det_pos.ne'.isUnit
  rw [hth, vcov_scale, gls_smul two_ne_zero hVp.det_pos.ne'.isUnit hx, hg]
  intro h0
  have := congrFun h0 0
  norm_num at this

end Verif.Lmm.Lm
