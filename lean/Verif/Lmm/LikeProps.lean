import Verif.Lmm.Lemmas
import Mathlib.Analysis.Matrix.Order
/-!
# C109: the (restricted) likelihood of the mixed model

The specification is the marginal model `y ~ N(X β, V)` with `V = Z G Zᵀ + σ² I`.
-/
namespace Verif.Lmm
open Matrix Kronecker Verif.Fa Verif.Like
variable {T : Terms} {n p q : ℕ}

/-- The marginal covariance. -/
noncomputable def vcov (m : Mme T n p) (th : T.Par → ℝ) (s2 : ℝ) : Mat n n := m.Z * T.gcov th * m.Zᵀ + s2 • 1

/-- `Xᵀ V⁻¹ X`. -/
noncomputable def xvx (X : Mat n p) (V : Mat n n) : Mat p p := Xᵀ * V⁻¹ * X

/-- `P = V⁻¹ - V⁻¹ X (Xᵀ V⁻¹ X)⁻¹ Xᵀ V⁻¹`. -/
noncomputable def pmat (X : Mat n p) (V : Mat n n) : Mat n n := V⁻¹ - V⁻¹ * X * (xvx X V)⁻¹ * Xᵀ * V⁻¹

/-- Minus twice the log likelihood, profiled over the fixed effects, or the restricted one, without constants. -/
noncomputable def devi (reml : Bool) (X : Mat n p) (y : Fin n → ℝ) (V : Mat n n) : ℝ :=
  Real.log |V.det| + (if reml then Real.log |(xvx X V).det| else 0) + y ⬝ᵥ (pmat X V *ᵥ y)

section woodbury
variable {ι : Type} [Fintype ι] [DecidableEq ι]

theorem vinv_eq {Z : Matrix (Fin n) ι ℝ} {G : Matrix ι ι ℝ} {s2 : ℝ} (hs : s2 ≠ 0) (hG : IsUnit G.det)
    (hC : IsUnit ((1 / s2) • (Zᵀ * Z) + G⁻¹).det) :
    (Z * G * Zᵀ + s2 • (1 : Mat n n))⁻¹ =
      (1 / s2) • 1 - ((1 / s2) • Z) * ((1 / s2) • (Zᵀ * Z) + G⁻¹)⁻¹ * ((1 / s2) • Zᵀ) := by
  have hi : (s2 • (1 : Mat n n))⁻¹ = (1 / s2) • 1 := by
    refine inv_eq_right_inv ?_
    rw [smul_mul_smul_comm, Matrix.one_mul, mul_one_div_cancel hs, one_smul]
  have hA : IsUnit (s2 • (1 : Mat n n)) := by
    rw [isUnit_iff_isUnit_det, det_smul, det_one, mul_one]
    exact (pow_ne_zero _ hs).isUnit
  have hu : G⁻¹ + Zᵀ * (s2 • (1 : Mat n n))⁻¹ * Z = (1 / s2) • (Zᵀ * Z) + G⁻¹ := by
    rw [hi, Matrix.mul_smul, Matrix.mul_one, Matrix.smul_mul, add_comm]
  rw [add_comm, add_mul_mul_inv_eq_sub _ _ _ _ hA ((isUnit_iff_isUnit_det _).2 hG)
    (by rw [hu]; exact (isUnit_iff_isUnit_det _).2 hC), hu, hi]
  congr 1
  rw [Matrix.smul_mul, Matrix.one_mul, Matrix.mul_smul, Matrix.mul_one, Matrix.mul_smul]

theorem vdet_eq {Z : Matrix (Fin n) ι ℝ} {G : Matrix ι ι ℝ} {s2 : ℝ} (hs : s2 ≠ 0) (hG : IsUnit G.det) :
    (Z * G * Zᵀ + s2 • (1 : Mat n n)).det = s2 ^ n * G.det * ((1 / s2) • (Zᵀ * Z) + G⁻¹).det := by
  have hi : (s2 • (1 : Mat n n))⁻¹ = (1 / s2) • 1 := by
    refine inv_eq_right_inv ?_
    rw [smul_mul_smul_comm, Matrix.one_mul, mul_one_div_cancel hs, one_smul]
  have hA : IsUnit (s2 • (1 : Mat n n)).det := by
    rw [det_smul, det_one, mul_one]
    exact (pow_ne_zero _ hs).isUnit
  rw [add_comm, Matrix.mul_assoc, det_add_mul _ _ hA, det_smul, det_one, mul_one, Fintype.card_fin, mul_assoc, ← det_mul, hi]
  have h1 : (1 + G * Zᵀ * ((1 / s2) • (1 : Mat n n)) * Z) = G * ((1 / s2) • (Zᵀ * Z) + G⁻¹) := by
    rw [Matrix.mul_add, mul_nonsing_inv _ hG, Matrix.mul_smul, Matrix.mul_one, Matrix.smul_mul, Matrix.mul_smul,
      Matrix.mul_assoc, add_comm]
  rw [h1]

end woodbury

theorem tri_comm {r : ℕ} (a b : Fin r) : tri a b = tri b a := by
  unfold tri
  rcases lt_trichotomy a b with h | h | h
  · rw [dif_neg (not_le.2 h), dif_pos h.le]
  · subst h; rfl
  · rw [dif_pos h.le, dif_neg (not_le.2 h)]

theorem invech_symm {r : ℕ} (th : Tri r → ℝ) : (invech th)ᵀ = invech th := by
  ext a b
  simp only [transpose_apply, invech, of_apply, tri_comm b a]

theorem gcov_symm (hT : T.Pd) (th : T.Par → ℝ) : (T.gcov th)ᵀ = T.gcov th := by
  unfold Terms.gcov
  rw [blockDiagonal'_transpose]
  congr 1
  funext k
  have := (A_posDef hT k).isHermitian
  rw [IsHermitian, conjTranspose_eq_transpose_of_trivial] at this
  conv_rhs => rw [← this, ← invech_symm]
  rw [kroneckerMap_transpose]

theorem vcov_symm (hT : T.Pd) (m : Mme T n p) (th : T.Par → ℝ) (s2 : ℝ) : (vcov m th s2)ᵀ = vcov m th s2 := by
  unfold vcov
  simp only [transpose_add, transpose_mul, transpose_transpose, transpose_smul, transpose_one, gcov_symm hT, Matrix.mul_assoc]

theorem Xy_X (m : Mme T n p) : m.Xy.submatrix id Fin.castSucc = m.X := by
  ext i j
  simp [Mme.Xy]

theorem Xy_y (m : Mme T n p) (i : Fin n) : m.Xy i (Fin.last p) = m.y i := by
  simp [Mme.Xy]

theorem Xy_mul {k : Type} (m : Mme T n p) (M : Matrix k (Fin n) ℝ) : (M * m.Xy).submatrix id Fin.castSucc = M * m.X := by
  rw [← Xy_X m]
  ext i j
  simp [mul_apply]

theorem Xy_mulVec {k : Type} (m : Mme T n p) (M : Matrix k (Fin n) ℝ) (i : k) : (M * m.Xy) i (Fin.last p) = (M *ᵥ m.y) i := by
  simp [mul_apply, mulVec, dotProduct, Xy_y]

theorem Xy_gram (m : Mme T n p) (M : Mat n n) : (m.Xyᵀ * M * m.Xy).submatrix Fin.castSucc Fin.castSucc = m.Xᵀ * M * m.X := by
  rw [← Xy_X m]
  ext i j
  simp [mul_apply]

theorem Xy_gram_y (m : Mme T n p) (M : Mat n n) (i : Fin p) :
    (m.Xyᵀ * M * m.Xy) i.castSucc (Fin.last p) = (m.Xᵀ *ᵥ (M *ᵥ m.y)) i := by
  rw [mulVec_mulVec, Xy_mulVec]
  rw [← Xy_X m]
  simp [mul_apply, mulVec, dotProduct]

theorem Xy_gram_yy (m : Mme T n p) (M : Mat n n) :
    (m.Xyᵀ * M * m.Xy) (Fin.last p) (Fin.last p) = m.y ⬝ᵥ (M *ᵥ m.y) := by
  rw [Xy_mulVec, dotProduct_mulVec]
  simp [mul_apply, mulVec, vecMul, dotProduct, Xy_y]

/-- The last diagonal entry of a Cholesky factor, squared, is the Schur complement. -/
theorem chol_border {W L : Mat (p + 1) (p + 1)} (h : L * Lᵀ = W) (hl : ∀ i j, i < j → L i j = 0) (hd : ∀ i, 0 < L i i) :
    let Wx := W.submatrix Fin.castSucc Fin.castSucc
    let w := fun i : Fin p => W i.castSucc (Fin.last p)
    IsUnit Wx.det ∧ 2 * ∑ i : Fin p, Real.log (L i.castSucc i.castSucc) = Real.log |Wx.det| ∧
      L (Fin.last p) (Fin.last p) ^ 2 = W (Fin.last p) (Fin.last p) - w ⬝ᵥ (Wx⁻¹ *ᵥ w) := by
  intro Wx w
  let Lx := L.submatrix Fin.castSucc Fin.castSucc
  let l := fun i : Fin p => L (Fin.last p) i.castSucc
  have he : ∀ a b, W a b = ∑ k, L a k * L b k := fun a b => by rw [← h]; rfl
  have hz : ∀ i : Fin p, L i.castSucc (Fin.last p) = 0 := fun i => hl _ _ (Fin.castSucc_lt_last i)
  have h1 : Lx * Lxᵀ = Wx := by
    ext a b
    show _ = W _ _
    rw [he, Fin.sum_univ_castSucc, hz, zero_mul, add_zero]
    rfl
  have h2 : w = Lx *ᵥ l := by
    funext a
    show W _ _ = _
    rw [he, Fin.sum_univ_castSucc, hz, zero_mul, add_zero]
    rfl
  have h3 : W (Fin.last p) (Fin.last p) = l ⬝ᵥ l + L (Fin.last p) (Fin.last p) ^ 2 := by
    rw [he, Fin.sum_univ_castSucc, sq]
    rfl
  have hl' : ∀ i j, i < j → Lx i j = 0 := fun i j hij => hl _ _ (Fin.castSucc_lt_castSucc_iff.2 hij)
  have hu : IsUnit Lx.det := unit_chol hl' (fun i => hd _)
  have h1' : Lx * Lxᵀ = Wx.submatrix (Equiv.refl (Fin p)).symm (Equiv.refl (Fin p)).symm := by
    rw [h1]; rfl
  refine ⟨fac_unit (Equiv.refl _) h1' hu, log_sq_diag (Equiv.refl _) h1' hl' (fun i => hd _), ?_⟩
  have h4 : Lxᵀ * Wx⁻¹ * Lx = 1 := by
    rw [← h1, Matrix.mul_inv_rev, Matrix.mul_assoc, Matrix.mul_assoc, nonsing_inv_mul _ hu, Matrix.mul_one]
    exact mul_nonsing_inv _ (by rwa [det_transpose])
  have h5 : w ⬝ᵥ (Wx⁻¹ *ᵥ w) = l ⬝ᵥ l := by
    rw [h2, mulVec_mulVec, dotProduct_mulVec, ← vecMul_transpose, vecMul_vecMul, ← Matrix.mul_assoc, h4, vecMul_one]
  rw [h5, h3]
  ring

/-- The matrix factored by `L22`. -/
theorem schur_eq {e : T.RE ≃ Fin q} {L : Mat q q} {m : Mme T n p} {th : T.Par → ℝ} {s2 : ℝ} (hs : s2 ≠ 0)
    (hG : IsUnit (T.gcov th).det) (h : L * Lᵀ = (m.ZtRZ s2 + (T.gcov th)⁻¹).submatrix e.symm e.symm) (hL : IsUnit L.det) :
    m.XytRXy s2 - (facSolve e L (m.ZtRXy s2))ᵀ * facSolve e L (m.ZtRXy s2) = m.Xyᵀ * (vcov m th s2)⁻¹ * m.Xy := by
  have hC := fac_unit e h hL
  have := facS_gram e h hL (m.ZtRXy s2) (m.ZtRXy s2)
  rw [show facSolve e L (m.ZtRXy s2) = facS e L (m.ZtRXy s2) from rfl, this]
  unfold vcov
  rw [vinv_eq hs hG hC]
  simp only [Mme.XytRXy, Mme.ZtRXy, Mme.ZtRZ, Matrix.mul_sub, Matrix.sub_mul, Matrix.mul_smul, Matrix.smul_mul,
    transpose_smul, transpose_mul, transpose_transpose, Matrix.mul_one, Matrix.mul_assoc]

theorem y_pmat {X : Mat n p} {y : Fin n → ℝ} {V : Mat n n} (hV : Vᵀ = V) :
    y ⬝ᵥ (pmat X V *ᵥ y) = y ⬝ᵥ (V⁻¹ *ᵥ y) - (Xᵀ *ᵥ (V⁻¹ *ᵥ y)) ⬝ᵥ ((xvx X V)⁻¹ *ᵥ (Xᵀ *ᵥ (V⁻¹ *ᵥ y))) := by
  have hV' : (V⁻¹)ᵀ = V⁻¹ := by rw [transpose_nonsing_inv, hV]
  unfold pmat
  rw [sub_mulVec, dotProduct_sub]
  congr 1
  simp only [← mulVec_mulVec]
  rw [dotProduct_mulVec, ← mulVec_transpose, hV', dotProduct_mulVec, ← mulVec_transpose]

/-- `_loglike` is minus twice the (restricted) log likelihood of the marginal model. -/
theorem C109_loglike (hT : T.Pd) {cq : Mat q q → Option (Mat q q)} (hq : CholOk cq)
    {cp : Mat (p + 1) (p + 1) → Option (Mat (p + 1) (p + 1))} (hp : CholOk cp) {e : T.RE ≃ Fin q} {m : Mme T n p}
    {reml : Bool} {th : T.Par → ℝ} {s2 v : ℝ} (hs : s2 ≠ 0) (h : loglike cq cp e m reml th s2 = some v) :
    v = devi reml m.X m.y (vcov m th s2) := by
  unfold loglike cholDiag at h
  cases hg : T.ginv? th with
  | none => simp [hg] at h
  | some Gi =>
  obtain ⟨h1, h2, h3⟩ := ginv_some hT hg
  subst h1
  cases hl : cq ((m.ZtRZ s2 + (T.gcov th)⁻¹).submatrix e.symm e.symm) with
  | none => simp [hg, hl] at h
  | some L =>
  obtain ⟨l1, l2, l3⟩ := hq.ok _ _ hl
  have hL := unit_chol l2 l3
  cases hl2 : cp (m.XytRXy s2 - (facSolve e L (m.ZtRXy s2))ᵀ * (facSolve e L (m.ZtRXy s2))ᵀᵀ) with
  | none => simp only [hg, hl, hl2, Option.bind_eq_bind, Option.bind_some, Option.bind_none, reduceCtorEq] at h
  | some L22 =>
  obtain ⟨k1, k2, k3⟩ := hp.ok _ _ hl2
  simp only [hg, hl, hl2, Option.bind_eq_bind, Option.bind_some] at h
  rw [transpose_transpose, schur_eq hs h2 l1 hL] at k1
  obtain ⟨-, b2, b3⟩ := chol_border k1 k2 k3
  simp only [Xy_gram, Xy_gram_y, Xy_gram_yy] at b2 b3
  have hC := fac_unit e l1 hL
  have hdet : Real.log |(vcov m th s2).det| = n * Real.log |s2| + 2 * ∑ i, Real.log (L i i) + T.lndetG th := by
    unfold vcov
    rw [vdet_eq hs h2, show (1 / s2) • (m.Zᵀ * m.Z) = m.ZtRZ s2 from rfl, abs_mul, abs_mul, abs_pow, Real.log_mul (mul_ne_zero (pow_ne_zero _ (abs_ne_zero.2 hs))
      (abs_ne_zero.2 h2.ne_zero)) (abs_ne_zero.2 hC.ne_zero), Real.log_mul (pow_ne_zero _ (abs_ne_zero.2 hs))
      (abs_ne_zero.2 h2.ne_zero), Real.log_pow, h3, log_sq_diag e l1 l2 l3]
    ring
  unfold devi
  rw [hdet, y_pmat (vcov_symm hT m th s2)]
  have b3' : L22 (Fin.last p) (Fin.last p) ^ 2 = _ := b3
  cases reml with
  | true =>
    have h := Option.some.inj h
    rw [← h, b3', b2]
    simp only [if_true, xvx]
    ring
  | false =>
    have h := Option.some.inj h
    rw [← h, b3']
    simp only [Bool.false_eq_true, if_false, xvx]
    ring

theorem posDef_block {K : ℕ} {m : Fin K → Type} [∀ k, Fintype (m k)] [∀ k, DecidableEq (m k)]
    {M : ∀ k, Matrix (m k) (m k) ℝ} (h : ∀ k, (M k).PosDef) : (blockDiagonal' M).PosDef := by
  refine PosDef.of_dotProduct_mulVec_pos ?_ fun x hx => ?_
  · rw [IsHermitian, blockDiagonal'_conjTranspose]
    congr 1
    funext k
    exact (h k).isHermitian
  · have he : star x ⬝ᵥ (blockDiagonal' M *ᵥ x) = ∑ k, (star fun i => x ⟨k, i⟩) ⬝ᵥ (M k *ᵥ fun i => x ⟨k, i⟩) := by
      simp only [dotProduct, mulVec, Fintype.sum_sigma]
      refine Finset.sum_congr rfl fun k _ => Finset.sum_congr rfl fun i _ => ?_
      congr 1
      rw [Finset.sum_eq_single k]
      · simp
      · intro b _ hb
        refine Finset.sum_eq_zero fun j _ => ?_
        rw [blockDiagonal'_apply_ne _ _ _ hb.symm, zero_mul]
      · simp
    rw [he]
    obtain ⟨⟨k, i⟩, hki⟩ := Function.ne_iff.1 hx
    refine Finset.sum_pos' (fun k _ => (h k).posSemidef.dotProduct_mulVec_nonneg _) ⟨k, Finset.mem_univ _, ?_⟩
    exact (h k).dotProduct_mulVec_pos fun h0 => hki (congrFun h0 i)

theorem gcov_posDef (hT : T.Pd) {th : T.Par → ℝ} (h : ∀ k, (invech (Terms.sl th k)).PosDef) : (T.gcov th).PosDef :=
  posDef_block fun k => (A_posDef hT k).kronecker (h k)

theorem vcov_posDef (hT : T.Pd) {m : Mme T n p} {th : T.Par → ℝ} {s2 : ℝ} (hs : 0 < s2)
    (h : ∀ k, (invech (Terms.sl th k)).PosDef) : (vcov m th s2).PosDef := by
  unfold vcov
  refine PosDef.posSemidef_add ?_ (PosDef.one.smul hs)
  have := (gcov_posDef hT h).posSemidef.mul_mul_conjTranspose_same m.Z
  rwa [conjTranspose_eq_transpose_of_trivial] at this

theorem cmat_posDef (hT : T.Pd) {m : Mme T n p} {th : T.Par → ℝ} {s2 : ℝ} (hs : 0 < s2)
    (h : ∀ k, (invech (Terms.sl th k)).PosDef) : (m.ZtRZ s2 + (T.gcov th)⁻¹).PosDef := by
  refine PosDef.posSemidef_add ?_ (gcov_posDef hT h).inv
  have := (posSemidef_conjTranspose_mul_self m.Z).smul (one_div_pos.2 hs).le
  rwa [conjTranspose_eq_transpose_of_trivial] at this

/-- The likelihood is defined for positive definite covariances when the columns of the design and the response are linearly
independent and no inverse level covariance changes its pattern. -/
theorem C109_defined (hT : T.Pd) {cq : Mat q q → Option (Mat q q)} (hq : CholOk cq)
    {cp : Mat (p + 1) (p + 1) → Option (Mat (p + 1) (p + 1))} (hp : CholOk cp) (e : T.RE ≃ Fin q) {m : Mme T n p}
    (reml : Bool) {th : T.Par → ℝ} {s2 : ℝ} (hs : 0 < s2) (hth : ∀ k, (invech (Terms.sl th k)).PosDef)
    (hpat : ∀ k, ∀ B, T.acov k = some B → ∀ i j, B⁻¹ i j = 0 ↔ B i j = 0) (hX : Function.Injective m.Xy.mulVec) :
    loglike cq cp e m reml th s2 = some (devi reml m.X m.y (vcov m th s2)) := by
  obtain ⟨Gi, hg⟩ := ginv_defined (T := T) (th := th) (fun k => (hth k).det_pos.ne'.isUnit) hpat
  obtain ⟨h1, h2, h3⟩ := ginv_some hT hg
  subst h1
  obtain ⟨L, hl⟩ := hq.total ((m.ZtRZ s2 + (T.gcov th)⁻¹).submatrix e.symm e.symm) ((cmat_posDef hT hs hth).submatrix e.symm.injective)
  obtain ⟨l1, l2, l3⟩ := hq.ok _ _ hl
  have hL := unit_chol l2 l3
  have hw : (m.XytRXy s2 - (facSolve e L (m.ZtRXy s2))ᵀ * (facSolve e L (m.ZtRXy s2))ᵀᵀ).PosDef := by
    rw [transpose_transpose, schur_eq hs.ne' h2 l1 hL]
    have := (vcov_posDef (m := m) hT hs hth).inv.conjTranspose_mul_mul_same hX
    rwa [conjTranspose_eq_transpose_of_trivial] at this
  obtain ⟨L22, hl2⟩ := hp.total _ hw
  have hex : ∃ v, loglike cq cp e m reml th s2 = some v := by
    unfold loglike cholDiag
    simp only [hg, hl, hl2, Option.bind_eq_bind, Option.bind_some]
    cases reml <;> exact ⟨_, rfl⟩
  obtain ⟨v, hv⟩ := hex
  rw [hv, C109_loglike hT hq hp hs.ne' hv]

/-- The likelihood does not depend on the order in which the random effects are eliminated. -/
theorem C109_ordering {q' : ℕ} (hT : T.Pd) {cq : Mat q q → Option (Mat q q)} (hq : CholOk cq)
    {cq' : Mat q' q' → Option (Mat q' q')} (hq' : CholOk cq')
    {cp : Mat (p + 1) (p + 1) → Option (Mat (p + 1) (p + 1))} (hp : CholOk cp) (e : T.RE ≃ Fin q) (e' : T.RE ≃ Fin q')
    {m : Mme T n p} (reml : Bool) {th : T.Par → ℝ} {s2 v v' : ℝ} (hs : s2 ≠ 0) (h : loglike cq cp e m reml th s2 = some v)
    (h' : loglike cq' cp e' m reml th s2 = some v') : v = v' :=
  (C109_loglike hT hq hp hs h).trans (C109_loglike hT hq' hp hs h').symm

/-- Two groups of one observation each, correlated by a level covariance. -/
noncomputable def exT (a : Option (Mat 2 2)) : Terms := ⟨1, fun _ => 2, fun _ => 1, fun _ => a⟩

theorem exB_posDef : (!![2, 1; 1, 2] : Mat 2 2).PosDef := by
  refine PosDef.of_dotProduct_mulVec_pos ?_ fun x hx => ?_
  · ext i j; fin_cases i <;> fin_cases j <;> simp
  · have h : star x ⬝ᵥ ((!![2, 1; 1, 2] : Mat 2 2) *ᵥ x) = (x 0 + x 1) ^ 2 + x 0 ^ 2 + x 1 ^ 2 := by
      simp [dotProduct, mulVec, Fin.sum_univ_two]; ring
    rw [h]
    by_contra hn
    have h0 : x 0 = 0 := by nlinarith [sq_nonneg (x 0 + x 1), sq_nonneg (x 0), sq_nonneg (x 1)]
    have h1 : x 1 = 0 := by nlinarith [sq_nonneg (x 0 + x 1), sq_nonneg (x 0), sq_nonneg (x 1)]
    exact hx (funext fun i => by fin_cases i <;> simp [h0, h1])

theorem exB_inv : ∀ i j, (!![2, 1; 1, 2] : Mat 2 2)⁻¹ i j = 0 ↔ (!![2, 1; 1, 2] : Mat 2 2) i j = 0 := by
  rw [Matrix.inv_def]
  intro i j
  fin_cases i <;> fin_cases j <;> norm_num [Ring.inverse_eq_inv, det_fin_two, adjugate_fin_two]

example {cq : Mat 2 2 → Option (Mat 2 2)} (hq : CholOk cq) {cp : Mat 2 2 → Option (Mat 2 2)} (hp : CholOk cp)
    (e : (exT (some !![2, 1; 1, 2])).RE ≃ Fin 2) :
    ∃ (m : Mme (exT (some !![2, 1; 1, 2])) 2 1) (v : ℝ), loglike cq cp e m true (fun _ => 1) 1 = some v := by
  have hT : (exT (some !![2, 1; 1, 2])).Pd := fun k B h => by
    have : (!![2, 1; 1, 2] : Mat 2 2) = B := Option.some.inj h
    exact this ▸ exB_posDef
  refine ⟨⟨of fun _ _ => 1, ![1, 0], of fun i l => if i.1 = l.2.1.1 then 1 else 0⟩, _,
    C109_defined hT hq hp e true one_pos (fun k => ?_) (fun k B h => ?_) (fun u v huv => ?_)⟩
  · have : invech (Terms.sl (T := exT (some !![2, 1; 1, 2])) (fun _ => 1) k) = (1 : Mat 1 1) := by
      ext i j; fin_cases i; fin_cases j; rfl
    rw [this]; exact PosDef.one
  · have : (!![2, 1; 1, 2] : Mat 2 2) = B := Option.some.inj h
    subst this
    exact exB_inv
  · have h0 := congrFun huv 0
    have h1 := congrFun huv 1
    simp [mulVec, dotProduct, Mme.Xy, Fin.sum_univ_two, Fin.snoc] at h0 h1
    funext i
    fin_cases i
    · exact h1
    · simp at *; linarith

end Verif.Lmm
