import Verif.Lmm.LmInfer
import Verif.Lmm.LmEffProps
import Verif.Lmm.LmGradProps
import Verif.Lmm.InferProps
/-!
# C148: inference of class `LMM`
-/
namespace Verif.Lmm.Lm
open Matrix Verif.Fa Verif.Like Verif.Calc
variable {T : Terms} {n p q r : ℕ}

/-! ## derivatives of the covariance of the fixed effects -/

section jac
variable {m : Mme T n p} {cq : Mat q q → Option (Mat q q)} {e : T.RE ≃ Fin q}

theorem jacC_eq (hT : T.Pd) (hq : CholOk cq) {C D : Mat p p} {th : T.Par → ℝ} {s2 : ℝ} (hs : s2 ≠ 0) (hC : Cᵀ = C) {j : T.Par}
    (h : jacC cq e m C th s2 j = some D) :
    D = C * m.Xᵀ * (vcov m th s2)⁻¹ * dV m j * (vcov m th s2)⁻¹ * m.X * C := by
  unfold jacC at h
  cases hv : vinvcross cq e m m.X (m.Z.submatrix id fun x : Fin (T.nlv j.1) × Fin (T.nrv j.1) => (⟨j.1, x⟩ : T.RE)) th s2 with
  | none => simp [hv] at h
  | some A =>
  have hA := C146_vinvcrossprod hT hq hs hv
  simp only [hv, Option.bind_eq_bind, Option.bind_some] at h
  have h := Option.some.inj h
  rw [← h, hA, dV_eq, zb]
  simp only [transpose_mul, transpose_transpose, vinv_symm (vcov_symm hT m _ _), hC, Matrix.mul_assoc]

theorem jacR_eq (hT : T.Pd) (hq : CholOk cq) {C D : Mat p p} {th : T.Par → ℝ} {s2 : ℝ} (hs : s2 ≠ 0) (hC : Cᵀ = C)
    (h : jacR cq e m C th s2 = some D) :
    D = C * m.Xᵀ * (vcov m th s2)⁻¹ * (vcov m th s2)⁻¹ * m.X * C := by
  unfold jacR at h
  cases hv : vinvcross cq e m m.X (1 : Mat n n) th s2 with
  | none => simp [hv] at h
  | some A =>
  have hA := C146_vinvcrossprod hT hq hs hv
  simp only [hv, Option.bind_eq_bind, Option.bind_some] at h
  have h := Option.some.inj h
  rw [← h, hA]
  simp only [transpose_mul, transpose_transpose, transpose_one, Matrix.mul_one, Matrix.one_mul, vinv_symm (vcov_symm hT m _ _), hC,
    Matrix.mul_assoc]

/-- `J` holds the derivatives of the covariance matrix of the fixed effects. -/
theorem C148_jacobian (hT : T.Pd) (hq : CholOk cq) {th : ℝ → T.Par → ℝ} {th' : T.Par → ℝ} {s2 : ℝ → ℝ} {s2' : ℝ}
    (h : ∀ j, HasDerivAt (fun t => th t j) (th' j) 0) (hs : HasDerivAt s2 s2' 0) (h0 : s2 0 ≠ 0)
    (hV : IsUnit (vcov m (th 0) (s2 0)).det) (hx : IsUnit (xvx m.X (vcov m (th 0) (s2 0))).det) {J : T.Par → Mat p p} {JR : Mat p p}
    (hJ : ∀ j, jacC cq e m (xvx m.X (vcov m (th 0) (s2 0)))⁻¹ (th 0) (s2 0) j = some (J j))
    (hR : jacR cq e m (xvx m.X (vcov m (th 0) (s2 0)))⁻¹ (th 0) (s2 0) = some JR) :
    MD (fun t => (xvx m.X (vcov m (th t) (s2 t)))⁻¹) (∑ j, th' j • J j + s2' • JR) := by
  have hsy := xvxi_symm (X := m.X) (vcov_symm hT m (th 0) (s2 0))
  refine ((md_xvx (X := m.X) (vcov_md (m := m) h hs) hV).inv hx).congr ?_
  rw [vdir, jacR_eq hT hq h0 hsy hR]
  simp only [fun j => jacC_eq hT hq h0 hsy (hJ j)]
  simp only [Matrix.mul_neg, Matrix.neg_mul, neg_neg, Matrix.mul_add, Matrix.add_mul, Matrix.mul_sum, Matrix.sum_mul, Matrix.mul_smul,
    Matrix.smul_mul, Matrix.mul_one, Matrix.mul_assoc]

/-- They are defined where the likelihood is. -/
theorem C148_jacobian_defined (hT : T.Pd) (hI : ∀ k, T.acov k = none) (hq : CholOk cq) (e : T.RE ≃ Fin q) {th : T.Par → ℝ} {s2 : ℝ}
    (hs : 0 < s2) (hth : ∀ k, (invech (Terms.sl th k)).PosDef) (C : Mat p p) :
    (∀ j, ∃ D, jacC cq e m C th s2 j = some D) ∧ ∃ D, jacR cq e m C th s2 = some D := by
  have key : ∀ {b : Type} [Fintype b] (B : Matrix (Fin n) b ℝ), ∃ D, vinvcross cq e m m.X B th s2 = some D := by
    intro b _ B
    obtain ⟨Gi, hg⟩ := ginv_defined (T := T) (th := th) (fun k => (hth k).det_pos.ne'.isUnit)
      (fun k B hB => by rw [hI k] at hB; simp at hB)
    obtain ⟨h1, -, -⟩ := ginv_some hT hg
    subst h1
    have hRZ : ((1 / s2) • (1 : Mat n n)) * m.Z = (1 / s2) • m.Z := by rw [Matrix.smul_mul, Matrix.one_mul]
    have hQ : (T.gcov th)⁻¹ + m.Zᵀ * ((1 / s2) • m.Z) = cmat m th s2 := by
      rw [add_comm, Matrix.mul_smul]; rfl
    obtain ⟨L, hL⟩ := hq.total ((cmat m th s2).submatrix e.symm e.symm) ((cmat_posDef hT hs hth).submatrix e.symm.injective)
    unfold vinvcross
    simp only [hg, hRZ, hQ, hL, Option.bind_eq_bind, Option.bind_some]
    exact ⟨_, rfl⟩
  refine ⟨fun j => ?_, ?_⟩
  · obtain ⟨D, hD⟩ := key (m.Z.submatrix id fun x : Fin (T.nlv j.1) × Fin (T.nrv j.1) => (⟨j.1, x⟩ : T.RE))
    unfold jacC
    rw [hD]
    exact ⟨_, rfl⟩
  · obtain ⟨D, hD⟩ := key (1 : Mat n n)
    unfold jacR
    rw [hD]
    exact ⟨_, rfl⟩

end jac

/-! ## degrees of freedom -/

section df
variable {ι : Type} [Fintype ι]

theorem degf_some {L : Mat r p} {beta : Fin p → ℝ} {J : ι → Mat p p} {V : Matrix ι ι ℝ} {u : Fin r → ℝ} {Q : Mat r r} {f nu : ℝ} {k : ℕ}
    (h : degf L beta J V u Q = some (f, k, nu)) :
    L.rank = r ∧ k = r ∧ (∀ i, u i ≠ 0) ∧ (∀ i, nuD (Qᵀ * L) J V i ≠ 0) ∧ f = (∑ i, ((Qᵀ * L) i ⬝ᵥ beta) ^ 2 / u i) / r ∧
      nuE r (fun i => u i ^ 2 / nuD (Qᵀ * L) J V i) = some nu := by
  unfold degf at h
  dsimp only at h
  split at h
  · simp at h
  · next hc =>
    push Not at hc
    obtain ⟨hr, hc⟩ := hc
    rw [hr] at h
    cases hE : nuE r (fun i => u i ^ 2 / nuD (Qᵀ * L) J V i) with
    | none => rw [hE] at h; simp at h
    | some nu' =>
      rw [hE] at h
      simp only [Option.map_some, Option.some.injEq, Prod.mk.injEq] at h
      exact ⟨hr, h.2.1.symm, fun i => (hc i).1, fun i => (hc i).2, h.1.symm, congrArg some h.2.2⟩

/-- The statistic is the Wald statistic of the hypothesis over the number of rows. -/
theorem C148_wald {L : Mat r p} {beta : Fin p → ℝ} (C : Mat p p) {J : ι → Mat p p} {V : Matrix ι ι ℝ} {u : Fin r → ℝ} {Q : Mat r r}
    {f nu : ℝ} {k : ℕ} (hQ : Qᵀ * Q = 1) (he : L * C * Lᵀ = Q * diagonal u * Qᵀ) (h : degf L beta J V u Q = some (f, k, nu)) :
    f = ((L *ᵥ beta) ⬝ᵥ ((L * C * Lᵀ)⁻¹ *ᵥ (L *ᵥ beta))) / r ∧ k = r := by
  obtain ⟨hr, hk, hu, -, hf, -⟩ := degf_some h
  refine ⟨?_, hk⟩
  have hinv : (L * C * Lᵀ)⁻¹ = Q * diagonal (fun i => (u i)⁻¹) * Qᵀ := by
    rw [he]
    refine inv_eq_right_inv ?_
    calc Q * diagonal u * Qᵀ * (Q * diagonal (fun i => (u i)⁻¹) * Qᵀ)
        = Q * diagonal u * (Qᵀ * Q) * diagonal (fun i => (u i)⁻¹) * Qᵀ := by simp only [Matrix.mul_assoc]
      _ = 1 := by
        rw [hQ, Matrix.mul_one, Matrix.mul_assoc Q, diagonal_mul_diagonal]
        have : (fun i => u i * (u i)⁻¹) = fun _ => (1 : ℝ) := by
          funext i
          exact mul_inv_cancel₀ (hu i)
        rw [this, diagonal_one, Matrix.mul_one]
        exact mul_eq_one_comm.1 hQ
  rw [hf, hinv]
  congr 1
  have hP : ∀ i, (Qᵀ * L) i ⬝ᵥ beta = (Qᵀ *ᵥ (L *ᵥ beta)) i := fun i => by rw [mulVec_mulVec]; rfl
  simp only [hP]
  generalize L *ᵥ beta = w
  rw [← mulVec_mulVec, ← mulVec_mulVec, dotProduct_mulVec, ← mulVec_transpose]
  simp only [dotProduct, mulVec_diagonal]
  exact Finset.sum_congr rfl fun i _ => by rw [div_eq_mul_inv]; ring

/-- The degrees of freedom are those of the F distribution whose mean, times the number of rows, is the sum of the means of the
squared t variables of the rows, provided all rows have more than two degrees of freedom. -/
theorem C148_df_mean_partial {L : Mat r p} {beta : Fin p → ℝ} {J : ι → Mat p p} {V : Matrix ι ι ℝ} {u : Fin r → ℝ} {Q : Mat r r}
    {f nu : ℝ} {k : ℕ} (hr : 0 < r) (h : degf L beta J V u Q = some (f, k, nu)) (h2 : ∀ i, 2 < u i ^ 2 / nuD (Qᵀ * L) J V i) :
    2 < nu ∧ r * (nu / (nu - 2)) = ∑ i, u i ^ 2 / nuD (Qᵀ * L) J V i / (u i ^ 2 / nuD (Qᵀ * L) J V i - 2) := by
  obtain ⟨-, -, -, -, -, hE⟩ := degf_some h
  unfold nuE at hE
  simp only [gt_iff_lt, h2, if_true] at hE
  generalize hx : (fun i => u i ^ 2 / nuD (Qᵀ * L) J V i) = x at *
  have hx' : ∀ i, u i ^ 2 / nuD (Qᵀ * L) J V i = x i := fun i => congrFun hx i
  simp only [hx'] at hE h2 ⊢
  have hq : (0 : ℝ) < r := by exact_mod_cast hr
  have hlt : (r : ℝ) < ∑ i, x i / (x i - 2) := by
    have : ∑ _i : Fin r, (1 : ℝ) < ∑ i, x i / (x i - 2) := by
      refine Finset.sum_lt_sum_of_nonempty ⟨⟨0, hr⟩, Finset.mem_univ _⟩ fun i _ => ?_
      rw [lt_div_iff₀ (by linarith [h2 i])]
      linarith
    simpa using this
  generalize ∑ i, x i / (x i - 2) = E at hE hlt ⊢
  have hd : 0 < E - r := by linarith
  rw [if_neg hd.ne'] at hE
  have hE := Option.some.inj hE
  have h3 : nu - 2 = 2 * r / (E - r) := by rw [← hE]; field_simp; ring
  refine ⟨?_, ?_⟩
  · have : 0 < nu - 2 := by rw [h3]; positivity
    linarith
  · rw [h3, ← hE]
    field_simp

theorem half_inv [DecidableEq ι] {H : Matrix ι ι ℝ} (hH : IsUnit H.det) : ((1 / 2 : ℝ) • H)⁻¹ = (2 : ℝ) • H⁻¹ := by
  refine inv_eq_right_inv ?_
  rw [smul_mul_smul_comm, mul_nonsing_inv _ hH]
  norm_num

theorem nuD_one [DecidableEq ι] {L : Mat 1 p} {J : ι → Mat p p} {H : Matrix ι ι ℝ}
    (hH : IsUnit H.det) {Q : Mat 1 1} (hQ : Q 0 0 ^ 2 = 1) {var : ℝ}
    (hv : var = (fun j => (J j *ᵥ L 0) ⬝ᵥ L 0) ⬝ᵥ (((1 / 2 : ℝ) • H)⁻¹ *ᵥ fun j => (J j *ᵥ L 0) ⬝ᵥ L 0)) :
    nuD (Qᵀ * L) J H⁻¹ 0 = var / 2 := by
  have hP : (Qᵀ * L) 0 = Q 0 0 • L 0 := by
    funext j
    simp [Matrix.mul_apply]
  have hD : ∀ j, (L 0 ᵥ* J j) ⬝ᵥ L 0 = (J j *ᵥ L 0) ⬝ᵥ L 0 := fun j => by rw [← dotProduct_mulVec, dotProduct_comm]
  unfold nuD
  simp only [hP, smul_vecMul, smul_dotProduct, dotProduct_smul, smul_eq_mul, ← mul_assoc, ← sq, hQ, one_mul, hD]
  rw [hv, half_inv hH, smul_mulVec, dotProduct_smul, ← dotProduct_mulVec, smul_eq_mul]
  ring

/-- One contrast: `H` is the Hessian of minus twice the log likelihood, so that the estimates have covariance `(H/2)⁻¹`; the degrees of
freedom are Satterthwaite's when these exceed two. -/
theorem C148_satterthwaite_partial [DecidableEq ι] {L : Mat 1 p} {beta : Fin p → ℝ} {C : Mat p p} {J : ι → Mat p p} {H : Matrix ι ι ℝ}
    (hH : IsUnit H.det) {Q : Mat 1 1} (hQ : Q 0 0 ^ 2 = 1) (hL : L.rank = 1) {var : ℝ}
    (hv : var = (fun j => (J j *ᵥ L 0) ⬝ᵥ L 0) ⬝ᵥ (((1 / 2 : ℝ) • H)⁻¹ *ᵥ fun j => (J j *ᵥ L 0) ⬝ᵥ L 0)) (h0 : var ≠ 0)
    (h2 : 2 < satt ((L * C * Lᵀ) 0 0) var) :
    ∃ f, degf L beta J H⁻¹ (fun _ => (L * C * Lᵀ) 0 0) Q = some (f, 1, satt ((L * C * Lᵀ) 0 0) var) := by
  have hn := nuD_one hH hQ hv
  have hu : (L * C * Lᵀ) 0 0 ≠ 0 := fun h => by rw [h] at h2; norm_num [satt] at h2
  generalize (L * C * Lᵀ) 0 0 = u at *
  have hnum : u ^ 2 / (var / 2) = satt u var := by unfold satt; field_simp
  unfold degf
  dsimp only
  rw [if_neg (by
    push Not
    refine ⟨hL, fun i => ⟨hu, ?_⟩⟩
    rw [Subsingleton.elim i 0, hn]
    exact div_ne_zero h0 two_ne_zero), hL]
  have hE : nuE 1 (fun i => u ^ 2 / nuD (Qᵀ * L) J H⁻¹ i) = some (satt u var) := by
    unfold nuE
    simp only [Fin.sum_univ_one, hn, hnum, gt_iff_lt, h2, if_true]
    generalize satt u var = s at h2 ⊢
    have hd : 0 < s - 2 := by linarith
    have hs1 : s / (s - 2) - 1 = 2 / (s - 2) := by field_simp; ring
    rw [Nat.cast_one, hs1, if_neg (by positivity)]
    congr 1
    field_simp
  rw [hE]
  exact ⟨_, rfl⟩

/-- Otherwise the degrees of freedom are zero. -/
theorem C148_satterthwaite_violated [DecidableEq ι] {L : Mat 1 p} {beta : Fin p → ℝ} {C : Mat p p} {J : ι → Mat p p} {H : Matrix ι ι ℝ}
    (hH : IsUnit H.det) {Q : Mat 1 1} (hQ : Q 0 0 ^ 2 = 1) (hL : L.rank = 1) {var : ℝ}
    (hv : var = (fun j => (J j *ᵥ L 0) ⬝ᵥ L 0) ⬝ᵥ (((1 / 2 : ℝ) • H)⁻¹ *ᵥ fun j => (J j *ᵥ L 0) ⬝ᵥ L 0))
    (h1 : 0 < satt ((L * C * Lᵀ) 0 0) var) (h2 : satt ((L * C * Lᵀ) 0 0) var ≤ 2) :
    ∃ f, degf L beta J H⁻¹ (fun _ => (L * C * Lᵀ) 0 0) Q = some (f, 1, 0) := by
  have hn := nuD_one hH hQ hv
  have hu : (L * C * Lᵀ) 0 0 ≠ 0 := fun h => by rw [h] at h1; norm_num [satt] at h1
  have h0 : var ≠ 0 := fun h => by rw [h] at h1; norm_num [satt] at h1
  generalize (L * C * Lᵀ) 0 0 = u at *
  have hnum : u ^ 2 / (var / 2) = satt u var := by unfold satt; field_simp
  unfold degf
  dsimp only
  rw [if_neg (by
    push Not
    refine ⟨hL, fun i => ⟨hu, ?_⟩⟩
    rw [Subsingleton.elim i 0, hn]
    exact div_ne_zero h0 two_ne_zero), hL]
  have hE : nuE 1 (fun i => u ^ 2 / nuD (Qᵀ * L) J H⁻¹ i) = some 0 := by
    unfold nuE
    simp only [Fin.sum_univ_one, hn, hnum, gt_iff_lt, not_lt.2 h2, if_false]
    norm_num
  rw [hE]
  exact ⟨_, rfl⟩

/-- The mean of `n` observations: the restricted deviance in the residual variance has its minimum at the sample variance, and the reported
degrees of freedom are those of the t test for four or more observations and zero for two or three. -/
theorem C148_one_sample (n : ℕ) (hn : 2 ≤ n) {ss s2 : ℝ} (hss : 0 < ss) (hs2 : s2 = ss / (n - 1)) (beta : Fin 1 → ℝ) :
    let dev := fun t : ℝ => (n - 1) * Real.log t + ss / t
    ∃ dev' : ℝ → ℝ, ∃ H : ℝ, (∀ t, 0 < t → HasDerivAt dev (dev' t) t) ∧ dev' s2 = 0 ∧ HasDerivAt dev' H s2 ∧
      ∃ f, degf (1 : Mat 1 1) beta (fun _ : Unit => of fun _ _ => (1 / n : ℝ)) (of fun _ _ : Unit => H)⁻¹
        (fun _ => s2 / n) (1 : Mat 1 1) = some (f, 1, if 4 ≤ n then (n : ℝ) - 1 else 0) := by
  intro dev
  have hn' : (2 : ℝ) ≤ n := by exact_mod_cast hn
  have hn1 : (0 : ℝ) < n - 1 := by linarith
  have hp : 0 < s2 := by rw [hs2]; positivity
  refine ⟨fun t => (n - 1) / t - ss / t ^ 2, (n - 1) / s2 ^ 2, ?_, ?_, ?_, ?_⟩
  · intro t h
    refine (((Real.hasDerivAt_log h.ne').const_mul ((n : ℝ) - 1)).add ((hasDerivAt_const t ss).div (hasDerivAt_id t) h.ne')).congr_deriv ?_
    simp only [id, zero_mul, mul_one, zero_sub]
    ring
  · rw [hs2]; field_simp; ring
  · have h1 := ((hasDerivAt_const s2 ((n : ℝ) - 1)).fun_div (hasDerivAt_id s2) hp.ne')
    have h2 := ((hasDerivAt_const s2 ss).fun_div ((hasDerivAt_id s2).fun_pow 2) (pow_ne_zero 2 hp.ne'))
    refine (h1.fun_sub h2).congr_deriv ?_
    simp only [id]
    have hss' : ss = s2 * (n - 1) := by rw [hs2]; field_simp
    rw [hss']
    field_simp
    norm_num
    ring
  · have hH : IsUnit (of fun _ _ : Unit => ((n : ℝ) - 1) / s2 ^ 2).det := by
      rw [det_unique]
      exact (div_pos hn1 (by positivity)).ne'.isUnit
    have hu : (((1 : Mat 1 1) * (of fun _ _ => s2 / n) * (1 : Mat 1 1)ᵀ) : Mat 1 1) 0 0 = s2 / n := by simp
    have hi : (of fun _ _ : Unit => ((n : ℝ) - 1) / s2 ^ 2)⁻¹ = of fun _ _ : Unit => s2 ^ 2 / (n - 1) := by
      refine inv_eq_right_inv ?_
      ext i j
      simp [mul_apply]
      field_simp
    have hv : 2 * s2 ^ 2 / (n ^ 2 * (n - 1)) = (fun _ : Unit => ((of fun _ _ => (1 / n : ℝ)) *ᵥ (1 : Mat 1 1) 0) ⬝ᵥ (1 : Mat 1 1) 0) ⬝ᵥ
        (((1 / 2 : ℝ) • of fun _ _ : Unit => ((n : ℝ) - 1) / s2 ^ 2)⁻¹ *ᵥ
          fun _ : Unit => ((of fun _ _ => (1 / n : ℝ)) *ᵥ (1 : Mat 1 1) 0) ⬝ᵥ (1 : Mat 1 1) 0) := by
      rw [half_inv hH, hi]
      simp [mulVec, dotProduct]
      field_simp
    have hsat : satt (s2 / n) (2 * s2 ^ 2 / (n ^ 2 * (n - 1))) = n - 1 := by
      unfold satt
      field_simp
    by_cases h4 : 4 ≤ n
    · have h4' : (4 : ℝ) ≤ n := by exact_mod_cast h4
      have := C148_satterthwaite_partial (L := 1) (beta := beta) (C := of fun _ _ => s2 / n) (Q := 1) hH (by simp) (by simp) hv
        (by positivity) (by rw [hu, hsat]; linarith)
      rw [hu, hsat] at this
      rw [if_pos h4]
      exact this
    · have h4' : (n : ℝ) ≤ 3 := by exact_mod_cast (by omega : n ≤ 3)
      have := C148_satterthwaite_violated (L := 1) (beta := beta) (C := of fun _ _ => s2 / n) (Q := 1) hH (by simp) (by simp) hv
        (by rw [hu, hsat]; linarith) (by rw [hu, hsat]; linarith)
      rw [hu] at this
      rw [if_neg h4]
      exact this

end df

/-! ## the table of results -/

/-- The statistic of a single coefficient is its squared t statistic, and the table reports its absolute value. -/
theorem C148_t_violated {i : Fin p} {C : Mat p p} {ι : Type} [Fintype ι] {J : ι → Mat p p} {V : Matrix ι ι ℝ} {beta : Fin p → ℝ} {Q : Mat 1 1}
    (hQ : Q 0 0 ^ 2 = 1) {f nu : ℝ} {k : ℕ} (hC : 0 < C i i)
    (h : degf (of fun _ : Fin 1 => Pi.single i 1) beta J V (fun _ => C i i) Q = some (f, k, nu)) (tsf fsf : ℝ → ℝ) :
    f = (beta i / √(C i i)) ^ 2 ∧ (tableRow tsf fsf (beta i) √(C i i) f true).1 = |beta i / √(C i i)| ∧
      (beta i < 0 → (tableRow tsf fsf (beta i) √(C i i) f true).1 ≠ (tableRow tsf fsf (beta i) √(C i i) f false).1) := by
  have hQ1 : Qᵀ * Q = 1 := by
    ext a b
    rw [Subsingleton.elim a 0, Subsingleton.elim b 0]
    simp [mul_apply, ← sq, hQ]
  have he : (of fun _ : Fin 1 => (Pi.single i 1 : Fin p → ℝ)) * C * (of fun _ : Fin 1 => (Pi.single i 1 : Fin p → ℝ))ᵀ =
      Q * diagonal (fun _ => C i i) * Qᵀ := by
    ext a b
    rw [Subsingleton.elim a 0, Subsingleton.elim b 0]
    simp [mul_apply, Pi.single_apply]
    linear_combination (-C i i) * hQ
  have hi : (Q * diagonal (fun _ => C i i) * Qᵀ)⁻¹ = of fun _ _ : Fin 1 => (C i i)⁻¹ := by
    refine inv_eq_right_inv ?_
    ext a b
    rw [Subsingleton.elim a 0, Subsingleton.elim b 0]
    simp [mul_apply]
    field_simp
    exact hQ
  obtain ⟨hf, -⟩ := C148_wald C hQ1 he h
  rw [he, hi] at hf
  have hf' : f = (beta i / √(C i i)) ^ 2 := by
    rw [hf, div_pow, Real.sq_sqrt hC.le]
    simp [mulVec, dotProduct, Pi.single_apply]
    field_simp
  refine ⟨hf', ?_, fun hb => ?_⟩
  · simp only [tableRow, if_true]
    rw [hf', Real.sqrt_sq_eq_abs]
  · have : beta i / √(C i i) < 0 := div_neg_of_neg_of_pos hb (Real.sqrt_pos.2 hC)
    simp only [tableRow, if_true, Bool.false_eq_true, if_false]
    rw [hf', Real.sqrt_sq_eq_abs, abs_of_neg this]
    intro h'
    linarith

/-- The squared t variable has the F distribution: the adjusted value is the two-sided one, the unadjusted is half of it. -/
theorem C148_p_violated {tsf fsf : ℝ → ℝ} (hsym : ∀ x, tsf (-x) = 1 - tsf x) (hf : ∀ x, fsf (x ^ 2) = tsf |x| + (1 - tsf (-|x|)))
    (est se : ℝ) : (tableRow tsf fsf est se ((est / se) ^ 2) true).2 = 2 * (tableRow tsf fsf est se ((est / se) ^ 2) false).2 := by
  simp only [tableRow, if_true, Bool.false_eq_true, if_false]
  rw [hf, hsym]
  ring

/-- Maximum likelihood with the response last in the ordering: `llf` is the log density of the fitted normal distribution at its best fixed
effects. -/
theorem C148_llf_partial {N : ℕ} (hT : T.Pd) {cN : Mat (N + 1) (N + 1) → Option (Mat (N + 1) (N + 1))} (hN : CholOk cN)
    {cq : Mat q q → Option (Mat q q)} (hq : CholOk cq) {e : Ix T p ⊕ Unit ≃ Fin (N + 1)} {e' : T.RE ≃ Fin q}
    (he : e (Sum.inr ()) = Fin.last N) {m : Mme T n p} {th : T.Par → ℝ} {s2 v : ℝ} (hs : 0 < s2)
    (hth : ∀ k, (invech (Terms.sl th k)).PosDef) (hx : IsUnit (xvx m.X (vcov m th s2)).det) {npars : ℕ}
    (h : loglike cN cq e e' m false th s2 = some v) (b : Fin p → ℝ) :
    let V := vcov m th s2
    let logdens := fun b : Fin p → ℝ =>
      -(n * Real.log (2 * Real.pi) + Real.log V.det + (m.y - m.X *ᵥ b) ⬝ᵥ (V⁻¹ *ᵥ (m.y - m.X *ᵥ b))) / 2
    (stats false n p npars v).llf = logdens (gls m.X m.y V) ∧ logdens b ≤ (stats false n p npars v).llf := by
  rw [C144_loglike_partial hT hN hq he hs h]
  exact C113_llf (vcov_posDef hT hs hth) hx b

/-- The standard errors of the covariance parameters of a maximum likelihood fit come from a matrix that is not the derivative of the
gradient. -/
theorem C148_se_ml_violated {cq : Mat 1 1 → Option (Mat 1 1)} (hq : CholOk cq) (e : exT1.RE ≃ Fin 1) (tr tr' : Bool) :
    ∃ HG HGR HR, postHess cq e exM1 false (fun _ => 1) 1 = some (HG, HGR, HR) ∧
      ∀ g : ℝ → (exT1.Par → ℝ) × ℝ, (∀ t > -1, gradient cq e exM1 tr tr' false (fun _ => 1) (1 + t) = some (g t)) →
        ¬ HasDerivAt (fun t => (g t).2) HR 0 :=
  (C145_hessian_ml_violated hq e tr tr').2

/-- `re_corrs` is a correlation matrix: unit diagonal, entries between minus one and one. -/
theorem C148_re_corr {C : Mat r r} (h : C.PosDef) : (∀ i, reCorr C i i = 1) ∧ ∀ i j, |reCorr C i j| ≤ 1 := by
  have hd : ∀ i, 0 < C i i := fun i => h.diag_pos
  have hentry : ∀ i j, reCorr C i j = C i j / (√(C i i) * √(C j j)) := fun i j => by
    unfold reCorr
    simp only [diagonal_mul, mul_diagonal, one_div, Real.sqrt_inv]
    have := Real.sqrt_pos.2 (hd i)
    have := Real.sqrt_pos.2 (hd j)
    field_simp
  have h1 : ∀ i, reCorr C i i = 1 := fun i => by
    rw [hentry, Real.mul_self_sqrt (hd i).le, div_self (hd i).ne']
  refine ⟨h1, fun i j => ?_⟩
  by_cases hij : i = j
  · subst hij
    rw [h1]
    simp
  have hinj : Function.Injective ![i, j] := fun a b hab => by
    have hji : ¬ j = i := fun h' => hij h'.symm
    fin_cases a <;> fin_cases b <;> simp [hij, hji] at hab ⊢
  have hsub := (h.submatrix hinj).det_pos
  have hsy : C j i = C i j := by
    have := h.isHermitian.apply i j
    simpa using this
  rw [det_fin_two] at hsub
  simp [hsy] at hsub
  rw [hentry, abs_div, abs_of_pos (mul_pos (Real.sqrt_pos.2 (hd i)) (Real.sqrt_pos.2 (hd j))),
    div_le_one (mul_pos (Real.sqrt_pos.2 (hd i)) (Real.sqrt_pos.2 (hd j))), ← Real.sqrt_mul (hd i).le]
  refine Real.le_sqrt_of_sq_le ?_
  rw [sq_abs]
  nlinarith

end Verif.Lmm.Lm
