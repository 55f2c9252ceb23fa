import Verif.Mv.MvolsProps
import Verif.Sem.FitProps
/-!
# C150: the closed form of the multivariate regression
-/
namespace Verif.Mv.Mvols
open Matrix Kronecker Verif.Fa Verif.Like Verif.Lmm Verif.Lmm.Lm Verif.Calc
variable {n p q : ℕ}

theorem trace_quad {k : ℕ} (A : Mat p k) (G : Mat p p) : (Aᵀ * G * A).trace = ∑ j, (fun i => A i j) ⬝ᵥ (G *ᵥ fun i => A i j) := by
  rw [trace]
  refine Finset.sum_congr rfl fun j _ => ?_
  rw [diag_apply, Matrix.mul_assoc, mul_apply, dotProduct]
  refine Finset.sum_congr rfl fun i _ => ?_
  rw [transpose_apply, mul_apply]
  rfl

theorem quad_trace_nonneg {k : ℕ} (A : Mat p k) {G : Mat p p} (hG : G.PosDef) :
    0 ≤ (Aᵀ * G * A).trace ∧ ((Aᵀ * G * A).trace = 0 → A = 0) := by
  have h : ∀ j, 0 ≤ (fun i => A i j) ⬝ᵥ (G *ᵥ fun i => A i j) := fun j => by
    simpa using hG.posSemidef.dotProduct_mulVec_nonneg (fun i => A i j)
  rw [trace_quad]
  refine ⟨Finset.sum_nonneg fun j _ => h j, fun e => ?_⟩
  have e2 := (Finset.sum_eq_zero_iff_of_nonneg fun j _ => h j).1 e
  ext i j
  by_contra hne
  have hv : (fun i => A i j) ≠ 0 := fun h0 => hne (congrFun h0 i)
  have := hG.dotProduct_mulVec_pos hv
  simp only [star_trivial] at this
  rw [e2 j (Finset.mem_univ j)] at this
  exact lt_irrefl _ this

theorem chol_facts {k : ℕ} {ch : Mat k k → Option (Mat k k)} (hc : CholOk ch) {G L : Mat k k} (h : ch G = some L) :
    L * Lᵀ = G ∧ IsUnit L.det ∧ inv? L = some L⁻¹ ∧ (L⁻¹)ᵀ * L⁻¹ = G⁻¹ ∧ G.PosDef ∧ IsUnit G.det := by
  obtain ⟨h1, h2, h3⟩ := hc.ok _ _ h
  have hu := unit_chol h2 h3
  have hG : IsUnit G.det := by rw [← h1, det_mul, det_transpose]; exact hu.mul hu
  refine ⟨h1, hu, inv?_unit hu, ?_, ?_, hG⟩
  · rw [← h1, Matrix.mul_inv_rev, transpose_nonsing_inv]
  · have h4 : (Lᵀᵀ * Lᵀ).PosDef := posDef_gram (by rw [transpose_transpose, h1]; exact hG)
    rwa [transpose_transpose, h1] at h4

/-- The weighted cross products. -/
def gram (d : Data n p q) : Mat p p := d.Xᵀ * (diagonal d.w * d.X)

/-- What the closed form computes. -/
theorem closed_facts {cp : Mat p p → Option (Mat p p)} {ch : Mat q q → Option (Mat q q)} (hp : CholOk cp) (hc : CholOk ch)
    {d : Data n p q} (hw : ∀ i, 0 ≤ d.w i) {th : Ix p q → ℝ} (h : closedForm cp ch d = some th) :
    (gram d).PosDef ∧ beta th = (gram d)⁻¹ * (d.Xᵀ * (diagonal d.w * d.Y)) ∧
      ((1 / ∑ i, d.w i) • sscp d th).PosDef ∧ pchol th * (pchol th)ᵀ = ((1 / ∑ i, d.w i) • sscp d th)⁻¹ := by
  have hs : (diagonal fun i => √(d.w i)) * (diagonal fun i => √(d.w i)) = diagonal d.w := by
    rw [diagonal_mul_diagonal]
    congr 1
    funext i
    exact Real.mul_self_sqrt (hw i)
  have hk : ∀ k (Z : Mat n k), ((diagonal fun i => √(d.w i)) * d.X)ᵀ * ((diagonal fun i => √(d.w i)) * Z) =
      d.Xᵀ * (diagonal d.w * Z) := fun k Z => by
    rw [transpose_mul, diagonal_transpose, Matrix.mul_assoc, ← Matrix.mul_assoc (diagonal _) (diagonal _), hs]
  unfold closedForm pcholOfSigma at h
  simp only [hk, Option.bind_eq_bind] at h
  obtain ⟨Lx, h1, h⟩ := Option.bind_eq_some_iff.1 h
  obtain ⟨a1, a2, a3, a4, a5, a6⟩ := chol_facts hp h1
  rw [a3, Option.bind_some, ← Matrix.mul_assoc (Lx⁻¹)ᵀ Lx⁻¹, a4] at h
  obtain ⟨L, h2, h⟩ := Option.bind_eq_some_iff.1 h
  obtain ⟨Ls, h3, h2⟩ := Option.bind_eq_some_iff.1 h2
  obtain ⟨b1, b2, b3, b4, b5, b6⟩ := chol_facts hc h3
  rw [b3, Option.bind_some, b4] at h2
  obtain ⟨c1, c2, c3⟩ := hc.ok _ _ h2
  obtain rfl := Option.some.inj h
  obtain ⟨e1, e2⟩ := C149_unpack_pack ((d.Xᵀ * (diagonal d.w * d.X))⁻¹ * (d.Xᵀ * (diagonal d.w * d.Y))) c2 c3
  refine ⟨a5, e1, ?_, ?_⟩
  · rw [sscp, resid, e1]; exact b5
  · rw [sscp, resid, e1, e2]; exact c1

/-- With a regular design and regular residuals the closed form is found. -/
theorem C150_runs {cp : Mat p p → Option (Mat p p)} {ch : Mat q q → Option (Mat q q)} (hp : CholOk cp) (hc : CholOk ch)
    {d : Data n p q} (hw : ∀ i, 0 ≤ d.w i) (hX : (gram d).PosDef)
    (hS : ((1 / ∑ i, d.w i) • ((d.Y - d.X * ((gram d)⁻¹ * (d.Xᵀ * (diagonal d.w * d.Y))))ᵀ *
      (diagonal d.w * (d.Y - d.X * ((gram d)⁻¹ * (d.Xᵀ * (diagonal d.w * d.Y))))))).PosDef) :
    ∃ th, closedForm cp ch d = some th := by
  have hs : (diagonal fun i => √(d.w i)) * (diagonal fun i => √(d.w i)) = diagonal d.w := by
    rw [diagonal_mul_diagonal]
    congr 1
    funext i
    exact Real.mul_self_sqrt (hw i)
  have hk : ∀ k (Z : Mat n k), ((diagonal fun i => √(d.w i)) * d.X)ᵀ * ((diagonal fun i => √(d.w i)) * Z) =
      d.Xᵀ * (diagonal d.w * Z) := fun k Z => by
    rw [transpose_mul, diagonal_transpose, Matrix.mul_assoc, ← Matrix.mul_assoc (diagonal _) (diagonal _), hs]
  obtain ⟨Lx, h1⟩ := hp.total _ hX
  obtain ⟨a1, a2, a3, a4, a5, a6⟩ := chol_facts hp h1
  obtain ⟨Ls, h3⟩ := hc.total _ hS
  obtain ⟨b1, b2, b3, b4, b5, b6⟩ := chol_facts hc h3
  obtain ⟨L, h5⟩ := hc.total _ b5.inv
  unfold closedForm pcholOfSigma
  unfold gram at *
  simp only [hk, Option.bind_eq_bind, h1, Option.bind_some, a3]
  simp only [← Matrix.mul_assoc (Lx⁻¹)ᵀ Lx⁻¹, a4, h3, Option.bind_some, b3, b4, h5]
  exact ⟨_, rfl⟩

section min
variable {d : Data n p q} {th : Ix p q → ℝ}

theorem xwe_zero (hX : (gram d).PosDef) (hB : beta th = (gram d)⁻¹ * (d.Xᵀ * (diagonal d.w * d.Y))) : xwe d th = 0 := by
  have hu : IsUnit (gram d).det := isUnit_iff_ne_zero.2 hX.det_pos.ne'
  have e : d.Xᵀ * (diagonal d.w * (d.X * beta th)) = gram d * beta th := by simp only [gram, Matrix.mul_assoc]
  rw [xwe, resid, Matrix.mul_sub, Matrix.mul_sub, e, hB, mul_nonsing_inv_cancel_left _ _ hu, sub_self]

/-- The residuals at other coefficients. -/
theorem sscp_split (h0 : xwe d th = 0) (th2 : Ix p q → ℝ) :
    sscp d th2 = sscp d th + (beta th2 - beta th)ᵀ * gram d * (beta th2 - beta th) := by
  have h1 : resid d th2 = resid d th - d.X * (beta th2 - beta th) := by simp [resid, Matrix.mul_sub]
  have h2 : (resid d th)ᵀ * (diagonal d.w * d.X) = 0 := by
    have := congrArg transpose h0
    simpa [xwe, transpose_mul, Matrix.mul_assoc] using this
  unfold xwe at h0
  unfold sscp gram
  rw [h1]
  generalize resid d th = E at *
  generalize beta th2 - beta th = D
  simp only [transpose_sub, transpose_mul, Matrix.sub_mul, Matrix.mul_sub, Matrix.mul_assoc] at *
  have h3 : Eᵀ * (diagonal d.w * (d.X * D)) = 0 := by
    rw [← Matrix.mul_assoc (diagonal d.w), ← Matrix.mul_assoc Eᵀ (diagonal d.w * d.X), h2, Matrix.zero_mul]
  rw [h3, h0]
  simp

theorem logdet_pchol (th : Ix p q → ℝ) :
    Real.log |((pchol th * (pchol th)ᵀ)⁻¹).det| = -2 * ∑ i, ltri (fun a => th (Sum.inr a)) i i := by
  have hu : IsUnit (pchol th).det := unit_chol (cholOf_upper _) (cholOf_pos _)
  have hd : (pchol th).det = ∏ i, pchol th i i :=
    det_of_isLowerTriangular _ fun i j h => cholOf_upper _ i j (OrderDual.toDual_lt_toDual.1 h)
  have hne : (pchol th).det ≠ 0 := hu.ne_zero
  rw [Real.log_abs, show ((pchol th * (pchol th)ᵀ)⁻¹).det = ((pchol th).det * (pchol th).det)⁻¹ by
    simp only [det_nonsing_inv, Ring.inverse_eq_inv', det_mul, det_transpose], Real.log_inv, Real.log_mul hne hne, hd,
    show Real.log (∏ i, pchol th i i) = ∑ i, Real.log (pchol th i i) from Real.log_prod fun i _ => (cholOf_pos _ i).ne']
  have : ∀ i, Real.log (pchol th i i) = ltri (fun a => th (Sum.inr a)) i i := fun i => by
    rw [pchol, cholOf_diag, Real.log_exp]
  simp only [this]
  ring

theorem prec_posDef (th : Ix p q → ℝ) : (pchol th * (pchol th)ᵀ).PosDef := by
  have hu : IsUnit (pchol th).det := unit_chol (cholOf_upper _) (cholOf_pos _)
  have h4 : ((pchol th)ᵀᵀ * (pchol th)ᵀ).PosDef :=
    posDef_gram (by rw [transpose_transpose, det_mul, det_transpose]; exact hu.mul hu)
  rwa [transpose_transpose] at h4

/-- The gap to the closed form is a Kullback-Leibler divergence and a quadratic form in the coefficients. -/
theorem nll_gap (hN : 0 < ∑ i, d.w i) (h0 : xwe d th = 0) (hS : ((1 / ∑ i, d.w i) • sscp d th).PosDef)
    (hO : pchol th * (pchol th)ᵀ = ((1 / ∑ i, d.w i) • sscp d th)⁻¹) (th2 : Ix p q → ℝ) :
    nll d th2 - nll d th = (∑ i, d.w i) / 2 * (Real.log |((pchol th2 * (pchol th2)ᵀ)⁻¹).det| +
        ((pchol th2 * (pchol th2)ᵀ)⁻¹⁻¹ * ((1 / ∑ i, d.w i) • sscp d th)).trace +
          (-Real.log |((1 / ∑ i, d.w i) • sscp d th).det| - Fintype.card (Fin q))) +
      1 / 2 * (((beta th2 - beta th) * pchol th2)ᵀ * gram d * ((beta th2 - beta th) * pchol th2)).trace := by
  have hu : IsUnit ((1 / ∑ i, d.w i) • sscp d th).det := isUnit_iff_ne_zero.2 hS.det_pos.ne'
  have hu2 : IsUnit (pchol th2 * (pchol th2)ᵀ).det := isUnit_iff_ne_zero.2 (prec_posDef th2).det_pos.ne'
  have hE : ((1 / ∑ i, d.w i) • sscp d th) = (pchol th * (pchol th)ᵀ)⁻¹ := by rw [hO, nonsing_inv_nonsing_inv _ hu]
  have t1 : ∀ K : Mat q q, (Kᵀ * sscp d th * K).trace = (∑ i, d.w i) * (K * Kᵀ * ((1 / ∑ i, d.w i) • sscp d th)).trace := fun K => by
    rw [Matrix.mul_smul, trace_smul, smul_eq_mul, ← mul_assoc, mul_one_div_cancel hN.ne', one_mul, trace_mul_comm,
      ← Matrix.mul_assoc]
  have t2 : ((pchol th)ᵀ * sscp d th * pchol th).trace = (∑ i, d.w i) * q := by
    rw [t1, hO, nonsing_inv_mul _ hu, trace_one, Fintype.card_fin]
  have t3 : ((pchol th2)ᵀ * sscp d th2 * pchol th2).trace =
      (∑ i, d.w i) * (pchol th2 * (pchol th2)ᵀ * ((1 / ∑ i, d.w i) • sscp d th)).trace +
      (((beta th2 - beta th) * pchol th2)ᵀ * gram d * ((beta th2 - beta th) * pchol th2)).trace := by
    rw [sscp_split h0 th2, Matrix.mul_add, Matrix.add_mul, trace_add, t1]
    simp only [transpose_mul, Matrix.mul_assoc]
  rw [nll_eq, nll_eq, t2, t3, logdet_pchol, nonsing_inv_nonsing_inv _ hu2]
  rw [show Real.log |((1 / ∑ i, d.w i) • sscp d th).det| = -2 * ∑ i, ltri (fun a => th (Sum.inr a)) i i by
    rw [hE, logdet_pchol], Fintype.card_fin]
  ring

end min

/-- The closed form is the only minimiser of `_loglike`. -/
theorem C150_minimum {cp : Mat p p → Option (Mat p p)} {ch : Mat q q → Option (Mat q q)} (hp : CholOk cp) (hc : CholOk ch)
    {d : Data n p q} (hw : ∀ i, 0 ≤ d.w i) (hN : 0 < ∑ i, d.w i) {th : Ix p q → ℝ} (h : closedForm cp ch d = some th)
    (th2 : Ix p q → ℝ) : nll d th ≤ nll d th2 ∧ (nll d th2 = nll d th → th2 = th) := by
  obtain ⟨hX, hB, hS, hO⟩ := closed_facts hp hc hw h
  have hgap := nll_gap hN (xwe_zero hX hB) hS hO th2
  obtain ⟨k1, k2⟩ := Verif.Sem.kl_nonneg (prec_posDef th2).inv hS
  obtain ⟨q1, q2⟩ := quad_trace_nonneg ((beta th2 - beta th) * pchol th2) hX
  generalize hK : Real.log |((pchol th2 * (pchol th2)ᵀ)⁻¹).det| +
        ((pchol th2 * (pchol th2)ᵀ)⁻¹⁻¹ * ((1 / ∑ i, d.w i) • sscp d th)).trace +
          (-Real.log |((1 / ∑ i, d.w i) • sscp d th).det| - Fintype.card (Fin q)) = K at *
  have hm := mul_nonneg (div_pos hN two_pos).le k1
  refine ⟨by linarith, fun e => ?_⟩
  have e1 : (∑ i, d.w i) / 2 * K = 0 := by linarith
  have e2 : K = 0 := (mul_eq_zero.1 e1).resolve_left (div_pos hN two_pos).ne'
  have e3 := q2 (by linarith)
  have hu2 : IsUnit (pchol th2).det := unit_chol (cholOf_upper _) (cholOf_pos _)
  have e4 : beta th2 = beta th := by
    have := mul_nonsing_inv_cancel_right (pchol th2) (beta th2 - beta th) hu2
    rw [e3, Matrix.zero_mul] at this
    exact sub_eq_zero.1 this.symm
  have e5 : pchol th2 = pchol th := by
    refine cholM_unique ?_ (cholOf_upper _) (cholOf_upper _) (cholOf_pos _) (cholOf_pos _)
    rw [hO, ← k2 e2, nonsing_inv_nonsing_inv _ (isUnit_iff_ne_zero.2 (prec_posDef th2).det_pos.ne')]
  rw [← C149_pack_unpack th2, ← C149_pack_unpack th, e4, e5]

/-- `sigma_mle` is the mean of the weighted squared residuals, `precision` its inverse. -/
theorem C150_sigma {cp : Mat p p → Option (Mat p p)} {ch : Mat q q → Option (Mat q q)} (hp : CholOk cp) (hc : CholOk ch)
    {d : Data n p q} (hw : ∀ i, 0 ≤ d.w i) {th : Ix p q → ℝ} (h : closedForm cp ch d = some th) :
    sigmaMle th = some ((1 / ∑ i, d.w i) • sscp d th) ∧ pchol th * (pchol th)ᵀ = ((1 / ∑ i, d.w i) • sscp d th)⁻¹ := by
  obtain ⟨hX, hB, hS, hO⟩ := closed_facts hp hc hw h
  have hu : IsUnit (pchol th).det := unit_chol (cholOf_upper _) (cholOf_pos _)
  refine ⟨?_, hO⟩
  unfold sigmaMle
  simp only [inv?_unit hu, Option.bind_eq_bind, Option.bind_some]
  rw [transpose_nonsing_inv, ← Matrix.mul_inv_rev, hO, nonsing_inv_nonsing_inv _ (isUnit_iff_ne_zero.2 hS.det_pos.ne')]
  rfl

/-- `_gradient` vanishes there. -/
theorem C150_score {cp : Mat p p → Option (Mat p p)} {ch : Mat q q → Option (Mat q q)} (hp : CholOk cp) (hc : CholOk ch)
    {d : Data n p q} (hw : ∀ i, 0 ≤ d.w i) (hN : 0 < ∑ i, d.w i) {th : Ix p q → ℝ} (h : closedForm cp ch d = some th) :
    gradient d th = 0 := by
  funext x
  have h1 := C149_gradient d (VD.line th (Pi.single x 1))
  have h2 : IsLocalMin (fun t : ℝ => nll d (th + t • Pi.single x 1)) 0 := by
    refine Filter.Eventually.of_forall fun t => ?_
    simpa using (C150_minimum hp hc hw hN h (th + t • Pi.single x 1)).1
  simpa using h2.hasDerivAt_eq_zero h1

section hess
variable {d : Data n p q} {th : Ix p q → ℝ}

theorem factor_pos (th : Ix p q → ℝ) (a : Tri q) : 0 < factor (pchol th) a := by
  unfold factor
  split
  · exact cholOf_pos _ _
  · exact one_pos

/-- The Hessian at a stationary point with residuals orthogonal to the design. -/
theorem hess_quad (h0 : xwe d th = 0) (hg : gradient d th = 0) (v : Ix p q → ℝ) :
    v ⬝ᵥ (hessian d th *ᵥ v) = ((beta v * pchol th)ᵀ * gram d * (beta v * pchol th)).trace +
      ((dL th v)ᵀ * sscp d th * dL th v).trace +
        ∑ a : Tri q, (if a.1.1 = a.1.2 then (∑ i, d.w i) * (v (Sum.inr a)) ^ 2 else 0) := by
  have e1 : ∀ x : Fin q × Fin p, (hessian d th *ᵥ v) (Sum.inl x) = (gram d * beta v * (pchol th * (pchol th)ᵀ)) x.2 x.1 := fun x => by
    simp only [mulVec, dotProduct, Fintype.sum_sum_type, hess11, hess12, h0, Matrix.zero_mul, Matrix.zero_apply, neg_zero, zero_mul,
      Finset.sum_const_zero, add_zero]
    exact kron_dir d th v x
  have e2 : ∀ a : Tri q, (hessian d th *ᵥ v) (Sum.inr a) = factor (pchol th) a * (sscp d th * dL th v) a.1.1 a.1.2 +
      if a.1.1 = a.1.2 then (∑ i, d.w i) * v (Sum.inr a) else 0 := fun a => by
    have hs := congrFun hg (Sum.inr a)
    rw [gradient_inr, Pi.zero_apply, sub_eq_zero] at hs
    simp only [mulVec, dotProduct, Fintype.sum_sum_type, hess21, hess22, h0, Matrix.zero_mul, Matrix.zero_apply, neg_zero, zero_mul,
      Finset.sum_const_zero, zero_add, add_mul, Finset.sum_add_distrib]
    rw [dd_dir]
    congr 1
    simp only [ite_mul, zero_mul, Finset.sum_ite_eq, Finset.mem_univ, if_true, hs]
    split_ifs <;> rfl
  rw [dotProduct, Fintype.sum_sum_type]
  simp only [e1, e2, mul_add, Finset.sum_add_distrib, ← add_assoc]
  congr 1
  · congr 1
    · have : ((beta v * pchol th)ᵀ * gram d * (beta v * pchol th)).trace =
          ((beta v)ᵀ * (gram d * beta v * (pchol th * (pchol th)ᵀ))).trace := by
        rw [transpose_mul, Matrix.mul_assoc, Matrix.mul_assoc, trace_mul_comm]
        simp only [Matrix.mul_assoc]
      rw [this, Fintype.sum_prod_type, trace]
      refine Finset.sum_congr rfl fun j _ => ?_
      rw [diag_apply, mul_apply]
      rfl
    · have : ∀ a : Tri q, v (Sum.inr a) * (factor (pchol th) a * (sscp d th * dL th v) a.1.1 a.1.2) =
          (sscp d th * dL th v) a.1.1 a.1.2 * (factor (pchol th) a * v (Sum.inr a)) := fun a => by ring
      simp only [this]
      rw [sum_tri (fun x y => (sscp d th * dL th v) x y), Finset.sum_comm, Matrix.mul_assoc, trace]
      refine Finset.sum_congr rfl fun j _ => ?_
      rw [diag_apply, mul_apply]
      refine Finset.sum_congr rfl fun i _ => ?_
      rw [transpose_apply, mul_comm]
      rfl
  · refine Finset.sum_congr rfl fun a _ => ?_
    split_ifs <;> ring

theorem hess_posDef (hN : 0 ≤ ∑ i, d.w i) (h0 : xwe d th = 0) (hg : gradient d th = 0) (hX : (gram d).PosDef) (hS : (sscp d th).PosDef) :
    (hessian d th).PosDef := by
  refine PosDef.of_dotProduct_mulVec_pos (by
    rw [Matrix.IsHermitian, conjTranspose_eq_transpose_of_trivial, C149_hessian_symm]) fun v hv => ?_
  rw [star_trivial, hess_quad h0 hg]
  obtain ⟨a1, a2⟩ := quad_trace_nonneg (beta v * pchol th) hX
  obtain ⟨b1, b2⟩ := quad_trace_nonneg (dL th v) hS
  have c1 : 0 ≤ ∑ a : Tri q, (if a.1.1 = a.1.2 then (∑ i, d.w i) * (v (Sum.inr a)) ^ 2 else 0) :=
    Finset.sum_nonneg fun a _ => by split_ifs; exacts [mul_nonneg hN (sq_nonneg _), le_rfl]
  refine lt_of_le_of_ne (by positivity) fun e => hv ?_
  have hu2 : IsUnit (pchol th).det := unit_chol (cholOf_upper _) (cholOf_pos _)
  have e1 := mul_nonsing_inv_cancel_right (pchol th) (beta v) hu2
  rw [a2 (by linarith), Matrix.zero_mul] at e1
  have e2 := b2 (by linarith)
  funext x
  rcases x with x | a
  · exact (congrFun (congrFun e1 x.2) x.1).symm
  · have := congrFun (congrFun e2 a.1.1) a.1.2
    rw [dL, ltri_tri] at this
    exact (mul_eq_zero.1 this).resolve_left (factor_pos th a).ne'

end hess

/-- The Hessian is positive definite at the closed form, and the covariance of the coefficients is `Sigma ⊗ (X' W X)⁻¹`. -/
theorem C150_beta_cov {cp : Mat p p → Option (Mat p p)} {ch : Mat q q → Option (Mat q q)} (hp : CholOk cp) (hc : CholOk ch)
    {d : Data n p q} (hw : ∀ i, 0 ≤ d.w i) (hN : 0 < ∑ i, d.w i) {th : Ix p q → ℝ} (h : closedForm cp ch d = some th) :
    (hessian d th).PosDef ∧ ∃ C, paramsCov d th = some (C, ((1 / ∑ i, d.w i) • sscp d th) ⊗ₖ (gram d)⁻¹) := by
  obtain ⟨hX, hB, hS, hO⟩ := closed_facts hp hc hw h
  have h0 := xwe_zero hX hB
  have hg := C150_score hp hc hw hN h
  have hS2 : (sscp d th).PosDef := by
    have := hS.smul hN
    rwa [smul_smul, mul_one_div_cancel hN.ne', one_smul] at this
  have hP := hess_posDef hN.le h0 hg hX hS2
  have hu : IsUnit (hessian d th).det := isUnit_iff_ne_zero.2 hP.det_pos.ne'
  refine ⟨hP, (hessian d th)⁻¹, ?_⟩
  have hb : hessian d th = fromBlocks ((pchol th * (pchol th)ᵀ) ⊗ₖ gram d) 0 0 (hessian d th).toBlocks₂₂ := by
    ext x y
    rcases x with x | a <;> rcases y with y | b
    · rw [hess11]; rfl
    · rw [hess12, h0, Matrix.zero_mul]; simp
    · rw [hess21, h0, Matrix.zero_mul]; simp
    · rfl
  have hA : IsUnit ((pchol th * (pchol th)ᵀ) ⊗ₖ gram d).det := by
    rw [hb, det_fromBlocks_zero₁₂] at hu
    exact (IsUnit.mul_iff.1 hu).1
  have hD : IsUnit (hessian d th).toBlocks₂₂.det := by
    rw [hb, det_fromBlocks_zero₁₂] at hu
    exact (IsUnit.mul_iff.1 hu).2
  have hi : (hessian d th)⁻¹ = fromBlocks ((pchol th * (pchol th)ᵀ) ⊗ₖ gram d)⁻¹ 0 0 (hessian d th).toBlocks₂₂⁻¹ := by
    refine inv_eq_right_inv ?_
    conv_lhs => rw [hb]
    rw [fromBlocks_multiply]
    simp [mul_nonsing_inv _ hA, mul_nonsing_inv _ hD]
  unfold paramsCov
  rw [if_pos hu]
  simp only [hi, toBlocks_fromBlocks₁₁, inv_kronecker, hO, nonsing_inv_nonsing_inv _ (isUnit_iff_ne_zero.2 hS.det_pos.ne')]

end Verif.Mv.Mvols

namespace Verif.Mv.Mvols
open Matrix Verif.Like

/-- Two observations of one response. -/
def exD : Data 2 1 1 := ⟨of fun _ _ => 1, of fun i _ => if i = 0 then 0 else 1, fun _ => 1⟩

/-- The closed form is found for `exD`. -/
example {cp : Mat 1 1 → Option (Mat 1 1)} {ch : Mat 1 1 → Option (Mat 1 1)} (hp : CholOk cp) (hc : CholOk ch) :
    (∀ i, 0 ≤ exD.w i) ∧ 0 < ∑ i, exD.w i ∧ ∃ th, closedForm cp ch exD = some th := by
  have hg : gram exD = diagonal fun _ => 2 := by
    ext i j
    fin_cases i; fin_cases j
    simp [gram, exD, mul_apply, diagonal]
  have hi : (gram exD)⁻¹ = diagonal fun _ => 1 / 2 := by
    refine inv_eq_right_inv ?_
    rw [hg, diagonal_mul_diagonal]
    norm_num
  refine ⟨fun _ => zero_le_one, by simp [exD], C150_runs hp hc (fun _ => zero_le_one) ?_ ?_⟩
  · rw [hg]; exact PosDef.diagonal fun _ => two_pos
  · rw [hi]
    have : ((1 / ∑ i, exD.w i) • ((exD.Y - exD.X * ((diagonal fun _ => 1 / 2) * (exD.Xᵀ * (diagonal exD.w * exD.Y))))ᵀ *
      (diagonal exD.w * (exD.Y - exD.X * ((diagonal fun _ => 1 / 2) * (exD.Xᵀ * (diagonal exD.w * exD.Y))))))) =
        diagonal fun _ : Fin 1 => (1 / 4 : ℝ) := by
      ext i j
      fin_cases i; fin_cases j
      simp [exD, mul_apply, Fin.sum_univ_two, diagonal]
      norm_num
    rw [this]
    exact PosDef.diagonal fun _ => by norm_num

end Verif.Mv.Mvols
