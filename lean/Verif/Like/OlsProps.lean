import Verif.Like.Ols
import Verif.Mv.MvolsFitProps
import Verif.Like.InfluenceProps
/-!
# C153: ordinary least squares of `pyglm2/ols.py`
-/
namespace Verif.Like.Ols
open Matrix Verif.Fa Verif.Like Verif.Calc Verif.Mv.Mvols
variable {n p k : ℕ}

/-- The residual sum of squares. -/
def rss (X : Mat n p) (y : Fin n → ℝ) (b : Fin p → ℝ) : ℝ := (y - X *ᵥ b) ⬝ᵥ (y - X *ᵥ b)

/-- `_gradient` is the gradient of `_loglike`: along every line through the parameters. -/
theorem C153_gradient (X : Mat n p) (y : Fin n → ℝ) (reml : Bool) (b db : Fin p → ℝ) (lv dl : ℝ) :
    HasDerivAt (fun t : ℝ => loglike X y reml (b + t • db) (lv + t * dl))
      ((gradient X y reml b lv).1 ⬝ᵥ db + (gradient X y reml b lv).2 * dl) 0 := by
  have hv : VD (fun t : ℝ => y - X *ᵥ (b + t • db)) (0 - (0 *ᵥ (b + (0:ℝ) • db) + X *ᵥ db)) :=
    (VD.const y).sub (VD.mulVec (MD.const X) (VD.line b db))
  have hs := dot_deriv hv hv
  have hl : HasDerivAt (fun t : ℝ => lv + t * dl) dl 0 := by
    simpa using ((hasDerivAt_id (0:ℝ)).mul_const dl).const_add lv
  have he := (hl.fun_neg).exp
  have h := ((((hl.const_add (Real.log (2 * Real.pi))).const_mul (-(neff n p reml) / 2)).fun_sub
    ((he.fun_mul hs).div_const 2))).fun_neg
  refine h.congr_deriv ?_
  simp only [gradient, zero_smul, add_zero, zero_mulVec, zero_add, zero_sub, zero_mul, neg_dotProduct, dotProduct_neg, smul_dotProduct,
    ← dotProduct_mulVec, smul_eq_mul]
  rw [dotProduct_comm (X *ᵥ db)]
  ring

/-- `_hessian` is the derivative of `_gradient`, with and without `reml`. -/
theorem C153_hessian (X : Mat n p) (y : Fin n → ℝ) (reml : Bool) (b db : Fin p → ℝ) (lv dl : ℝ) :
    VD (fun t : ℝ => (gradient X y reml (b + t • db) (lv + t * dl)).1) (fun i => (hessian X y b lv *ᵥ Sum.elim db fun _ => dl) (.inl i)) ∧
    HasDerivAt (fun t : ℝ => (gradient X y reml (b + t • db) (lv + t * dl)).2) ((hessian X y b lv *ᵥ Sum.elim db fun _ => dl) (.inr 0)) 0 := by
  have hv : VD (fun t : ℝ => y - X *ᵥ (b + t • db)) (0 - (0 *ᵥ (b + (0:ℝ) • db) + X *ᵥ db)) :=
    (VD.const y).sub (VD.mulVec (MD.const X) (VD.line b db))
  have hl : HasDerivAt (fun t : ℝ => lv + t * dl) dl 0 := by
    simpa using ((hasDerivAt_id (0:ℝ)).mul_const dl).const_add lv
  have he := (hl.fun_neg).exp
  constructor
  · intro i
    have h1 := (he.fun_mul (VD.mulVec (MD.const Xᵀ) hv i)).fun_neg
    have e : (fun t : ℝ => (gradient X y reml (b + t • db) (lv + t * dl)).1 i) =
        fun t => -(Real.exp (-(lv + t * dl)) * (Xᵀ *ᵥ (y - X *ᵥ (b + t • db))) i) := by
      funext t
      simp [gradient, ← mulVec_transpose]
    rw [e]
    refine h1.congr_deriv ?_
    simp only [hessian, neg_mulVec, Pi.neg_apply, fromBlocks_mulVec, Sum.elim_inl, Pi.add_apply, zero_smul, add_zero, zero_mulVec,
      zero_add, zero_sub, zero_mul, mulVec_neg, smul_mulVec, mulVec_mulVec, Pi.smul_apply, smul_eq_mul]
    have : ((of fun i (_ : Fin 1) => -Real.exp (-lv) * (Xᵀ *ᵥ (y - X *ᵥ b)) i) *ᵥ ((Sum.elim db fun _ => dl) ∘ Sum.inr)) i =
        -Real.exp (-lv) * (Xᵀ *ᵥ (y - X *ᵥ b)) i * dl := by
      simp [mulVec, dotProduct]
    rw [this]
    have : ((Sum.elim db fun _ : Fin 1 => dl) ∘ Sum.inl) = db := rfl
    rw [this, Pi.zero_apply]
    ring
  · have h1 := (((he.fun_mul (dot_deriv hv hv)).div_const 2).const_add (-(neff n p reml) / 2)).fun_neg
    refine h1.congr_deriv ?_
    simp only [hessian, neg_mulVec, Pi.neg_apply, fromBlocks_mulVec, Sum.elim_inr, Pi.add_apply, zero_smul, add_zero, zero_mulVec,
      zero_add, zero_sub, zero_mul]
    have e1 : ((of fun (_ : Fin 1) (i : Fin p) => ((-Real.exp (-lv)) • (Xᵀ *ᵥ (y - X *ᵥ b))) i) *ᵥ ((Sum.elim db fun _ : Fin 1 => dl) ∘ Sum.inl)) 0 =
        -Real.exp (-lv) * ((X *ᵥ db) ⬝ᵥ (y - X *ᵥ b)) := by
      rw [dotProduct_comm, dotProduct_mulVec, ← mulVec_transpose, ← smul_eq_mul, ← smul_dotProduct]
      rfl
    have e2 : ((of fun (_ _ : Fin 1) => -(Real.exp (-lv) * ((y - X *ᵥ b) ⬝ᵥ (y - X *ᵥ b))) / 2) *ᵥ ((Sum.elim db fun _ : Fin 1 => dl) ∘ Sum.inr)) 0 =
        -(Real.exp (-lv) * ((y - X *ᵥ b) ⬝ᵥ (y - X *ᵥ b))) / 2 * dl := by
      simp [mulVec, dotProduct]
    rw [e1, e2]
    simp only [neg_dotProduct, dotProduct_neg, smul_eq_mul]
    rw [dotProduct_comm (y - X *ᵥ b) (X *ᵥ db)]
    ring

/-- Pythagoras: the residual sum of squares around a solution of the normal equations. -/
theorem rss_eq' {X : Mat n p} {y : Fin n → ℝ} {b c : Fin p → ℝ} (h0 : (y - X *ᵥ b) ⬝ᵥ (X *ᵥ (c - b)) = 0) :
    rss X y c = rss X y b + (X *ᵥ (c - b)) ⬝ᵥ (X *ᵥ (c - b)) := by
  have e : y - X *ᵥ c = (y - X *ᵥ b) - X *ᵥ (c - b) := by rw [mulVec_sub]; abel
  have h1 := h0
  rw [dotProduct_comm] at h1
  rw [rss, e, rss]
  generalize y - X *ᵥ b = r at *
  rw [sub_dotProduct, dotProduct_sub, dotProduct_sub, h0, h1]
  ring

theorem rss_eq {X : Mat n p} {y : Fin n → ℝ} {b : Fin p → ℝ} (h : Xᵀ *ᵥ (y - X *ᵥ b) = 0) (c : Fin p → ℝ) :
    rss X y c = rss X y b + (X *ᵥ (c - b)) ⬝ᵥ (X *ᵥ (c - b)) :=
  rss_eq' (by rw [dotProduct_mulVec, ← mulVec_transpose, h, zero_dotProduct])

theorem normal_eq {X : Mat n p} (hG : IsUnit (Xᵀ * X).det) (y : Fin n → ℝ) : Xᵀ *ᵥ (y - X *ᵥ ((Xᵀ * X)⁻¹ *ᵥ (Xᵀ *ᵥ y))) = 0 := by
  rw [mulVec_sub]
  generalize Xᵀ *ᵥ y = c
  rw [mulVec_mulVec, mulVec_mulVec, mul_nonsing_inv _ hG, one_mulVec, sub_self]

/-- The sum of squares from the factor. -/
theorem sse_eq {X : Mat n p} {L : Mat p p} (h : (L⁻¹)ᵀ * L⁻¹ = (Xᵀ * X)⁻¹) (hG : IsUnit (Xᵀ * X).det) (y : Fin n → ℝ) :
    y ⬝ᵥ y - (L⁻¹ *ᵥ (Xᵀ *ᵥ y)) ⬝ᵥ (L⁻¹ *ᵥ (Xᵀ *ᵥ y)) = rss X y ((Xᵀ * X)⁻¹ *ᵥ (Xᵀ *ᵥ y)) := by
  have e := rss_eq (normal_eq hG y) 0
  simp only [rss, mulVec_zero, sub_zero, zero_sub, mulVec_neg, neg_dotProduct_neg] at e
  have e2 : (L⁻¹ *ᵥ (Xᵀ *ᵥ y)) ⬝ᵥ (L⁻¹ *ᵥ (Xᵀ *ᵥ y)) = (X *ᵥ ((Xᵀ * X)⁻¹ *ᵥ (Xᵀ *ᵥ y))) ⬝ᵥ (X *ᵥ ((Xᵀ * X)⁻¹ *ᵥ (Xᵀ *ᵥ y))) := by
    generalize Xᵀ *ᵥ y = c
    have e3 : Xᵀ *ᵥ (X *ᵥ ((Xᵀ * X)⁻¹ *ᵥ c)) = c := by
      rw [mulVec_mulVec, mulVec_mulVec, mul_nonsing_inv _ hG, one_mulVec]
    rw [dotProduct_mulVec, ← mulVec_transpose, mulVec_mulVec, h, dotProduct_mulVec (X *ᵥ _), ← mulVec_transpose, e3, dotProduct_comm]
  rw [e2, rss]
  linarith

/-- What the fit returns. -/
theorem C153_fit {ch : Mat p p → Option (Mat p p)} (hc : CholOk ch) {X : Mat n p} {y : Fin n → ℝ} {reml : Bool} {f : Fit p}
    (h : fit2 ch X y reml = some f) :
    Xᵀ *ᵥ (y - X *ᵥ f.beta) = 0 ∧ f.sse = rss X y f.beta ∧ f.lv = Real.log (f.sse / neff n p reml) ∧
      f.G = Xᵀ * X ∧ f.Ginv = (Xᵀ * X)⁻¹ ∧ f.L * f.Lᵀ = Xᵀ * X ∧ f.Linv = f.L⁻¹ ∧ IsUnit f.L.det ∧ (Xᵀ * X).PosDef := by
  unfold fit2 at h
  simp only [Option.bind_eq_bind] at h
  obtain ⟨L, h1, h⟩ := Option.bind_eq_some_iff.1 h
  obtain ⟨a1, a2, a3, a4, a5, a6⟩ := chol_facts hc h1
  have e := sse_eq a4 a6 y
  have hn := normal_eq a6 y
  generalize hcc : Xᵀ *ᵥ y = c at *
  rw [a3, Option.bind_some, mulVec_mulVec, a4] at h
  obtain rfl := Option.some.inj h
  exact ⟨hn, e, rfl, rfl, rfl, a1, rfl, a2, a5⟩

/-- The two ways to fit agree. -/
theorem C153_fit1 {ch : Mat p p → Option (Mat p p)} (hc : CholOk ch) (X : Mat n p) (y : Fin n → ℝ) (reml : Bool) :
    fit1 ch X y reml = fit2 ch X y reml := by
  unfold fit1 fit2
  simp only [Option.bind_eq_bind]
  rcases h : ch (Xᵀ * X) with _ | L
  · rfl
  · obtain ⟨a1, a2, a3, a4, a5, a6⟩ := chol_facts hc h
    have a7 : inv? Lᵀ = some (L⁻¹)ᵀ := by
      rw [inv?_unit (by rwa [det_transpose]), transpose_nonsing_inv]
    simp only [Option.bind_some, a3, a7]

/-- The fit fails exactly when the design has no full column rank. -/
theorem C153_runs {ch : Mat p p → Option (Mat p p)} (hc : CholOk ch) (X : Mat n p) (y : Fin n → ℝ) (reml : Bool) :
    (∃ f, fit2 ch X y reml = some f) ↔ IsUnit (Xᵀ * X).det := by
  constructor
  · rintro ⟨f, h⟩
    exact (isUnit_iff_isUnit_det _).1 (C153_fit hc h).2.2.2.2.2.2.2.2.isUnit
  · intro h
    obtain ⟨L, hL⟩ := hc.total _ (posDef_gram h)
    obtain ⟨a1, a2, a3, a4, a5, a6⟩ := chol_facts hc hL
    unfold fit2
    simp only [Option.bind_eq_bind, hL, Option.bind_some, a3]
    exact ⟨_, rfl⟩

theorem mulVec_eq_zero_of_gram {X : Mat n p} (h : IsUnit (Xᵀ * X).det) {v : Fin p → ℝ} (hv : X *ᵥ v = 0) : v = 0 := by
  have : (Xᵀ * X)⁻¹ *ᵥ (Xᵀ *ᵥ (X *ᵥ v)) = v := by
    rw [mulVec_mulVec _ Xᵀ, mulVec_mulVec, nonsing_inv_mul _ h, one_mulVec]
  rw [← this, hv, mulVec_zero, mulVec_zero]

/-- The fit minimises `_loglike` over all coefficients and all variances, and is the only minimiser. -/
theorem C153_minimum {ch : Mat p p → Option (Mat p p)} (hc : CholOk ch) {X : Mat n p} {y : Fin n → ℝ} {reml : Bool} {f : Fit p}
    (h : fit2 ch X y reml = some f) (hs : 0 < f.sse) (hm : 0 < neff n p reml) (b : Fin p → ℝ) (lv : ℝ) :
    loglike X y reml f.beta f.lv ≤ loglike X y reml b lv ∧
      (loglike X y reml b lv = loglike X y reml f.beta f.lv → b = f.beta ∧ lv = f.lv) := by
  obtain ⟨h1, h2, h3, -, -, -, -, -, h9⟩ := C153_fit hc h
  have hu := (isUnit_iff_isUnit_det _).1 h9.isUnit
  have hr := rss_eq h1 b
  rw [← h2] at hr
  have hq : 0 ≤ (X *ᵥ (b - f.beta)) ⬝ᵥ (X *ᵥ (b - f.beta)) := by
    simpa using dotProduct_star_self_nonneg (X *ᵥ (b - f.beta))
  have key : ∀ (c : Fin p → ℝ) (l : ℝ), loglike X y reml c l =
      neff n p reml / 2 * (Real.log (2 * Real.pi) + l) + Real.exp (-l) * rss X y c / 2 := fun c l => by
    unfold loglike rss; ring
  rw [key, key, hr, ← h2]
  have hE : Real.exp (-f.lv) = neff n p reml / f.sse := by
    rw [h3, ← Real.log_inv, Real.exp_log (inv_pos.2 (div_pos hs hm)), inv_div]
  have hE2 : Real.exp (-lv) = Real.exp (-(lv - f.lv)) * (neff n p reml / f.sse) := by
    rw [← hE, ← Real.exp_add]; congr 1; ring
  set q := (X *ᵥ (b - f.beta)) ⬝ᵥ (X *ᵥ (b - f.beta)) with hqd
  have e1 : Real.exp (-lv) * (f.sse + q) / 2 = neff n p reml / 2 * Real.exp (-(lv - f.lv)) + Real.exp (-lv) * q / 2 := by
    rw [mul_add, hE2]; field_simp
  have e2 : Real.exp (-f.lv) * f.sse / 2 = neff n p reml / 2 := by rw [hE]; field_simp
  have hq2 : 0 ≤ Real.exp (-lv) * q / 2 := by positivity
  rw [e1, e2]
  have hm2 : 0 < neff n p reml / 2 := by positivity
  constructor
  · nlinarith [Real.add_one_le_exp (-(lv - f.lv))]
  · intro e
    have hl : lv = f.lv := by
      by_contra hne
      have := Real.add_one_lt_exp (x := -(lv - f.lv)) (by simpa [sub_eq_zero] using fun e => hne e.symm)
      nlinarith
    refine ⟨?_, hl⟩
    rw [hl, sub_self, neg_zero, Real.exp_zero] at e
    have hq0 : q = 0 := by
      have h4 : Real.exp (-f.lv) * q = 0 := by linarith
      exact (mul_eq_zero.1 h4).resolve_left (Real.exp_pos _).ne'
    have hx : X *ᵥ (b - f.beta) = 0 := dotProduct_self_eq_zero.1 hq0
    exact sub_eq_zero.1 (mulVec_eq_zero_of_gram hu hx)

/-- The covariance of the estimates: `s²(XᵀX)⁻¹` and `2/n`, with no covariance between them. -/
theorem C153_cov {ch : Mat p p → Option (Mat p p)} (hc : CholOk ch) {X : Mat n p} {y : Fin n → ℝ} {reml : Bool} {f : Fit p}
    (h : fit2 ch X y reml = some f) (hs : 0 < f.sse) (hm : 0 < neff n p reml) :
    paramsCov X y f = some (fromBlocks ((f.sse / neff n p reml) • (Xᵀ * X)⁻¹) 0 0 (diagonal fun _ => 2 / neff n p reml)) := by
  obtain ⟨h1, h2, h3, -, -, -, -, -, h9⟩ := C153_fit hc h
  have hu := (isUnit_iff_isUnit_det _).1 h9.isUnit
  have hE : Real.exp (-f.lv) = neff n p reml / f.sse := by
    rw [h3, ← Real.log_inv, Real.exp_log (inv_pos.2 (div_pos hs hm)), inv_div]
  have hH : hessian X y f.beta f.lv = fromBlocks ((neff n p reml / f.sse) • (Xᵀ * X)) 0 0 (diagonal fun _ => neff n p reml / 2) := by
    unfold hessian
    dsimp only
    rw [h1, hE, fromBlocks_neg, smul_zero]
    change fromBlocks _ _ _ (-of fun _ _ => -(neff n p reml / f.sse * rss X y f.beta) / 2) = _
    rw [← h2, neg_smul, neg_neg]
    congr 1
    · ext i j; simp
    · ext i j; simp
    · ext i j
      rw [Subsingleton.elim i j]
      simp only [Matrix.neg_apply, of_apply, diagonal_apply_eq]
      field_simp
  have hI : hessian X y f.beta f.lv * fromBlocks ((f.sse / neff n p reml) • (Xᵀ * X)⁻¹) 0 0 (diagonal fun _ => 2 / neff n p reml) = 1 := by
    rw [hH, fromBlocks_multiply]
    simp only [Matrix.mul_zero, Matrix.zero_mul, add_zero, zero_add, diagonal_mul_diagonal, smul_mul_smul_comm]
    rw [mul_nonsing_inv _ hu]
    have e1 : neff n p reml / f.sse * (f.sse / neff n p reml) = 1 := by field_simp
    have e2 : neff n p reml / 2 * (2 / neff n p reml) = 1 := by field_simp
    rw [e1, e2, one_smul, diagonal_one, fromBlocks_one]
  rw [paramsCov, if_pos ((isUnit_iff_isUnit_det _).1 ⟨⟨_, _, hI, mul_eq_one_comm.1 hI⟩, rfl⟩), inv_eq_right_inv hI]

/-- The scales: the estimate the likelihood gives, and the two fixed ones. -/
theorem C153_scale {ch : Mat p p → Option (Mat p p)} (hc : CholOk ch) {X : Mat n p} {y : Fin n → ℝ} {reml : Bool} {f : Fit p}
    (h : fit2 ch X y reml = some f) (hs : 0 < f.sse) (hm : 0 < neff n p reml) :
    (scales n f).1 = if reml then (scales n f).2.2 else (scales n f).2.1 := by
  obtain ⟨-, -, h3, -⟩ := C153_fit hc h
  have e : (scales n f).1 = √(f.sse / neff n p reml) := by
    change Real.exp (f.lv / 2) = _
    rw [h3, Real.sqrt_eq_rpow, Real.rpow_def_of_pos (div_pos hs hm)]
    congr 1; ring
  rw [e]
  cases reml <;> rfl

/-- With a constant in the span of the design the sums of squares add up, the coefficient of determination lies in the unit
interval and determines the `F` statistic. -/
theorem C153_anova {X : Mat n p} {y : Fin n → ℝ} {b a : Fin p → ℝ} (h : Xᵀ *ᵥ (y - X *ᵥ b) = 0) (ha : X *ᵥ a = fun _ => 1) :
    (ssq X y b).2.2 = (ssq X y b).1 + (ssq X y b).2.1 ∧ (ssq X y b).1 = rss X y b ∧
      (0 < (ssq X y b).2.2 → 0 ≤ (sumstats X y b).1 ∧ (sumstats X y b).1 ≤ 1 ∧
        (1 < p → p < n → 0 < (ssq X y b).1 →
          (sumstats X y b).2.2 = ((sumstats X y b).1 / (p - 1)) / ((1 - (sumstats X y b).1) / (n - p)))) := by
  set m := (∑ i, y i) / n with hm
  have hr : rss X y b = (ssq X y b).1 := by
    simp only [rss, ssq, dotProduct, Pi.sub_apply]
    exact Finset.sum_congr rfl fun i _ => by ring
  have e1 := rss_eq h (m • a)
  have hma : X *ᵥ (m • a) = fun _ => m := by rw [mulVec_smul, ha]; funext i; simp
  have e2 : rss X y (m • a) = (ssq X y b).2.2 := by
    rw [rss, hma]
    simp only [ssq, dotProduct, Pi.sub_apply]
    exact Finset.sum_congr rfl fun i _ => by ring
  have e3 : (X *ᵥ (m • a - b)) ⬝ᵥ (X *ᵥ (m • a - b)) = (ssq X y b).2.1 := by
    rw [mulVec_sub, hma]
    simp only [ssq, dotProduct, Pi.sub_apply]
    exact Finset.sum_congr rfl fun i _ => by ring
  have h0 : (ssq X y b).2.2 = (ssq X y b).1 + (ssq X y b).2.1 := by rw [← e2, ← e3, ← hr, e1]
  have p1 : 0 ≤ (ssq X y b).1 := by
    change 0 ≤ ∑ i, (y i - (X *ᵥ b) i) ^ 2
    exact Finset.sum_nonneg fun i _ => sq_nonneg _
  have p2 : 0 ≤ (ssq X y b).2.1 := by
    change 0 ≤ ∑ i, ((X *ᵥ b) i - (∑ i, y i) / n) ^ 2
    exact Finset.sum_nonneg fun i _ => sq_nonneg _
  refine ⟨h0, hr.symm, fun ht => ⟨?_, ?_, fun hp hpn hs => ?_⟩⟩
  · change 0 ≤ 1 - (ssq X y b).1 / (ssq X y b).2.2
    rw [sub_nonneg, div_le_one ht]
    linarith
  · change 1 - (ssq X y b).1 / (ssq X y b).2.2 ≤ 1
    have := div_nonneg p1 ht.le
    linarith
  · change (ssq X y b).2.1 / ((p : ℝ) - 1) / ((ssq X y b).1 / ((n : ℝ) - p)) =
      (1 - (ssq X y b).1 / (ssq X y b).2.2) / (p - 1) / ((1 - (1 - (ssq X y b).1 / (ssq X y b).2.2)) / (n - p))
    have q1 : (0:ℝ) < (p : ℝ) - 1 := by rw [sub_pos]; exact_mod_cast hp
    have q2 : (0:ℝ) < (n : ℝ) - p := by rw [sub_pos]; exact_mod_cast hpn
    have e4 : (ssq X y b).2.1 = (ssq X y b).2.2 - (ssq X y b).1 := by linarith
    rw [e4]
    generalize (ssq X y b).2.2 = T at *
    generalize (ssq X y b).1 = S at *
    have q3 : 1 - (1 - S / T) = S / T := by ring
    rw [q3]
    have q4 : 1 - S / T = (T - S) / T := by field_simp
    rw [q4]
    field_simp

/-- The adjusted coefficient of determination. -/
theorem C153_adjusted {X : Mat n p} {y : Fin n → ℝ} {b : Fin p → ℝ} (hn : 1 < n) (hpn : p < n) (ht : 0 < (ssq X y b).2.2) :
    (sumstats X y b).2.1 = 1 - (1 - (sumstats X y b).1) * ((n : ℝ) - 1) / ((n : ℝ) - p) := by
  change 1 - (ssq X y b).1 / ((n : ℝ) - p) / ((ssq X y b).2.2 / ((n : ℝ) - 1)) =
    1 - (1 - (1 - (ssq X y b).1 / (ssq X y b).2.2)) * ((n : ℝ) - 1) / ((n : ℝ) - p)
  have q1 : (0:ℝ) < (n : ℝ) - 1 := by rw [sub_pos]; exact_mod_cast hn
  have q2 : (0:ℝ) < (n : ℝ) - p := by rw [sub_pos]; exact_mod_cast hpn
  generalize (ssq X y b).2.2 = T at *
  generalize (ssq X y b).1 = R at *
  have e : 1 - (1 - R / T) = R / T := by ring
  rw [e]
  field_simp

/-- Without a constant the reported coefficient of determination can be negative. -/
theorem C153_no_constant_violated :
    ∃ (X : Mat 2 1) (y : Fin 2 → ℝ) (b : Fin 1 → ℝ), Xᵀ *ᵥ (y - X *ᵥ b) = 0 ∧ IsUnit (Xᵀ * X).det ∧ (sumstats X y b).1 = -1 := by
  refine ⟨of ![![1], ![0]], ![0, 1], ![0], ?_, ?_, ?_⟩
  · funext i; fin_cases i; simp [mulVec, dotProduct, Fin.sum_univ_two]
  · rw [det_fin_one]; simp [mul_apply, Fin.sum_univ_two]
  · simp [sumstats, ssq, mulVec, dotProduct, Fin.sum_univ_two]; norm_num

/-- Restricted least squares: `_get_coef_constrained` satisfies the restrictions, reports its sum of squares, and no other
coefficients with these restrictions do as well. -/
theorem C153_constrained {ch : Mat p p → Option (Mat p p)} (hc : CholOk ch) {X : Mat n p} {y : Fin n → ℝ} {reml : Bool} {f : Fit p}
    (h : fit2 ch X y reml = some f) (qr : Mat p k → Mat p k × Mat k k) (C : Mat k p) (d : Fin k → ℝ)
    (hQ : (qr (f.Linv * Cᵀ)).1ᵀ * (qr (f.Linv * Cᵀ)).1 = 1) (hQR : (qr (f.Linv * Cᵀ)).1 * (qr (f.Linv * Cᵀ)).2 = f.Linv * Cᵀ)
    (hC : IsUnit (C * Cᵀ).det) :
    ∃ r, constrained qr f.Linv f.beta f.sse C d = some r ∧ C *ᵥ r.1 = d ∧ r.2 = rss X y r.1 ∧
      ∀ c, C *ᵥ c = d → r.2 ≤ rss X y c ∧ (rss X y c = r.2 → c = r.1) := by
  obtain ⟨h1, h2, -, -, -, h6, h7, h8, h9⟩ := C153_fit hc h
  have hu := (isUnit_iff_isUnit_det _).1 h9.isUnit
  unfold constrained
  rcases hqr : qr (f.Linv * Cᵀ) with ⟨Q, R⟩
  rw [hqr] at hQ hQR
  simp only [hqr]
  dsimp only at *
  have hR : IsUnit R.det := by
    rw [isUnit_iff_ne_zero]
    intro h0
    obtain ⟨v, hv, hRv⟩ := exists_mulVec_eq_zero_iff.2 h0
    have e : (f.Linv * Cᵀ) *ᵥ v = 0 := by rw [← hQR, ← mulVec_mulVec, hRv, mulVec_zero]
    have e2 : Cᵀ *ᵥ v = 0 := by
      have : f.L *ᵥ ((f.Linv * Cᵀ) *ᵥ v) = Cᵀ *ᵥ v := by
        rw [mulVec_mulVec, h7, mul_nonsing_inv_cancel_left _ _ h8]
      rw [← this, e, mulVec_zero]
    exact hv (mulVec_eq_zero_of_gram (X := Cᵀ) hC e2)
  rw [inv?_unit (by rwa [det_transpose])]
  simp only [Option.bind_eq_bind, Option.bind_some]
  refine ⟨_, rfl, ?_⟩
  dsimp only
  generalize hw : (Rᵀ)⁻¹ *ᵥ (C *ᵥ f.beta - d) = w
  have hRw : Rᵀ *ᵥ w = C *ᵥ f.beta - d := by
    rw [← hw, mulVec_mulVec, mul_nonsing_inv _ (by rwa [det_transpose]), one_mulVec]
  set bc := f.beta - f.Linvᵀ *ᵥ (Q *ᵥ w) with hbc
  have hT : C * f.Linvᵀ = Rᵀ * Qᵀ := by
    rw [← transpose_mul, hQR, transpose_mul, transpose_transpose]
  have c1 : C *ᵥ bc = d := by
    rw [hbc, mulVec_sub, mulVec_mulVec, mulVec_mulVec, hT, Matrix.mul_assoc, hQ, Matrix.mul_one, hRw]
    abel
  have hL2 : f.L * f.Lᵀ * f.Linvᵀ = f.L := by
    rw [h7, Matrix.mul_assoc, ← transpose_mul, nonsing_inv_mul _ h8, transpose_one, Matrix.mul_one]
  have hQ2 : Q = f.Linv * Cᵀ * R⁻¹ := by rw [← hQR, mul_nonsing_inv_cancel_right _ _ hR]
  have hg : Xᵀ *ᵥ (y - X *ᵥ bc) = Cᵀ *ᵥ (R⁻¹ *ᵥ w) := by
    have : y - X *ᵥ bc = (y - X *ᵥ f.beta) + X *ᵥ (f.Linvᵀ *ᵥ (Q *ᵥ w)) := by rw [hbc, mulVec_sub]; abel
    rw [this, mulVec_add, h1, zero_add, mulVec_mulVec _ Xᵀ, mulVec_mulVec, ← h6, hL2, mulVec_mulVec, mulVec_mulVec]
    congr 1
    rw [hQ2, h7, Matrix.mul_assoc f.L⁻¹, mul_nonsing_inv_cancel_left _ _ h8]
  have c2 : f.sse + w ⬝ᵥ w = rss X y bc := by
    rw [rss_eq h1 bc, h2]
    congr 1
    have e : bc - f.beta = -(f.Linvᵀ *ᵥ (Q *ᵥ w)) := by rw [hbc]; abel
    have e2 : Xᵀ *ᵥ (X *ᵥ (f.Linvᵀ *ᵥ (Q *ᵥ w))) = f.L *ᵥ (Q *ᵥ w) := by
      rw [mulVec_mulVec _ Xᵀ, mulVec_mulVec _ (Xᵀ * X), ← h6, hL2]
    have e3 : f.Linv *ᵥ (f.L *ᵥ (Q *ᵥ w)) = Q *ᵥ w := by
      generalize Q *ᵥ w = v
      rw [mulVec_mulVec, h7, nonsing_inv_mul _ h8, one_mulVec]
    rw [e, mulVec_neg, neg_dotProduct_neg, dotProduct_mulVec, ← mulVec_transpose, e2, dotProduct_mulVec, ← mulVec_transpose,
      transpose_transpose, e3, dotProduct_mulVec, ← mulVec_transpose, mulVec_mulVec, hQ, one_mulVec]
  refine ⟨c1, c2, fun c hcd => ?_⟩
  have e := rss_eq' (X := X) (y := y) (b := bc) (c := c) (by
    rw [dotProduct_mulVec, ← mulVec_transpose, hg, mulVec_transpose, ← dotProduct_mulVec, mulVec_sub, hcd, c1, sub_self, dotProduct_zero])
  have hq : 0 ≤ (X *ᵥ (c - bc)) ⬝ᵥ (X *ᵥ (c - bc)) := by
    simpa using dotProduct_star_self_nonneg (X *ᵥ (c - bc))
  refine ⟨by rw [c2, e]; linarith, fun he => ?_⟩
  have hx : X *ᵥ (c - bc) = 0 := dotProduct_self_eq_zero.1 (by linarith)
  exact sub_eq_zero.1 (mulVec_eq_zero_of_gram hu hx)

/-- A bootstrap row holds the coefficients and the residual sum of squares of the resample. -/
theorem C153_boot_partial {ch : Mat p p → Option (Mat p p)} (hc : CholOk ch) (X : Mat n p) (y : Fin n → ℝ) (reml : Bool) (ix : Fin n → Fin n) :
    bootRow ch X y ix = (fit2 ch (X.submatrix ix id) (y ∘ ix) reml).map fun f => (f.beta, f.sse) := by
  unfold bootRow
  rw [← C153_fit1 hc]
  unfold fit1
  simp only [Option.bind_eq_bind]
  rcases h : ch ((X.submatrix ix id)ᵀ * X.submatrix ix id) with _ | L
  · rfl
  · obtain ⟨a1, a2, a3, a4, a5, a6⟩ := chol_facts hc h
    have a7 : inv? Lᵀ = some (L⁻¹)ᵀ := by
      rw [inv?_unit (by rwa [det_transpose]), transpose_nonsing_inv]
    simp only [Option.bind_some, a3, a7]
    rfl

/-- The last column of the bootstrap is not the last parameter: even the resample that repeats the sample gives another number than
the fit. -/
theorem C153_boot_violated {ch : Mat 1 1 → Option (Mat 1 1)} (hc : CholOk ch) :
    ∃ (X : Mat 2 1) (y : Fin 2 → ℝ) (f : Fit 1) (s : ℝ), fit ch X y 1 true = some f ∧ bootRow ch X y id = some (f.beta, s) ∧
      f.lv < 0 ∧ 0 < s := by
  let X : Mat 2 1 := of ![![1], ![1]]
  have hu : IsUnit (Xᵀ * X).det := by rw [det_fin_one]; simp [X, mul_apply, Fin.sum_univ_two]
  obtain ⟨f, hf⟩ := (C153_runs hc X ![0, 1] true).2 hu
  obtain ⟨h1, h2, h3, -⟩ := C153_fit hc hf
  have h1 := congrFun h1 0
  simp [X, mulVec, dotProduct, Fin.sum_univ_two] at h1
  have hb : f.beta 0 = 1 / 2 := by linarith
  have hs : f.sse = 1 / 2 := by
    rw [h2, rss]
    simp [X, mulVec, dotProduct, Fin.sum_univ_two, hb]
    norm_num
  refine ⟨X, ![0, 1], f, f.sse, hf, ?_, ?_, by rw [hs]; norm_num⟩
  · rw [C153_boot_partial hc X ![0, 1] true id]
    change Option.map _ (fit2 ch X ![0, 1] true) = _
    rw [hf]
    rfl
  · rw [h3, hs]
    exact Real.log_neg (by norm_num [neff]) (by norm_num [neff])

/-- What a round of the permutation test computes: the residual variance of the permuted response, off by a multiple of the inner
product of the fitted values with the change of the residuals. -/
theorem C153_perm_partial {ch : Mat p p → Option (Mat p p)} (hc : CholOk ch) {X : Mat n p} {y u r : Fin n → ℝ} {perm : Equiv.Perm (Fin n)}
    (hy : y = u + r) {z : Fin n → ℝ} {s : ℝ} (h : permS2 ch X y u r perm = some (z, s)) :
    z = u + r ∘ perm ∧
      s = (rss X z ((Xᵀ * X)⁻¹ *ᵥ (Xᵀ *ᵥ z)) + 2 * (u ⬝ᵥ (r - r ∘ perm))) / ((n : ℝ) - p) := by
  unfold permS2 at h
  simp only [Option.bind_eq_bind] at h
  obtain ⟨L, h1, h⟩ := Option.bind_eq_some_iff.1 h
  obtain ⟨a1, a2, a3, a4, a5, a6⟩ := chol_facts hc h1
  rw [a3, Option.bind_some] at h
  obtain ⟨rfl, rfl⟩ := Prod.mk.inj (Option.some.inj h)
  refine ⟨rfl, ?_⟩
  rw [← sse_eq a4 a6]
  congr 1
  have e : (r ∘ perm) ⬝ᵥ (r ∘ perm) = r ⬝ᵥ r := comp_equiv_dotProduct_comp_equiv r r perm
  change y ⬝ᵥ y - (L⁻¹ *ᵥ (Xᵀ *ᵥ (u + r ∘ perm))) ⬝ᵥ (L⁻¹ *ᵥ (Xᵀ *ᵥ (u + r ∘ perm))) =
    (u + r ∘ perm) ⬝ᵥ (u + r ∘ perm) - (L⁻¹ *ᵥ (Xᵀ *ᵥ (u + r ∘ perm))) ⬝ᵥ (L⁻¹ *ᵥ (Xᵀ *ᵥ (u + r ∘ perm))) + _
  generalize (L⁻¹ *ᵥ (Xᵀ *ᵥ (u + r ∘ perm))) ⬝ᵥ (L⁻¹ *ᵥ (Xᵀ *ᵥ (u + r ∘ perm))) = q
  rw [hy]
  simp only [add_dotProduct, dotProduct_add, dotProduct_sub, e]
  rw [dotProduct_comm (r ∘ perm) u, dotProduct_comm r u]
  ring

/-- A round is right when the permutation leaves the inner product of the residuals with the fitted values alone. -/
theorem C153_perm_exact_partial {ch : Mat p p → Option (Mat p p)} (hc : CholOk ch) {X : Mat n p} {y u r : Fin n → ℝ} {perm : Equiv.Perm (Fin n)}
    (hy : y = u + r) {z : Fin n → ℝ} {s : ℝ} (h : permS2 ch X y u r perm = some (z, s)) (hpn : p < n) :
    s = rss X z ((Xᵀ * X)⁻¹ *ᵥ (Xᵀ *ᵥ z)) / ((n : ℝ) - p) ↔ u ⬝ᵥ (r ∘ perm) = u ⬝ᵥ r := by
  obtain ⟨-, h2⟩ := C153_perm_partial hc hy h
  have q2 : (0:ℝ) < (n : ℝ) - p := by rw [sub_pos]; exact_mod_cast hpn
  rw [h2, div_left_inj' q2.ne', dotProduct_sub]
  constructor <;> intro e <;> linarith

/-- The error variance of a permutation round can be negative: it subtracts the fit of the permuted response from the sum of
squares of the original one. -/
theorem C153_perm_violated {ch : Mat 2 2 → Option (Mat 2 2)} (hc : CholOk ch) :
    ∃ (X : Mat 3 2) (y u r : Fin 3 → ℝ) (perm : Equiv.Perm (Fin 3)) (z : Fin 3 → ℝ), y = u + r ∧
      u = (fun i => X i 0) ∧ u ⬝ᵥ r = 0 ∧ permS2 ch X y u r perm = some (z, -2) := by
  let X : Mat 3 2 := of ![![1, 0], ![0, 0], ![0, 1]]
  have hG : Xᵀ * X = 1 := by
    ext i j; fin_cases i <;> fin_cases j <;> simp [X, mul_apply, Fin.sum_univ_three]
  refine ⟨X, ![1, 1, 0], ![1, 0, 0], ![0, 1, 0], Equiv.swap 0 1, ![2, 0, 0], ?_, ?_, ?_, ?_⟩
  · funext i; fin_cases i <;> simp
  · funext i; fin_cases i <;> simp [X]
  · simp [dotProduct, Fin.sum_univ_three]
  · obtain ⟨L, hL⟩ := hc.total (Xᵀ * X) (by rw [hG]; exact PosDef.one)
    obtain ⟨a1, a2, a3, a4, a5, a6⟩ := chol_facts hc hL
    have hz : ((![1, 0, 0] : Fin 3 → ℝ) + fun i => (![0, 1, 0] : Fin 3 → ℝ) (Equiv.swap 0 1 i)) = ![2, 0, 0] := by
      funext i; fin_cases i
      · norm_num
      · norm_num
      · have : (Equiv.swap (0 : Fin 3) 1) 2 = 2 := by decide
        simp [this]
    unfold permS2
    simp only [Option.bind_eq_bind, hL, Option.bind_some, a3, hz]
    have e := sse_eq a4 a6 ![2, 0, 0]
    have e2 : rss X ![2, 0, 0] ((Xᵀ * X)⁻¹ *ᵥ (Xᵀ *ᵥ ![2, 0, 0])) = 0 := by
      have hx : (![2, 0, 0] : Fin 3 → ℝ) = X *ᵥ ![2, 0] := by
        funext i; fin_cases i <;> simp [X, mulVec, vec2_dotProduct']
      rw [hx, mulVec_mulVec _ Xᵀ, hG, inv_one, one_mulVec, one_mulVec, rss, sub_self, zero_dotProduct]
    rw [e2] at e
    congr 2
    generalize (L⁻¹ *ᵥ (Xᵀ *ᵥ ![2, 0, 0])) ⬝ᵥ (L⁻¹ *ᵥ (Xᵀ *ᵥ ![2, 0, 0])) = q at *
    have : q = 4 := by
      have : (![2, 0, 0] : Fin 3 → ℝ) ⬝ᵥ ![2, 0, 0] = 4 := by rw [vec3_dotProduct']; norm_num
      linarith
    rw [this, vec3_dotProduct']
    norm_num

theorem tallies_fold {m : ℕ} (abst : Fin m → ℝ) (N : ℕ) (j : Fin m) (ts : List (Fin m → ℝ)) (a : ℝ × ℝ) :
    open Classical in
    ts.foldl (fun a t => (a.1 + (if ∃ l, abst j < t l then 1 else 0) / (N : ℝ), a.2 + (if abst j < t j then 1 else 0) / (N : ℝ))) a =
      (a.1 + (ts.countP fun t => ∃ l, abst j < t l) / (N : ℝ), a.2 + (ts.countP fun t => abst j < t j) / (N : ℝ)) := by
  classical
  induction ts generalizing a with
  | nil => simp
  | cons t ts ih =>
    rw [List.foldl_cons, ih, List.countP_cons, List.countP_cons]
    ext
    · by_cases h : ∃ l, abst j < t l <;> simp [h] <;> ring
    · by_cases h : abst j < t j <;> simp [h] <;> ring

/-- The two permutation `p`-values: the share of rounds whose statistic, or whose largest statistic, exceeds the observed one.  The
familywise one is never smaller. -/
theorem C153_tallies {m : ℕ} (abst : Fin m → ℝ) (ts : List (Fin m → ℝ)) (j : Fin m) :
    open Classical in
    tallies abst ts j = ((ts.countP fun t => ∃ l, abst j < t l) / (ts.length : ℝ), (ts.countP fun t => abst j < t j) / (ts.length : ℝ)) ∧
      0 ≤ (tallies abst ts j).2 ∧ (tallies abst ts j).2 ≤ (tallies abst ts j).1 ∧ (tallies abst ts j).1 ≤ 1 := by
  classical
  have e : tallies abst ts j = ((ts.countP fun t => ∃ l, abst j < t l) / (ts.length : ℝ), (ts.countP fun t => abst j < t j) / (ts.length : ℝ)) := by
    have := tallies_fold abst ts.length j ts (0, 0)
    simp only [zero_add] at this
    rw [tallies, ← this]
  have hm : (ts.countP fun t => abst j < t j) ≤ ts.countP fun t => ∃ l, abst j < t l := by
    refine List.countP_mono_left fun t _ h => ?_
    simp only [decide_eq_true_eq] at h ⊢
    exact ⟨j, h⟩
  refine ⟨by convert e, ?_, ?_, ?_⟩
  · rw [e]; positivity
  · rw [e]
    exact div_le_div_of_nonneg_right (by exact_mod_cast hm) (Nat.cast_nonneg _)
  · rw [e]
    exact div_le_one_of_le₀ (by exact_mod_cast List.countP_le_length) (Nat.cast_nonneg _)

/-- The observation weights do not reach the fit: weighted least squares would put all weight on the first observation and estimate
zero; the fit returns one half. -/
theorem C153_weights_violated {ch : Mat 1 1 → Option (Mat 1 1)} (hc : CholOk ch) :
    ∃ (X : Mat 2 1) (y w : Fin 2 → ℝ) (f : Fit 1), fit ch X y w true = some f ∧
      ∃ b, ∑ i, w i * (y i - (X *ᵥ b) i) ^ 2 < ∑ i, w i * (y i - (X *ᵥ f.beta) i) ^ 2 := by
  let X : Mat 2 1 := of ![![1], ![1]]
  have hu : IsUnit (Xᵀ * X).det := by rw [det_fin_one]; simp [X, mul_apply, Fin.sum_univ_two]
  obtain ⟨f, hf⟩ := (C153_runs hc X ![0, 1] true).2 hu
  refine ⟨X, ![0, 1], ![1, 0], f, hf, 0, ?_⟩
  have h1 := congrFun (C153_fit hc hf).1 0
  simp [X, mulVec, dotProduct, Fin.sum_univ_two] at h1 ⊢
  have : f.beta 0 = 1 / 2 := by linarith
  rw [this]
  norm_num

/-- The hypotheses are satisfiable. -/
example : ∃ (ch : Mat 1 1 → Option (Mat 1 1)) (X : Mat 2 1) (y : Fin 2 → ℝ) (f : Fit 1), CholOk ch ∧ fit2 ch X y true = some f ∧
    0 < f.sse ∧ 0 < neff 2 1 true := by
  obtain ⟨ch, hc⟩ := cholOk_exists 1
  let X : Mat 2 1 := of ![![1], ![1]]
  have hu : IsUnit (Xᵀ * X).det := by rw [det_fin_one]; simp [X, mul_apply, Fin.sum_univ_two]
  obtain ⟨f, hf⟩ := (C153_runs hc X ![0, 1] true).2 hu
  refine ⟨ch, X, ![0, 1], f, hc, hf, ?_, by norm_num [neff]⟩
  obtain ⟨h1, h2, -⟩ := C153_fit hc hf
  have h1 := congrFun h1 0
  simp [X, mulVec, dotProduct, Fin.sum_univ_two] at h1
  have : f.beta 0 = 1 / 2 := by linarith
  rw [h2, rss]
  simp [X, mulVec, dotProduct, Fin.sum_univ_two, this]
  norm_num

end Verif.Like.Ols
