import Verif.Glm.OldLinksProps
/-!
# C209: likelihoods, weights, scale derivatives and residuals of `pylmm/families.py`
-/
namespace Verif.Glm.Old
open Real Set Filter Topology Verif.Glm

/-! ## Specification -/

/-- A link whose inverse has the two derivatives that the code computes, the first never zero. -/
structure GoodInv (l : LinkFns) (M E : Set ℝ) : Prop where
  inverse : Inverse l M E
  isOpen : IsOpen E
  d2 : ∃ f : ℝ → ℝ, (∀ eta, l.dinv eta = some (f eta)) ∧
    ∀ eta ∈ E, f eta ≠ 0 ∧ HasDerivAt l.inv (f eta) eta ∧ HasDerivAt f (l.d2inv eta) eta

/-- `gw` is the derivative in the linear predictor of `_loglike` divided by `c`. -/
def GwOK (F : LFam) (Y M : Set ℝ) (P : ℝ → Prop) (c : ℝ) : Prop :=
  ∀ (l : LinkFns) (Ml E : Set ℝ), GoodInv l Ml E →
    ∀ y ∈ Y, ∀ eta ∈ E, l.inv eta ∈ M → ∀ w > 0, ∀ phi > 0, P phi →
      ∃ g, gwL F l y (l.inv eta) w phi = some g ∧
        HasDerivAt (fun e => F.nll y (l.inv e) w phi) (c * g) eta

/-- `hw` is the derivative of `gw`. -/
def HwOK (F : LFam) (M : Set ℝ) : Prop :=
  ∀ (l : LinkFns) (Ml E : Set ℝ), GoodInv l Ml E →
    ∀ y : ℝ, ∀ eta ∈ E, l.inv eta ∈ M → ∀ w > 0, ∀ phi > 0,
      ∃ (g : ℝ → ℝ) (h : ℝ), (∀ᶠ e in 𝓝 eta, gwL F l y (l.inv e) w phi = some (g e)) ∧
        hwL F l y (l.inv eta) w phi = some h ∧ HasDerivAt g h eta

/-! ## The links -/

theorem goodInv_of {l : LinkFns} {M E : Set ℝ} (hi : Inverse l M E) (ho : IsOpen E)
    (h1 : ∀ mu ∈ M, HasDerivAt l.link (l.d1 mu) mu) (h2 : InvD2 l E) : GoodInv l M E := by
  obtain ⟨f, hf, hd⟩ := h2
  refine ⟨hi, ho, f, hf, fun eta he => ⟨fun h0 => ?_, hd eta he⟩⟩
  have h3 := (h1 _ (hi.2 eta he).1).comp eta (hd eta he).1
  have h4 : HasDerivAt (l.link ∘ l.inv) 1 eta := by
    refine (hasDerivAt_id eta).congr_of_eventuallyEq ?_
    filter_upwards [ho.mem_nhds he] with e he'
    exact (hi.2 e he').2
  have h5 := h3.unique h4
  rw [h0, mul_zero] at h5
  exact zero_ne_one h5

/-- The links of `pylmm`, the power link excepted. -/
theorem C209_links {ndtr ndtri erfinv : ℝ → ℝ} (h : IsNdtr ndtr ndtri erfinv) {k : ℝ}
    (hk : 0 < k) : GoodInv identityO univ univ ∧ GoodInv logitLink (Ioo 0 1) univ ∧
    GoodInv (probitO ndtr ndtri erfinv) (Ioo 0 1) univ ∧ GoodInv logO (Ioi 0) univ ∧
    GoodInv reciprocalO {0}ᶜ {0}ᶜ ∧ GoodInv cloglogO (Ioo 0 1) univ ∧
    GoodInv logCompLink (Iio 1) univ ∧ GoodInv (negBinLink k) (Ioi 0) (Iio 0) := by
  refine ⟨?_, ?_, ?_, ?_, ?_, ?_, ?_, ?_⟩
  · exact goodInv_of C210_identity.1 isOpen_univ (fun m hm => (C210_identity.2.1 m hm).1)
      C210_identity.2.2.2
  · exact goodInv_of C34_logit isOpen_univ (fun m hm => (C35_logit.1 m hm).1) C35_logit.2.2
  · exact goodInv_of (C210_probit_partial h).1 isOpen_univ
      (fun m hm => ((C210_probit_partial h).2.1 m hm).1) (C210_probit_partial h).2.2
  · exact goodInv_of C210_log.1 isOpen_univ (fun m hm => (C210_log.2.1 m hm).1) C210_log.2.2.2
  · exact goodInv_of C210_reciprocal.1 isOpen_compl_singleton
      (fun m hm => (C210_reciprocal.2.1 m hm).1) C210_reciprocal.2.2.2
  · exact goodInv_of C210_cloglog.1 isOpen_univ (fun m hm => (C210_cloglog.2.1 m hm).1)
      C210_cloglog.2.2.2
  · exact goodInv_of C34_logcomp isOpen_univ (fun m hm => (C35_logcomp.1 m hm).1) C35_logcomp.2.2
  · exact goodInv_of (C34_negbin hk) isOpen_Iio
      (fun m hm => negbin_d1 hk hm) (C35_negbin_partial hk).2

/-! ## Weights -/

theorem gw_eq {F : LFam} {l : LinkFns} {M E : Set ℝ} (hl : GoodInv l M E) {f : ℝ → ℝ}
    (hf : ∀ eta, l.dinv eta = some (f eta)) {eta : ℝ} (he : eta ∈ E) (y w phi : ℝ) :
    gwL F l y (l.inv eta) w phi = some (-(w * (y - l.inv eta) /
      (F.canon.var (l.inv eta) 1 * (1 / f eta) * phi))) := by
  simp only [gwL, famDlink, (hl.inverse.2 eta he).2, hf, Option.map_some, Option.bind_eq_bind,
    Option.bind_some]

theorem gw_of {F : LFam} {Y M : Set ℝ} {P : ℝ → Prop} {c : ℝ} (hV : ∀ mu ∈ M, F.canon.var mu 1 ≠ 0)
    (hs : ∀ y ∈ Y, ∀ mu ∈ M, ∀ w > 0, ∀ phi > 0, P phi → HasDerivAt (fun m => F.nll y m w phi)
      (c * (-(w * (y - mu)) / (phi * F.canon.var mu 1))) mu) : GwOK F Y M P c := by
  intro l Ml E hl y hy eta he hM w hw phi hphi hP
  obtain ⟨f, hf, hd⟩ := hl.d2
  obtain ⟨h0, h1, -⟩ := hd eta he
  refine ⟨_, gw_eq hl hf he y w phi, ?_⟩
  refine ((hs y hy _ hM w hw phi hphi hP).comp eta h1).congr_deriv ?_
  have h3 := hV _ hM
  have h4 : phi ≠ 0 := ne_of_gt hphi
  field_simp

theorem hw_of {F : LFam} {M : Set ℝ} (hV : ∀ mu ∈ M, F.canon.var mu 1 ≠ 0)
    (hd2 : D2OK F.canon M) : HwOK F M := by
  intro l Ml E hl y eta he hM w hw phi hphi
  obtain ⟨f, hf, hd⟩ := hl.d2
  obtain ⟨h0, h1, h2⟩ := hd eta he
  obtain ⟨x, hx, hdx⟩ := hd2 1 one_pos _ hM
  have h4 : phi ≠ 0 := ne_of_gt hphi
  refine ⟨fun e => -(w * (y - l.inv e) * (1 / F.canon.var (l.inv e) 1 * f e) / phi),
    -((y - l.inv eta) * (x * f eta ^ 2 + l.d2inv eta * (1 / F.canon.var (l.inv eta) 1)) -
      1 / F.canon.var (l.inv eta) 1 * f eta ^ 2) * w / phi, ?_, ?_, ?_⟩
  · filter_upwards [hl.isOpen.mem_nhds he] with e he'
    rw [gw_eq hl hf he', Option.some.injEq, neg_inj]
    have := (hd e he').1
    rw [one_div, one_div, div_eq_mul_inv, mul_inv, mul_inv, inv_inv]
    ring
  · simp only [hwL, (hl.inverse.2 eta he).2, hf, hx, Option.bind_eq_bind, Option.bind_some,
      Option.some.injEq]
    ring
  · have h5 := hdx.comp eta h1
    refine (((h1.const_sub y).const_mul w).fun_mul (h5.fun_mul h2)).div_const phi
      |>.fun_neg.congr_deriv ?_
    simp only [Function.comp]
    ring

theorem C209_gw_poisson (sp : SpL) : GwOK (poissonL sp) (Ici 0) (Ioi 0) (fun _ => True) 1 := by
  refine gw_of (fun mu hm => ne_of_gt hm) fun y _ mu hm w _ phi hphi _ => ?_
  have hm' : mu ≠ 0 := ne_of_gt hm
  have hp' : phi ≠ 0 := ne_of_gt hphi
  refine ((((hasDerivAt_log hm').const_mul y).fun_sub (hasDerivAt_id mu)).const_mul
    (-(w / phi))).congr_deriv ?_
  simp only [poissonL, poissonC]
  field_simp

theorem C209_gw_binomial (sp : SpL) : GwOK (binomialL sp) (Icc 0 1) (Ioo 0 1) (fun _ => True) 1 := by
  refine gw_of (fun mu hm => (mul_pos hm.1 (sub_pos.2 hm.2)).ne') fun y _ mu hm w _ phi hphi _ => ?_
  obtain ⟨h0, h1⟩ := hm
  have h2 : 0 < 1 - mu := sub_pos.2 h1
  have hp' : phi ≠ 0 := ne_of_gt hphi
  refine ((((hasDerivAt_log h0.ne').const_mul y).fun_add
    (((one_sub_deriv mu).log h2.ne').const_mul (1 - y))).const_mul (-(w / phi))).congr_deriv ?_
  simp only [binomialL, binomialC]
  field_simp
  ring

theorem C209_gw_gamma (sp : SpL) : GwOK (gammaL sp) (Ioi 0) (Ioi 0) (fun _ => True) 1 := by
  refine gw_of (fun mu hm => (pow_pos hm 2).ne') fun y hy mu hm w hw phi hphi _ => ?_
  have hm : 0 < mu := hm
  have hy : 0 < y := hy
  have hw : 0 < w := hw
  have hphi : 0 < phi := hphi
  have h1 := (hasDerivAt_const mu (w / phi * y)).fun_div (hasDerivAt_id mu) hm.ne'
  have h2 := h1.log (by simp only [id]; positivity)
  refine ((h1.fun_sub (h2.const_mul (w / phi))).add_const (sp.gammaln (w / phi))).congr_deriv ?_
  simp only [gammaL, gammaC, id]
  field_simp
  ring

/-- For the Gaussian and inverse Gaussian families `_loglike` is minus *twice* the log-likelihood,
and `gw` half its derivative. -/
theorem C209_gw_gaussian_partial : GwOK gaussianL univ univ (fun _ => True) 2 := by
  refine gw_of (fun mu _ => one_ne_zero) fun y _ mu _ w _ phi hphi _ => ?_
  have hp' : phi ≠ 0 := ne_of_gt hphi
  refine (((((hasDerivAt_id mu).const_sub y).fun_pow 2).const_mul (w / phi)).add_const
    (log (phi / w))).congr_deriv ?_
  simp only [gaussianL, gaussianC, id]
  field_simp
  ring

theorem C209_gw_invGaussian_partial : GwOK invGaussL (Ioi 0) (Ioi 0) (fun _ => True) 2 := by
  refine gw_of (fun mu hm => (pow_pos hm 3).ne') fun y hy mu hm w _ phi hphi _ => ?_
  have hm : 0 < mu := hm
  have hy : 0 < y := hy
  have hp' : phi ≠ 0 := ne_of_gt hphi
  have h1 : HasDerivAt (fun m : ℝ => y * m ^ 2) (y * (2 * mu)) mu :=
    ((hasDerivAt_pow 2 mu).const_mul y).congr_deriv (by norm_num)
  refine ((((((hasDerivAt_id mu).const_sub y).fun_pow 2).const_mul (w / phi)).fun_div h1
    (by positivity)).add_const (log (phi * y ^ 2 / w))).congr_deriv ?_
  simp only [invGaussL, invGaussianL, invGaussianC, id]
  field_simp
  ring

/-- For the negative binomial family the weights are right for scale one. -/
theorem C209_gw_negBinomial_partial (sp : SpL) :
    GwOK (negBinL sp) (Ici 0) (Ioi 0) (fun phi => phi = 1) 1 := by
  refine gw_of (fun mu hm => ?_) ?_
  · have hm : 0 < mu := hm
    simp only [negBinL, negBinomialC]; positivity
  · rintro y - mu hm w - phi - rfl
    have hm : 0 < mu := hm
    have h1 : HasDerivAt (fun m : ℝ => 1 * m) 1 mu :=
      ((hasDerivAt_id mu).const_mul 1).congr_deriv (by norm_num)
    have h2 := ((h1.const_add 1).log (by positivity)).const_mul (y + 1 / 1)
    have h3 := (h1.log (by positivity)).const_mul y
    refine (((h2.fun_sub h3).add_const (sp.gammaln (1 / 1) - sp.gammaln (y + 1 / 1))).mul_const
      (w / 1)).congr_deriv ?_
    simp only [negBinL, negBinomialC]
    field_simp
    ring

theorem C209_hw_poisson (sp : SpL) : HwOK (poissonL sp) (Ioi 0) :=
  hw_of (fun _ hm => ne_of_gt hm) C208_poisson.2.1

theorem C209_hw_binomial (sp : SpL) : HwOK (binomialL sp) (Ioo 0 1) :=
  hw_of (fun _ hm => (mul_pos hm.1 (sub_pos.2 hm.2)).ne') C208_binomial.2.1

theorem C209_hw_gamma (sp : SpL) : HwOK (gammaL sp) (Ioi 0) :=
  hw_of (fun _ hm => (pow_pos hm 2).ne') C208_gamma.2.1

theorem C209_hw_negBinomial (sp : SpL) : HwOK (negBinL sp) (Ioi 0) :=
  hw_of (fun mu hm => by
    have hm : 0 < mu := hm
    simp only [negBinL, negBinomialC]; positivity) C208_negBinomial_partial.1

/-- Gaussian with the identity link: `hw` depends on the response; the derivative of `gw` is
`w / phi`. -/
theorem C209_hw_gaussian_violated (y mu w phi : ℝ) :
    hwL gaussianL identityO y mu w phi = some (w * (1 - (y - mu)) / phi) ∧
    ∃ g : ℝ → ℝ, (∀ e, gwL gaussianL identityO y (identityO.inv e) w phi = some (g e)) ∧
      HasDerivAt g (w / phi) mu := by
  refine ⟨?_, fun e => -(w * (y - e) / phi), fun e => ?_, ?_⟩
  · simp only [hwL, gaussianL, gaussianC, identityO, identityLink, Option.bind_eq_bind,
      Option.bind_some, Option.some.injEq]
    ring
  · simp [gwL, famDlink, gaussianL, gaussianC, identityO, identityLink]
  · refine ((((hasDerivAt_id mu).const_sub y).const_mul w).div_const phi).fun_neg.congr_deriv ?_
    ring

theorem C209_hw_gaussian_spec_violated : ¬ HwOK gaussianL univ := by
  intro h
  have hid : GoodInv identityO univ univ :=
    goodInv_of C210_identity.1 isOpen_univ (fun m hm => (C210_identity.2.1 m hm).1)
      C210_identity.2.2.2
  obtain ⟨g, v, hg, hv, hd⟩ := h identityO univ univ hid 1 0 trivial trivial 1 one_pos 1 one_pos
  obtain ⟨h1, g', hg', hd'⟩ := C209_hw_gaussian_violated 1 0 1 1
  have e : v = 0 := by
    have : identityO.inv 0 = 0 := rfl
    rw [this, h1] at hv
    have := Option.some.inj hv
    linarith
  have h2 : HasDerivAt g (1 / 1) 0 := hd'.congr_of_eventuallyEq (by
    filter_upwards [hg] with x hx
    rw [hg' x] at hx
    exact (Option.some.inj hx).symm)
  have := hd.unique h2
  rw [e] at this
  norm_num at this

/-- Inverse Gaussian: `hw` is not a number. -/
theorem C209_hw_invGaussian_violated (l : LinkFns) (y w phi : ℝ) {mu : ℝ} (h : 0 < mu) :
    hwL invGaussL l y mu w phi = none := by
  have h1 : invGaussL.canon.d2c mu 1 = none := if_neg (not_lt.2 h.le)
  simp only [hwL, h1]
  cases l.dinv (l.link mu) <;> rfl

/-- Negative binomial with scale other than one: `gw` uses the variance of scale one and divides by
the scale once more.  With the log link, `y = 0`, `mu = w = 1`, scale 3: derivative `1/4`, `gw`
`1/6`. -/
theorem C209_gw_negBinomial_violated (sp : SpL) :
    gwL (negBinL sp) logO 0 1 1 3 = some (1 / 6) ∧
    HasDerivAt (fun e => (negBinL sp).nll 0 (logO.inv e) 1 3) (1 / 4) 0 := by
  refine ⟨?_, ?_⟩
  · simp only [gwL, famDlink, negBinL, negBinomialC, logO, logLink, Option.map_some,
      Option.bind_eq_bind, Option.bind_some, Option.some.injEq, log_one, exp_zero]
    norm_num
  · have h1 := (((hasDerivAt_exp 0).const_mul 3).const_add 1)
    have h2 := (h1.log (by positivity)).const_mul (0 + 1 / 3)
    have h3 := ((((hasDerivAt_exp 0).const_mul 3).log (by positivity)).const_mul 0)
    refine (((h2.fun_sub h3).add_const (sp.gammaln (1 / 3) - sp.gammaln (0 + 1 / 3))).mul_const
      (1 / 1)).congr_deriv ?_
    rw [exp_zero]; norm_num

/-! ## Densities -/

/-- `_loglike` and `_full_loglike` of the Gaussian family are minus twice the log density; those of
the other families minus the log density (see C68 for the densities). -/
theorem C209_units_partial (sp : SpL) (y mu w s k : ℝ) :
    gaussianL.nll y mu w s = 2 * gaussian.nll y mu w s k ∧
    gaussianL.full y mu w s = 2 * gaussian.full y mu w s k ∧
    (gammaL sp).full y mu w s = (gamma sp.toSp).full y mu w s k ∧
    (negBinL sp).full y mu w k = (negBinomial sp.toSp).full y mu w s k ∧
    (binomialL sp).full y mu w s = (binomial sp.toSp).full y mu w s k ∧
    (log (sp.factorial y) = sp.gammaln (y + 1) →
      (poissonL sp).full y mu w s = (poisson sp.toSp).full y mu w s k) := by
  refine ⟨?_, ?_, rfl, ?_, rfl, fun h => ?_⟩
  · simp only [gaussianL, gaussian, one_div_div]; ring
  · simp only [gaussianL, gaussian, one_div_div]; ring
  · simp only [negBinL, negBinomial]; ring
  · simp only [poissonL, poisson, h]

/-- Minus the log density is returned by one family and minus twice the log density by another. -/
theorem C209_units_violated (sp : SpL) (hsp : IsSp sp.toSp) :
    gaussianL.full 0 0 1 1 ≠ gaussian.full 0 0 1 1 1 ∧
    (gammaL sp).full 1 1 1 1 = (gamma sp.toSp).full 1 1 1 1 1 ∧
    exp (-(gammaL sp).full 1 1 1 1) = ProbabilityTheory.gammaPDFReal 1 1 1 ∧
    exp (-gaussianL.full 0 0 1 1 / 2) = ProbabilityTheory.gaussianPDFReal 0 1 0 := by
  have h := C68_gaussian (y := 0) (mu := 0) (k := 1) one_pos one_pos
  have e : gaussianL.full 0 0 1 1 = 2 * gaussian.full 0 0 1 1 1 :=
    (C209_units_partial sp 0 0 1 1 1).2.1
  refine ⟨?_, rfl, ?_, ?_⟩
  · simp only [gaussianL, gaussian, ln2pi]
    have h2 : 0 < log (2 * π) := log_pos (by linarith [two_le_pi])
    norm_num
    intro h3
    have : log (2 * π) = log 2 + log π := log_mul two_ne_zero pi_ne_zero
    linarith
  · have := C68_gamma hsp (y := 1) (mu := 1) (w := 1) (phi := 1) (k := 1) one_pos one_pos one_pos
      one_pos
    rw [div_one, div_one] at this
    exact this
  · rw [e, show -(2 * gaussian.full 0 0 1 1 1) / 2 = -gaussian.full 0 0 1 1 1 by ring, h]
    congr 1
    apply NNReal.eq
    show (1 : ℝ) / 1 = 1
    norm_num

/-- Inverse Gaussian: `exp(-_full_loglike / 2)` is the density times the square root of `y`, the
power of `y` in the logarithm being two and not three. -/
theorem C209_invGaussian_density_violated {y mu w s : ℝ} (hy : 0 < y) (hw : 0 < w) (hs : 0 < s) :
    exp (-invGaussL.full y mu w s / 2) = sqrt y *
      (sqrt (w / s / (2 * π * y ^ 3)) * exp (-(w / s * (y - mu) ^ 2 / (2 * mu ^ 2 * y)))) := by
  rw [← C68_invGaussian (mu := mu) (k := 1) hy hw hs, ← exp_log (sqrt_pos.2 hy), ← exp_add,
    exp_eq_exp, log_sqrt hy.le]
  simp only [invGaussL, invGaussian]
  have e : log (s * y ^ 3 / w) = log (s * y ^ 2 / w) + log y := by
    rw [← log_mul (by positivity) hy.ne']; congr 1; ring
  have e2 : w / s * (y - mu) ^ 2 / (y * mu ^ 2) = w * (y - mu) ^ 2 / (y * mu ^ 2 * s) := by
    rw [div_mul_eq_mul_div, div_div, mul_comm s]
  rw [e, e2]
  ring

/-! ## Derivatives in the log scale -/

/-- Gaussian and inverse Gaussian: `dtau` is the derivative of `_loglike`; `d2tau` half the second
derivative. -/
theorem C209_tau_partial {y mu w : ℝ} (hw : 0 < w) (tau : ℝ) :
    (∃ g h, (∀ t, gaussianL.dtau t y mu w = some (g t)) ∧ gaussianL.d2tau tau y mu w = some h ∧
      HasDerivAt (fun t => gaussianL.nll y mu w (exp t)) (g tau) tau ∧
      HasDerivAt g (2 * h) tau) ∧
    (0 < y → 0 < mu → ∃ g h, (∀ t, invGaussL.dtau t y mu w = some (g t)) ∧
      invGaussL.d2tau tau y mu w = some h ∧
      HasDerivAt (fun t => invGaussL.nll y mu w (exp t)) (g tau) tau ∧
      HasDerivAt g (2 * h) tau) := by
  have he := exp_pos tau
  have h1 := hasDerivAt_div_exp w tau
  refine ⟨⟨_, _, fun _ => rfl, rfl, ?_, ?_⟩, fun hy hm => ⟨_, _, fun _ => rfl, rfl, ?_, ?_⟩⟩
  · have h2 := ((hasDerivAt_exp tau).div_const w).log (by positivity)
    refine ((h1.mul_const ((y - mu) ^ 2)).fun_add h2).congr_deriv ?_
    field_simp
    ring
  · refine ((hasDerivAt_div_exp (w * (y - mu) ^ 2) tau).sub_const 1).fun_neg.congr_deriv ?_
    field_simp
  · have h2 := (((hasDerivAt_exp tau).mul_const (y ^ 2)).div_const w).log (by positivity)
    refine (((h1.mul_const ((y - mu) ^ 2)).div_const (y * mu ^ 2)).fun_add h2).congr_deriv ?_
    field_simp
    ring
  · have h2 := (hasDerivAt_const tau (w * (y - mu) ^ 2)).fun_div
      (((hasDerivAt_exp tau).mul_const y).mul_const (mu ^ 2)) (by positivity)
    refine (h2.sub_const 1).fun_neg.congr_deriv ?_
    field_simp
    ring

/-- `d2tau` of the Gaussian family is not the derivative of `dtau` unless `y = mu`. -/
theorem C209_d2tau_gaussian_violated {y mu w : ℝ} (hw : 0 < w) (hy : y ≠ mu) (tau : ℝ)
    {g : ℝ → ℝ} {h : ℝ} (hg : ∀ t, gaussianL.dtau t y mu w = some (g t))
    (hh : gaussianL.d2tau tau y mu w = some h) : ¬ HasDerivAt g h tau := by
  intro hd
  obtain ⟨g', h', e1, e2, -, h3⟩ := (C209_tau_partial (y := y) (mu := mu) hw tau).1
  have eg : g = g' := by
    funext t
    have := hg t
    rw [e1 t] at this
    exact (Option.some.inj this).symm
  rw [hh] at e2
  obtain rfl := Option.some.inj e2
  rw [eg] at hd
  have h4 := hd.unique h3
  have h5 : h = 0 := by linarith
  rw [h5] at hh
  have h6 := Option.some.inj hh
  have : 0 < w * (y - mu) ^ 2 / (2 * exp tau) := by
    have := exp_pos tau
    have : 0 < (y - mu) ^ 2 := by
      have := sub_ne_zero.2 hy
      positivity
    positivity
  linarith

/-- Gamma: both are right. -/
theorem C209_tau_gamma {sp : SpL} (hsp : IsSp sp.toSp) {y mu w : ℝ} (hy : 0 < y) (hm : 0 < mu)
    (hw : 0 < w) (tau : ℝ) : ∃ g h, (∀ t, (gammaL sp).dtau t y mu w = some (g t)) ∧
      (gammaL sp).d2tau tau y mu w = some h ∧
      HasDerivAt (fun t => (gammaL sp).nll y mu w (exp t)) (g tau) tau ∧ HasDerivAt g h tau := by
  have he := exp_pos tau
  have h1 := hasDerivAt_div_exp w tau
  have hp : 0 < w / exp tau := div_pos hw he
  have hg := (hsp.digamma _ hp).comp tau h1
  have hd := (hsp.trigamma _ hp).comp tau h1
  have h2 := (h1.mul_const y).div_const mu
  have h3 := h2.log (by positivity)
  have elog : ∀ t : ℝ, log (w * y / (exp t * mu)) = log (w / exp t * y / mu) := by
    intro t; congr 1; have := exp_ne_zero t; field_simp
  have h4 : HasDerivAt (fun t => log (w * y / (exp t * mu))) (-1) tau := by
    simp only [elog]
    refine h3.congr_deriv ?_
    field_simp
  refine ⟨_, _, fun _ => rfl, rfl, ?_, ?_⟩
  · refine ((h2.fun_sub (h1.fun_mul h3)).fun_add hg).congr_deriv ?_
    rw [elog]
    generalize log (w / exp tau * y / mu) = L
    generalize sp.digamma (w / exp tau) = D
    field_simp
    ring
  · refine (h1.fun_mul ((h4.fun_add (hasDerivAt_const tau (1 - y / mu))).fun_add
      hd.fun_neg)).congr_deriv ?_
    simp only [Function.comp]
    generalize log (w * y / (exp tau * mu)) = L
    generalize sp.digamma (w / exp tau) = D
    generalize sp.trigamma (w / exp tau) = T
    field_simp
    ring

/-- Negative binomial: `dtau` is the derivative exactly when `mu = 1` or `y = mu`. -/
theorem C209_dtau_negBinomial {sp : SpL} (hsp : IsSp sp.toSp) {y mu w : ℝ} (hy : 0 ≤ y)
    (hm : 0 < mu) (hw : 0 < w) (tau : ℝ) {g : ℝ} (hg : (negBinL sp).dtau tau y mu w = some g) :
    HasDerivAt (fun t => (negBinL sp).nll y mu w (exp t)) g tau ↔ mu = 1 ∨ y = mu := by
  obtain ⟨g', h', e1, h2⟩ := C67_negBinomial hsp
  have h3 := (h2 y hy mu hm w hw tau).1
  have e2 : (fun t => (negBinL sp).nll y mu w (exp t)) =
      fun t => (negBinomial sp.toSp).nll y mu w 1 (exp t) := by
    funext t; simp only [negBinL, negBinomial]; ring
  have e3 : g' tau y mu w = _ := (Option.some.inj (e1 tau y mu w).1).symm
  have e4 : g = _ := (Option.some.inj hg).symm
  have he := exp_pos tau
  have key : g = g' tau y mu w ↔ mu = 1 ∨ y = mu := by
    rw [e3, e4]
    generalize exp tau = p at he
    generalize sp.digamma (y + 1 / p) = D1
    generalize sp.digamma (1 / p) = D2
    generalize log (1 + p * mu) = L
    have hp1 : 0 < 1 + p * mu := by positivity
    have h5 : (w / p * (D1 - L - D2 - p * (y - mu) / ((1 + p) * mu)) =
        -(w / p) * (p * (y - mu) / (1 + p * mu) + L + -D1 + D2)) ↔
        p * (y - mu) / ((1 + p) * mu) = p * (y - mu) / (1 + p * mu) := by
      have hwp : w / p ≠ 0 := (div_pos hw he).ne'
      rw [show -(w / p) * (p * (y - mu) / (1 + p * mu) + L + -D1 + D2) =
        w / p * (D1 - L - D2 - p * (y - mu) / (1 + p * mu)) by ring, mul_right_inj' hwp]
      constructor <;> intro h <;> linarith
    refine h5.trans ?_
    rw [div_eq_div_iff (by positivity) hp1.ne']
    constructor
    · intro h
      have h6 : p * ((y - mu) * (1 - mu)) = 0 := by linarith
      rcases mul_eq_zero.1 h6 with h7 | h7
      · exact absurd h7 he.ne'
      · rcases mul_eq_zero.1 h7 with h8 | h8
        · right; linarith
        · left; linarith
    · rintro (h | h)
      · rw [h]; ring
      · rw [h]; ring
  rw [← key, e2]
  exact ⟨fun h => h.unique h3, fun h => h ▸ h3⟩

/-- Negative binomial: `d2tau` is not the second derivative, whatever the special functions. -/
theorem C209_d2tau_negBinomial_violated {sp : SpL} (hsp : IsSp sp.toSp) :
    (negBinL sp).d2tau 0 0 1 1 = some (log 2 - 3 / 2) ∧
    ∃ g, (∀ t, HasDerivAt (fun t => (negBinL sp).nll 0 1 1 (exp t)) (g t) t) ∧
      HasDerivAt g (log 2 - 3 / 4) 0 := by
  obtain ⟨g', h', e1, h2⟩ := C67_negBinomial hsp
  refine ⟨?_, fun t => g' t 0 1 1, fun t => ?_, ?_⟩
  · simp only [negBinL, exp_zero, Option.some.injEq]
    norm_num
  · have e2 : (fun t => (negBinL sp).nll 0 1 1 (exp t)) =
        fun t => (negBinomial sp.toSp).nll 0 1 1 1 (exp t) := by
      funext t; simp only [negBinL, negBinomial]; ring
    rw [e2]
    exact (h2 0 (mem_Ici.2 (le_refl 0)) 1 (mem_Ioi.2 one_pos) 1 one_pos t).1
  · refine (h2 0 (mem_Ici.2 (le_refl 0)) 1 (mem_Ioi.2 one_pos) 1 one_pos 0).2.congr_deriv ?_
    rw [(Option.some.inj (e1 0 0 1 1).2).symm]
    simp only [exp_zero]
    norm_num

/-! ## Residuals and the derivative of the link -/

/-- The deviances are those of `pyglm2` (C37), and so are the signed residuals (C66). -/
theorem C209_deviance (sp : SpL) (y mu w s k : ℝ) :
    gaussianL.dev y mu w s = gaussian.dev y mu w s k ∧
    invGaussL.dev y mu w s = invGaussian.dev y mu w s k ∧
    (gammaL sp).dev y mu w s = (gamma sp.toSp).dev y mu w s k ∧
    (poissonL sp).dev y mu w s = (poisson sp.toSp).dev y mu w s k ∧
    (binomialL sp).dev y mu w s = (binomial sp.toSp).dev y mu w s k ∧
    (negBinL sp).dev y mu w k = (negBinomial sp.toSp).dev y mu w s k ∧
    signedL gaussianL y mu w = devianceResid gaussian y mu w 1 k ∧
    signedL (poissonL sp) y mu w = devianceResid (poisson sp.toSp) y mu w 1 k ∧
    signedL (negBinL sp) y mu w = devianceResid (negBinomial sp.toSp) y mu w s 1 :=
  ⟨rfl, rfl, rfl, rfl, rfl, rfl, rfl, rfl, rfl⟩

/-- Gaussian: the Pearson residual is the standardised residual. -/
theorem C209_pearson_partial (y mu : ℝ) :
    pearsonL gaussianL y mu = some ((y - mu) / sqrt (gaussianL.canon.var mu 1)) := rfl

/-- Poisson: the residual is divided by the root of `exp(mu)` instead of `mu`, which is never the
same. -/
theorem C209_pearson_poisson_violated (sp : SpL) {y mu : ℝ} (hy : y ≠ mu) (hm : 0 < mu) :
    pearsonL (poissonL sp) y mu = some ((y - mu) / sqrt (exp mu)) ∧
    (y - mu) / sqrt (exp mu) ≠ (y - mu) / sqrt mu := by
  refine ⟨rfl, fun h => ?_⟩
  have h1 := sub_ne_zero.2 hy
  have h2 : 0 < sqrt mu := sqrt_pos.2 hm
  have h3 : 0 < sqrt (exp mu) := sqrt_pos.2 (exp_pos mu)
  rw [div_eq_div_iff h3.ne' h2.ne', mul_right_inj' h1] at h
  rw [sqrt_inj hm.le (exp_pos mu).le] at h
  have := add_one_le_exp mu
  linarith

/-- Gamma: the residual is multiplied by the mean instead of divided by it. -/
theorem C209_pearson_gamma_violated (sp : SpL) {y mu : ℝ} (hm : 0 < mu) :
    pearsonL (gammaL sp) y mu = some ((y - mu) * mu) := by
  show some ((y - mu) / sqrt ((-1 / mu) ^ 2)) = _
  rw [sqrt_sq_eq_abs, abs_div, abs_neg, abs_one, abs_of_pos hm]
  simp

/-- Inverse Gaussian: not a number. -/
theorem C209_pearson_invGaussian_violated {y mu : ℝ} (hm : 0 < mu) :
    pearsonL invGaussL y mu = none := by
  have h : invGaussL.canon.mean mu 1 = none := if_neg (not_lt.2 hm.le)
  simp [pearsonL, h]

/-- `dlink` is the derivative of the link. -/
theorem C209_dlink {l : LinkFns} {M E : Set ℝ} (hl : GoodInv l M E) (hM : IsOpen M) {mu : ℝ}
    (hm : mu ∈ M) (hc : DifferentiableAt ℝ l.link mu) :
    ∃ g, famDlink l mu = some g ∧ HasDerivAt l.link g mu := by
  obtain ⟨f, hf, hd⟩ := hl.d2
  obtain ⟨he, hi⟩ := hl.inverse.1 mu hm
  obtain ⟨h0, h1, -⟩ := hd _ he
  refine ⟨1 / f (l.link mu), by simp [famDlink, hf], hc.hasDerivAt.congr_deriv ?_⟩
  have h2 := h1.comp mu hc.hasDerivAt
  have h3 : HasDerivAt (l.inv ∘ l.link) 1 mu := by
    refine (hasDerivAt_id mu).congr_of_eventuallyEq ?_
    filter_upwards [hM.mem_nhds hm] with m hm'
    exact (hl.inverse.1 m hm').2
  rw [eq_div_iff h0, mul_comm]
  exact h2.unique h3

/-- `d2link` would be the second derivative of the link if it had called the link … -/
theorem C209_d2link_partial {l : LinkFns} {M E : Set ℝ} (hl : GoodInv l M E) (hM : IsOpen M)
    {mu : ℝ} (hm : mu ∈ M) (hc : ∀ m ∈ M, DifferentiableAt ℝ l.link m) :
    ∃ (g : ℝ → ℝ) (h : ℝ), (∀ m, famDlink l m = some (g m)) ∧
      famD2link (some l.link) l mu = some h ∧ HasDerivAt g h mu := by
  obtain ⟨f, hf, hd⟩ := hl.d2
  obtain ⟨he, hi⟩ := hl.inverse.1 mu hm
  obtain ⟨h0, -, h2⟩ := hd _ he
  obtain ⟨x, hx, hl1⟩ := C209_dlink hl hM hm (hc mu hm)
  have hx' : x = 1 / f (l.link mu) := by
    simp only [famDlink, hf, Option.map_some, Option.some.injEq] at hx
    exact hx.symm
  rw [hx'] at hl1
  refine ⟨fun m => 1 / f (l.link m), -l.d2inv (l.link mu) / f (l.link mu) ^ 3,
    fun m => by simp [famDlink, hf], by simp [famD2link, hf], ?_⟩
  have h3 := h2.comp mu hl1
  refine ((hasDerivAt_const mu (1 : ℝ)).fun_div h3 h0).congr_deriv ?_
  simp only [Function.comp]
  field_simp
  ring

/-- … but it raises for every family and link. -/
theorem C209_d2link_violated (l : LinkFns) (mu : ℝ) : famD2link codeSelfLink l mu = none := rfl

/-- The contract on the special functions is satisfiable. -/
example : ∃ sp : SpL, IsSp sp.toSp :=
  let ⟨sp, h⟩ := C67_contract
  ⟨{ sp with polygamma2 := fun _ => 0, factorial := fun _ => 1 }, h⟩

end Verif.Glm.Old
