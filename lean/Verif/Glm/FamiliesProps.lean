import Verif.Glm.Families
import Verif.Glm.LinksProps
/-!
# C36: variance derivatives and gradient/Hessian weights of the families
-/
namespace Verif.Glm
open Real Set

/-! ## Specification -/

/-- A differentiable link with correct first two derivatives, `link : M → E` with inverse. -/
structure GoodLink (l : LinkFns) (M E : Set ℝ) : Prop where
  inverse : Inverse l M E
  isOpen : IsOpen E
  deriv : ∀ mu ∈ M, HasDerivAt l.link (l.d1 mu) mu ∧ HasDerivAt l.d1 (l.d2 mu) mu
  diff : ∀ eta ∈ E, DifferentiableAt ℝ l.inv eta

/-- All variance-function derivatives of a family are right on the mean space `M`, and
`var_derivs` returns the same values as the separate methods. -/
def VarOK (F : Family) (M : Set ℝ) : Prop :=
  ∀ mu ∈ M, ∀ k > 0, 0 < F.var mu k ∧ F.V0 mu k = F.var mu k ∧ F.V1 mu k = F.dvar mu k ∧
    F.V2 mu k = F.d2var mu k ∧ F.V3 mu k = F.d3var mu k ∧ F.V4 mu k = F.d4var mu k ∧
    HasDerivAt (fun m => F.var m k) (F.dvar mu k) mu ∧
    HasDerivAt (fun m => F.dvar m k) (F.d2var mu k) mu ∧
    HasDerivAt (fun m => F.d2var m k) (F.d3var mu k) mu ∧
    HasDerivAt (fun m => F.d3var m k) (F.d4var mu k) mu ∧
    HasDerivAt (fun m => F.V0 m k) (F.V1 mu k) mu

/-- `gw` is the derivative in the linear predictor of `_loglike`, `hw` the derivative of `gw`, and
`get_ghw` returns both; for sample space `Y`, mean space `M` and scales satisfying `P`. -/
def WeightsOK (F : Family) (Y M : Set ℝ) (P : ℝ → Prop) : Prop :=
  ∀ (l : LinkFns) (Ml E : Set ℝ), GoodLink l Ml E →
    ∀ y ∈ Y, ∀ eta ∈ E, l.inv eta ∈ M → ∀ w > 0, ∀ phi > 0, P phi → ∀ k > 0,
      HasDerivAt (fun e => F.nll y (l.inv e) w phi k) (gw F l y (l.inv eta) w phi k) eta ∧
      HasDerivAt (fun e => gw F l y (l.inv e) w phi k) (hw F l y (l.inv eta) w phi k) eta ∧
      getGhw F l y (l.inv eta) w phi k =
        (gw F l y (l.inv eta) w phi k, hw F l y (l.inv eta) w phi k)

/-! ## The links -/

theorem GoodLink.inv_deriv {l : LinkFns} {M E : Set ℝ} (h : GoodLink l M E) {eta : ℝ}
    (he : eta ∈ E) : l.d1 (l.inv eta) ≠ 0 ∧ HasDerivAt l.inv (1 / l.d1 (l.inv eta)) eta := by
  have h1 := (h.diff eta he).hasDerivAt
  have h2 := (h.deriv _ (h.inverse.2 eta he).1).1.comp eta h1
  have h3 : HasDerivAt (l.link ∘ l.inv) 1 eta := by
    refine (hasDerivAt_id eta).congr_of_eventuallyEq ?_
    filter_upwards [h.isOpen.mem_nhds he] with e he'
    exact (h.inverse.2 e he').2
  have h4 := h2.unique h3
  have h5 : l.d1 (l.inv eta) ≠ 0 := fun h0 => by rw [h0, zero_mul] at h4; exact zero_ne_one h4
  refine ⟨h5, h1.congr_deriv ?_⟩
  rw [eq_div_iff h5, mul_comm]; exact h4

theorem good_of {l : LinkFns} {M E : Set ℝ} (hi : Inverse l M E) (ho : IsOpen E)
    (hd : LinkD3 l M) (h2 : InvD2 l E) : GoodLink l M E := by
  obtain ⟨f, -, hf⟩ := h2
  exact ⟨hi, ho, fun mu hm => ⟨(hd mu hm).1, (hd mu hm).2.1⟩,
    fun eta he => (hf eta he).1.differentiableAt⟩

theorem good_identity : GoodLink identityLink univ univ :=
  ⟨C34_identity, isOpen_univ, fun mu hm => ⟨(C35_identity_partial.1 mu hm).1,
    (C35_identity_partial.1 mu hm).2.1⟩, fun _ _ => differentiableAt_id⟩
theorem good_logit : GoodLink logitLink (Ioo 0 1) univ :=
  good_of C34_logit isOpen_univ C35_logit.1 C35_logit.2.2
theorem good_log : GoodLink logLink (Ioi 0) univ :=
  good_of C34_log isOpen_univ C35_log.1 C35_log.2.2
theorem good_reciprocal : GoodLink reciprocalLink {0}ᶜ {0}ᶜ :=
  good_of C34_reciprocal isOpen_compl_singleton C35_reciprocal.1 C35_reciprocal.2.2
theorem good_cloglog : GoodLink cloglogLink (Ioo 0 1) univ :=
  good_of C34_cloglog isOpen_univ C35_cloglog.1 C35_cloglog.2.2
theorem good_logcomp : GoodLink logCompLink (Iio 1) univ :=
  good_of C34_logcomp isOpen_univ C35_logcomp.1 C35_logcomp.2.2
theorem good_probit {ndtr ndtri erfinv : ℝ → ℝ} (h : IsNdtr ndtr ndtri erfinv) :
    GoodLink (probitLink ndtr ndtri erfinv) (Ioo 0 1) univ :=
  good_of (C34_probit h) isOpen_univ (C35_probit_partial h).1 (C35_probit_partial h).2
theorem good_power {α : ℝ} (hα : α ≠ 0) : GoodLink (powerLink α) (Ioi 0) (Ioi 0) := by
  obtain ⟨f, -, hf⟩ := (C35_power hα).2.2
  exact ⟨C34_power hα, isOpen_Ioi, fun mu hm => ⟨((C35_power hα).1 mu hm).1,
    ((C35_power hα).1 mu hm).2.1⟩, fun eta he => (hf eta he).differentiableAt⟩

/-! ## Generic argument -/

theorem weights_of {F : Family} {Y M : Set ℝ} {P : ℝ → Prop} (hV : VarOK F M)
    (hs : ∀ y ∈ Y, ∀ mu ∈ M, ∀ w > 0, ∀ phi > 0, P phi → ∀ k > 0,
      HasDerivAt (fun m => F.nll y m w phi k) (-(w * (y - mu)) / (phi * F.var mu k)) mu) :
    WeightsOK F Y M P := by
  intro l Ml E hl y hy eta he hM w hw0 phi hphi hP k hk
  obtain ⟨hg, hinv⟩ := hl.inv_deriv he
  obtain ⟨hv, e0, e1, -, -, -, d1, -⟩ := hV _ hM k hk
  have hl2 := (hl.deriv _ (hl.inverse.2 eta he).1).2
  have hv' := hv.ne'
  have hw' : w ≠ 0 := ne_of_gt hw0
  have hphi' : phi ≠ 0 := ne_of_gt hphi
  refine ⟨?_, ?_, ?_⟩
  · have := (hs y hy _ hM w hw0 phi hphi hP k hk).comp eta hinv
    refine this.congr_deriv ?_
    simp only [gw, variance]
    field_simp
  · have hden : F.var (l.inv eta) k * phi / w * l.d1 (l.inv eta) ≠ 0 :=
      mul_ne_zero (div_ne_zero (mul_ne_zero hv' hphi') hw') hg
    have h1 : HasDerivAt (fun m => gw F l y m w phi k)
        (hw F l y (l.inv eta) w phi k * l.d1 (l.inv eta)) (l.inv eta) := by
      refine ((((hasDerivAt_id _).const_sub y).fun_neg.fun_div
        (((d1.mul_const phi).div_const w).fun_mul hl2) hden)).congr_deriv ?_
      simp only [hw, e0, e1, id]
      field_simp
      ring
    refine (h1.comp eta hinv).congr_deriv ?_
    rw [mul_assoc, mul_one_div_cancel hg, mul_one]
  · simp only [getGhw, gw, hw, variance, Prod.mk.injEq, and_true, e0]
    field_simp

/-! ## Variance functions -/

theorem C36_var_gaussian : VarOK gaussian univ := by
  intro mu _ k _
  refine ⟨one_pos, rfl, rfl, rfl, rfl, rfl, ?_⟩
  exact ⟨hasDerivAt_const _ _, hasDerivAt_const _ _, hasDerivAt_const _ _, hasDerivAt_const _ _,
    hasDerivAt_const _ _⟩

theorem C36_var_invGaussian : VarOK invGaussian (Ioi 0) := by
  intro mu hm k _
  have hm : 0 < mu := hm
  have h3 : HasDerivAt (fun m : ℝ => m ^ 3) (3 * mu ^ 2) mu :=
    (hasDerivAt_pow 3 mu).congr_deriv (by norm_num)
  have h2 : HasDerivAt (fun m : ℝ => 3 * m ^ 2) (6 * mu) mu :=
    ((hasDerivAt_pow 2 mu).const_mul 3).congr_deriv (by push_cast; ring)
  have h1 : HasDerivAt (fun m : ℝ => 6 * m) 6 mu :=
    ((hasDerivAt_id mu).const_mul 6).congr_deriv (by ring)
  exact ⟨pow_pos hm 3, rfl, rfl, rfl, rfl, rfl, h3, h2, h1, hasDerivAt_const _ _, h3⟩

theorem C36_var_gamma (sp : Sp) : VarOK (gamma sp) (Ioi 0) := by
  intro mu hm k _
  have hm : 0 < mu := hm
  have h2 : HasDerivAt (fun m : ℝ => m ^ 2) (2 * mu) mu :=
    (hasDerivAt_pow 2 mu).congr_deriv (by norm_num)
  have h1 : HasDerivAt (fun m : ℝ => 2 * m) 2 mu :=
    ((hasDerivAt_id mu).const_mul 2).congr_deriv (by ring)
  exact ⟨pow_pos hm 2, rfl, rfl, rfl, rfl, rfl, h2, h1, hasDerivAt_const _ _,
    hasDerivAt_const _ _, h2⟩

theorem C36_var_negBinomial (sp : Sp) : VarOK (negBinomial sp) (Ioi 0) := by
  intro mu hm k hk
  have hm : 0 < mu := hm
  have hk : 0 < k := hk
  have h2 : HasDerivAt (fun m : ℝ => m + m ^ 2 * k) (2 * k * mu + 1) mu :=
    ((hasDerivAt_id mu).fun_add ((hasDerivAt_pow 2 mu).mul_const k)).congr_deriv
      (by push_cast; ring)
  have h1 : HasDerivAt (fun m : ℝ => 2 * k * m + 1) (2 * k) mu :=
    (((hasDerivAt_id mu).const_mul (2 * k)).add_const 1).congr_deriv (by ring)
  refine ⟨?_, rfl, rfl, rfl, rfl, rfl, h2, h1, hasDerivAt_const _ _,
    hasDerivAt_const _ _, h2⟩
  show 0 < mu + mu ^ 2 * k
  positivity

theorem C36_var_poisson (sp : Sp) : VarOK (poisson sp) (Ioi 0) := by
  intro mu hm k _
  exact ⟨hm, rfl, rfl, rfl, rfl, rfl, hasDerivAt_id mu, hasDerivAt_const _ _, hasDerivAt_const _ _,
    hasDerivAt_const _ _, hasDerivAt_id mu⟩

theorem C36_var_binomial (sp : Sp) : VarOK (binomial sp) (Ioo 0 1) := by
  rintro mu ⟨h0, h1⟩ k _
  have h2 : HasDerivAt (fun m : ℝ => m * (1 - m)) (1 - 2 * mu) mu :=
    ((hasDerivAt_id mu).fun_mul (one_sub_deriv mu)).congr_deriv (by simp only [id]; ring)
  have h3 : HasDerivAt (fun m : ℝ => 1 - 2 * m) (-2) mu :=
    (((hasDerivAt_id mu).const_mul 2).const_sub 1).congr_deriv (by ring)
  exact ⟨mul_pos h0 (sub_pos.2 h1), rfl, rfl, rfl, rfl, rfl, h2, h3, hasDerivAt_const _ _,
    hasDerivAt_const _ _, h2⟩

/-! ## Gradient and Hessian weights -/

theorem C36_weights_gaussian : WeightsOK gaussian univ univ (fun _ => True) := by
  refine weights_of C36_var_gaussian ?_
  intro y _ mu _ w hw0 phi hphi _ k _
  have : phi ≠ 0 := ne_of_gt hphi
  have h1 : HasDerivAt (fun m : ℝ => (y - m) ^ 2) (2 * (y - mu) * -1) mu :=
    (((hasDerivAt_id mu).const_sub y).fun_pow 2).congr_deriv (by simp)
  refine (((h1.const_mul (w / phi)).add_const (log (1 / (w / phi)))).div_const 2).congr_deriv ?_
  simp only [gaussian]
  field_simp

theorem C36_weights_invGaussian : WeightsOK invGaussian (Ioi 0) (Ioi 0) (fun _ => True) := by
  refine weights_of C36_var_invGaussian ?_
  intro y hy mu hm w hw0 phi hphi _ k _
  have hphi' : phi ≠ 0 := ne_of_gt hphi
  have hy' : y ≠ 0 := ne_of_gt hy
  have hm' : mu ≠ 0 := ne_of_gt hm
  have h1 : HasDerivAt (fun m : ℝ => (y - m) ^ 2) (2 * (y - mu) * -1) mu :=
    (((hasDerivAt_id mu).const_sub y).fun_pow 2).congr_deriv (by simp)
  have h2 : HasDerivAt (fun m : ℝ => y * m ^ 2 * phi) (y * (2 * mu) * phi) mu :=
    (((hasDerivAt_pow 2 mu).const_mul y).mul_const phi).congr_deriv (by simp)
  have hne : y * mu ^ 2 * phi ≠ 0 := mul_ne_zero (mul_ne_zero hy' (pow_ne_zero 2 hm')) hphi'
  refine ((((h1.const_mul w).fun_div h2 hne).add_const
    (log (phi * y ^ 3 / w))).div_const 2).congr_deriv ?_
  simp only [invGaussian]
  field_simp
  ring

theorem C36_weights_gamma (sp : Sp) : WeightsOK (gamma sp) (Ioi 0) (Ioi 0) (fun _ => True) := by
  refine weights_of (C36_var_gamma sp) ?_
  intro y hy mu hm w hw0 phi hphi _ k _
  have hphi' : phi ≠ 0 := ne_of_gt hphi
  have hw' : w ≠ 0 := ne_of_gt hw0
  have hy' : y ≠ 0 := ne_of_gt hy
  have hm' : mu ≠ 0 := ne_of_gt hm
  have h1 : HasDerivAt (fun m : ℝ => w / phi * y / m) (-(w / phi * y) / mu ^ 2) mu :=
    ((hasDerivAt_const mu (w / phi * y)).fun_div (hasDerivAt_id mu) hm').congr_deriv (by simp)
  have hne : w / phi * y / mu ≠ 0 := by positivity
  refine ((h1.fun_sub ((h1.log hne).const_mul (w / phi))).add_const
    (sp.gammaln (w / phi))).congr_deriv ?_
  simp only [gamma]
  field_simp
  ring

/-- `NegativeBinomial._loglike` ignores `phi`; the weights agree with it for `phi = 1`. -/
theorem C36_weights_negBinomial_partial (sp : Sp) :
    WeightsOK (negBinomial sp) (Ici 0) (Ioi 0) (fun phi => phi = 1) := by
  refine weights_of (C36_var_negBinomial sp) ?_
  rintro y hy mu hm w hw0 phi hphi rfl k hk
  have hm : 0 < mu := hm
  have hk : 0 < k := hk
  have h1 : HasDerivAt (fun m : ℝ => k * m) k mu :=
    ((hasDerivAt_id mu).const_mul k).congr_deriv (by simp)
  have hne : k * mu ≠ 0 := by positivity
  have hne' : 1 + k * mu ≠ 0 := by positivity
  refine ((((((h1.log hne).const_mul y).fun_sub (((h1.const_add 1).log hne').const_mul
    (y + 1 / k))).add_const (sp.gammaln (y + 1 / k))).sub_const
      (sp.gammaln (1 / k))).const_mul (-w)).congr_deriv ?_
  simp only [negBinomial]
  have h3 : mu + mu ^ 2 * k ≠ 0 := by positivity
  field_simp
  ring

theorem C36_weights_poisson (sp : Sp) : WeightsOK (poisson sp) (Ici 0) (Ioi 0) (fun _ => True) := by
  refine weights_of (C36_var_poisson sp) ?_
  intro y hy mu hm w hw0 phi hphi _ k _
  have hphi' : phi ≠ 0 := ne_of_gt hphi
  have hm' : mu ≠ 0 := ne_of_gt hm
  refine ((((hasDerivAt_log hm').const_mul y).fun_sub (hasDerivAt_id mu)).const_mul
    (-(w / phi))).congr_deriv ?_
  simp only [poisson]
  field_simp

theorem C36_weights_binomial (sp : Sp) :
    WeightsOK (binomial sp) (Icc 0 1) (Ioo 0 1) (fun _ => True) := by
  refine weights_of (C36_var_binomial sp) ?_
  rintro y hy mu ⟨h0, h1⟩ w hw0 phi hphi _ k _
  have hphi' : phi ≠ 0 := ne_of_gt hphi
  have hm' : mu ≠ 0 := ne_of_gt h0
  have hm2 : 1 - mu ≠ 0 := (sub_pos.2 h1).ne'
  refine ((((hasDerivAt_log hm').const_mul y).fun_add
    (((one_sub_deriv mu).log hm2).const_mul (1 - y))).const_mul (-(w / phi))).congr_deriv ?_
  simp only [binomial]
  field_simp
  ring

/-- For the negative binomial family with `phi ≠ 1` the gradient weight is not the derivative of
`_loglike`. -/
theorem C36_negBinomial_phi_violated (sp : Sp) :
    ¬ WeightsOK (negBinomial sp) (Ici 0) (Ioi 0) (fun _ => True) := by
  intro h
  have h1 := (h logLink _ _ good_log 0 (mem_Ici.2 le_rfl) 0 trivial
    (by simp [logLink]) 1 one_pos 2 two_pos trivial 1 one_pos).1
  have h2 := (C36_weights_negBinomial_partial sp logLink _ _ good_log 0 (mem_Ici.2 le_rfl) 0 trivial
    (by simp [logLink]) 1 one_pos 1 one_pos rfl 1 one_pos).1
  have h3 := h1.unique h2
  norm_num [gw, variance, negBinomial, logLink] at h3

/-- With the negative binomial link the Hessian weight is wrong for every `y ≠ mu` (its `d2link`
has the wrong sign). -/
theorem C36_hw_negbin_link_violated (sp : Sp) {y eta k : ℝ} (hk : 0 < k) (he : eta < 0)
    (hy : y ≠ (negBinLink k).inv eta) :
    ¬ HasDerivAt (fun e => gw (negBinomial sp) (negBinLink k) y ((negBinLink k).inv e) 1 1 k)
      (hw (negBinomial sp) (negBinLink k) y ((negBinLink k).inv eta) 1 1 k) eta := by
  intro h
  have hmu : 0 < (negBinLink k).inv eta := ((C34_negbin hk).2 eta he).1
  obtain ⟨f, -, hf⟩ := (C35_negbin_partial hk).2
  -- the same link with the sign of `d2` corrected
  let l' : LinkFns := { negBinLink k with d2 := fun m => -(negBinLink k).d2 m }
  have hl' : GoodLink l' (Ioi 0) (Iio 0) :=
    ⟨C34_negbin hk, isOpen_Iio, fun mu hm => ⟨negbin_d1 hk hm, negbin_d2 hk hm⟩,
      fun e he => (hf e he).1.differentiableAt⟩
  obtain ⟨hg, hinv⟩ := hl'.inv_deriv (mem_Iio.2 he)
  have h3 : HasDerivAt (fun e => gw (negBinomial sp) l' y (l'.inv e) 1 1 k)
      (hw (negBinomial sp) l' y (l'.inv eta) 1 1 k) eta := by
    have hs : WeightsOK { negBinomial sp with nll := fun y mu w phi k =>
        -(w / phi) * (y * log (k * mu) - (y + 1 / k) * log (1 + k * mu)) }
        univ (Ioi 0) (fun _ => True) := by
      refine weights_of (C36_var_negBinomial sp) ?_
      intro y _ mu hm w hw0 phi hphi _ k hk
      have hm : 0 < mu := hm
      have hk : 0 < k := hk
      have hphi : 0 < phi := hphi
      have h1 : HasDerivAt (fun m : ℝ => k * m) k mu :=
        ((hasDerivAt_id mu).const_mul k).congr_deriv (by simp)
      have hne : k * mu ≠ 0 := by positivity
      have hne' : 1 + k * mu ≠ 0 := by positivity
      refine ((((h1.log hne).const_mul y).fun_sub (((h1.const_add 1).log hne').const_mul
        (y + 1 / k))).const_mul (-(w / phi))).congr_deriv ?_
      simp only [negBinomial]
      have h3 : mu + mu ^ 2 * k ≠ 0 := by positivity
      field_simp
      ring
    exact (hs l' _ _ hl' y trivial eta he hmu 1 one_pos 1 one_pos trivial k hk).2.1
  have h4 := h.unique h3
  simp only [hw, negBinomial] at h4
  have hd1 : (negBinLink k).d1 ((negBinLink k).inv eta) ≠ 0 := hg
  have hd2 : (negBinLink k).d2 ((negBinLink k).inv eta) ≠ 0 := by
    simp only [negBinLink, negBinLinkKV] at hmu ⊢
    positivity
  have hv : (negBinLink k).inv eta + (negBinLink k).inv eta ^ 2 * k ≠ 0 := by positivity
  change _ = 1 * (1 + (y - (negBinLink k).inv eta) * (_ + -(negBinLink k).d2 _ / (negBinLink k).d1 _))
    / ((negBinLink k).d1 _ * ((negBinLink k).d1 _ * _ * 1)) at h4
  generalize (negBinLink k).inv eta = m at *
  generalize (negBinLink k).d1 m = g1 at *
  generalize (negBinLink k).d2 m = g2 at *
  have hr : y - m ≠ 0 := sub_ne_zero.2 hy
  field_simp at h4
  have : (y - m) * g2 * (m + m ^ 2 * k) = 0 := by linear_combination h4 / 2
  simp [hr, hd2, hv] at this

/-- The expected weight is `weights` times the observed weight at `y = mu` … -/
theorem C36_ehw_partial {F : Family} {M : Set ℝ} (hV : VarOK F M) (l : LinkFns) {mu w phi k : ℝ}
    (hm : mu ∈ M) (hk : 0 < k) (hw0 : 0 < w) (hphi : 0 < phi) :
    getEhw F l mu w phi k = w * hw F l mu mu w phi k := by
  obtain ⟨hv, e0, -⟩ := hV mu hm k hk
  simp only [getEhw, hw, variance, e0, sub_self, zero_mul, add_zero, mul_one]
  have := hv.ne'
  rcases eq_or_ne (l.d1 mu) 0 with h | h
  · simp [h]
  · field_simp

/-- … so the two differ as soon as the weight is not one. -/
theorem C36_ehw_violated :
    getEhw gaussian identityLink 0 2 1 1 ≠ hw gaussian identityLink 0 0 2 1 1 := by
  norm_num [getEhw, hw, gaussian, identityLink, variance]

/-- `get_g` and `get_w` raise for every argument. -/
theorem C36_get_w_violated (F : Family) (l : LinkFns) (y mu k : ℝ) :
    getG codeGetA l y mu = none ∧ getW codeGetA F l y mu k = none := ⟨rfl, rfl⟩

example : GoodLink logitLink (Ioo 0 1) univ ∧ (1 / 2 : ℝ) ∈ Icc (0 : ℝ) 1 ∧
    logitLink.inv 0 ∈ Ioo (0 : ℝ) 1 :=
  ⟨good_logit, ⟨by norm_num, by norm_num⟩, (C34_logit.2 0 trivial).1⟩

end Verif.Glm
