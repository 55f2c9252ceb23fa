import Verif.Gam.Fam
import Verif.Gam.GamCritProps
import Verif.Gam.GamFitProps
import Verif.Glm.TauProps

namespace Verif.Gam
open Real Set Verif.Glm

/-! ### What links and variance functions owe -/

/-- A link with its derivatives, from means `M` to linear predictors `E`. -/
structure LOk (l : OLink) (M E : Set ℝ) : Prop where
  openM : IsOpen M
  mem : ∀ e ∈ E, l.inv e ∈ M
  left : ∀ e ∈ E, l.link (l.inv e) = e
  inv : ∀ e ∈ E, HasDerivAt l.inv (l.dinv e) e
  d1 : ∀ mu ∈ M, l.d1 mu ≠ 0
  d2 : ∀ mu ∈ M, HasDerivAt l.d1 (l.d2 mu) mu
  d3 : ∀ mu ∈ M, HasDerivAt l.d2 (l.d3 mu) mu
  d4 : ∀ mu ∈ M, HasDerivAt l.d3 (l.d4 mu) mu

/-- A variance function with its derivatives and a deviance. -/
structure VOk (V : OVar) (Y M : Set ℝ) : Prop where
  v0 : ∀ mu ∈ M, V.v0 mu ≠ 0
  v1 : ∀ mu ∈ M, HasDerivAt V.v0 (V.v1 mu) mu
  v2 : ∀ mu ∈ M, HasDerivAt V.v1 (V.v2 mu) mu
  v3 : ∀ mu ∈ M, HasDerivAt V.v2 (V.v3 mu) mu
  dev : ∀ y ∈ Y, ∀ mu ∈ M, HasDerivAt (V.dev y) (-2 * (y - mu) / V.v0 mu) mu

variable {l : OLink} {V : OVar} {M E Y : Set ℝ} {y mu eta : ℝ}

theorem oa_deriv (hl : LOk l M E) (hV : VOk V Y M) (hm : mu ∈ M) : HasDerivAt (oa l V y) (oda l V y mu) mu := by
  have h0 := hV.v0 mu hm
  have hg := hl.d1 mu hm
  refine ((((hasDerivAt_id mu).const_sub y).fun_mul (((hV.v2 mu hm).fun_div (hV.v1 mu hm) h0).fun_add
    ((hl.d3 mu hm).fun_div (hl.d2 mu hm) hg))).const_add 1).congr_deriv ?_
  simp only [id, oda]
  field_simp
  ring

theorem oda_deriv (hl : LOk l M E) (hV : VOk V Y M) (hm : mu ∈ M) : HasDerivAt (oda l V y) (od2a l V y mu) mu := by
  have h0 := hV.v0 mu hm
  have hg := hl.d1 mu hm
  have q := (hV.v2 mu hm).fun_div (hV.v1 mu hm) h0
  have r := (hl.d3 mu hm).fun_div (hl.d2 mu hm) hg
  refine ((((hasDerivAt_id mu).const_sub y).fun_mul (((((hV.v3 mu hm).fun_div (hV.v1 mu hm) h0).fun_sub (q.fun_pow 2)).fun_add
    ((hl.d4 mu hm).fun_div (hl.d2 mu hm) hg)).fun_sub (r.fun_pow 2))).fun_sub (q.fun_add r)).congr_deriv ?_
  simp only [id, od2a, Nat.reduceSub, pow_one, Nat.cast_ofNat]
  field_simp
  ring

/-- The logarithmic derivative of the weight in the mean. -/
noncomputable def olog (l : OLink) (V : OVar) (y mu : ℝ) : ℝ := oda l V y mu / oa l V y mu - V.v1 mu / V.v0 mu - 2 * l.d2 mu / l.d1 mu

theorem ow_deriv (hl : LOk l M E) (hV : VOk V Y M) (hm : mu ∈ M) (ha : oa l V y mu ≠ 0) : HasDerivAt (ow l V y) (ow l V y mu * olog l V y mu) mu := by
  have h0 := hV.v0 mu hm
  have hg := hl.d1 mu hm
  refine ((oa_deriv hl hV hm).fun_div (((hl.d2 mu hm).fun_pow 2).fun_mul (hV.v1 mu hm)) (mul_ne_zero (pow_ne_zero 2 hg) h0)).congr_deriv ?_
  simp only [ow, olog, Nat.reduceSub, pow_one, Nat.cast_ofNat]
  generalize oda l V y mu = A1
  generalize oa l V y mu = A0 at *
  field_simp
  ring

theorem olog_deriv (hl : LOk l M E) (hV : VOk V Y M) (hm : mu ∈ M) (ha : oa l V y mu ≠ 0) : HasDerivAt (olog l V y)
    (od2a l V y mu / oa l V y mu - (oda l V y mu / oa l V y mu) ^ 2 - V.v2 mu / V.v0 mu + (V.v1 mu / V.v0 mu) ^ 2 - 2 * (l.d3 mu / l.d1 mu) + 2 * (l.d2 mu / l.d1 mu) ^ 2) mu := by
  have h0 := hV.v0 mu hm
  have hg := hl.d1 mu hm
  refine ((((oda_deriv hl hV hm).fun_div (oa_deriv hl hV hm) ha).fun_sub ((hV.v2 mu hm).fun_div (hV.v1 mu hm) h0)).fun_sub
    (((hl.d3 mu hm).const_mul 2).fun_div (hl.d2 mu hm) hg)).congr_deriv ?_
  generalize od2a l V y mu = A2
  generalize oda l V y mu = A1
  generalize oa l V y mu = A0 at *
  field_simp
  ring

theorem dinv_eq (hl : LOk l M E) (he : eta ∈ E) : l.dinv eta = 1 / l.d1 (l.inv eta) := by
  rw [OLink.d1, hl.left eta he, one_div_one_div]

/-- **C128** Away from zero weights any link and variance function with their derivatives make a family as the additive
model needs it: `dw_deta` and `d2w_deta2` are the first two derivatives of the Newton weight. -/
theorem C128_family_partial (hl : LOk l M E) (hV : VOk V Y M) (hE : eta ∈ E) (hy : y ∈ Y) (ha : oa l V y (l.inv eta) ≠ 0) : FamOk (ofam l V) y eta := by
  have hm := hl.mem eta hE
  have h0 := hV.v0 _ hm
  have hg := hl.d1 _ hm
  have hi : HasDerivAt l.inv (1 / l.d1 (l.inv eta)) eta := by rw [← dinv_eq hl hE]; exact hl.inv eta hE
  have hw := ow_deriv hl hV hm ha
  have hne : ∀ᶠ x in nhds (l.inv eta), oa l V y x ≠ 0 := (oa_deriv hl hV hm).continuousAt.eventually_ne ha
  refine ⟨hi, hV.v1 _ hm, hl.d2 _ hm, h0, hg, hV.dev y hy _ hm, ?_, ?_⟩
  · refine (hw.comp eta hi).congr_deriv ?_
    simp only [ofam, odw, if_neg ha, Option.getD_some, olog]
    field_simp
  · have h1 : HasDerivAt (fun x => ow l V y x / l.d1 x * olog l V y x) _ (l.inv eta) := (hw.fun_div (hl.d2 _ hm) hg).fun_mul (olog_deriv hl hV hm ha)
    have h2 : HasDerivAt (fun x => (odw l V y x).getD 0) _ (l.inv eta) := h1.congr_of_eventuallyEq (hne.mono fun x hx => by
      simp only [odw, if_neg hx, Option.getD_some, olog])
    refine (h2.comp eta hi).congr_deriv ?_
    have hw0 : ow l V y (l.inv eta) ≠ 0 := div_ne_zero ha (mul_ne_zero (pow_ne_zero 2 hg) h0)
    have e : oda l V y (l.inv eta) / oa l V y (l.inv eta) - V.v1 (l.inv eta) / V.v0 (l.inv eta) - 2 * l.d2 (l.inv eta) / l.d1 (l.inv eta) = olog l V y (l.inv eta) := rfl
    simp only [ofam, od2w, odw, if_neg ha, Option.bind_eq_bind, Option.bind_some, Option.getD_some, e]
    generalize olog l V y (l.inv eta) = L
    generalize ow l V y (l.inv eta) = W at *
    generalize od2a l V y (l.inv eta) / oa l V y (l.inv eta) - (oda l V y (l.inv eta) / oa l V y (l.inv eta)) ^ 2 - V.v2 (l.inv eta) / V.v0 (l.inv eta) + (V.v1 (l.inv eta) / V.v0 (l.inv eta)) ^ 2 - 2 * (l.d3 (l.inv eta) / l.d1 (l.inv eta)) + 2 * (l.d2 (l.inv eta) / l.d1 (l.inv eta)) ^ 2 = T
    field_simp

/-! ### The links -/

theorem lok_of {f : LinkFns} (hM : IsOpen M) (hi : Inverse f M E) (h3 : LinkD3 f M) (h4 : LinkD4 f M) (hl : l.link = f.link) (hv : l.inv = f.inv)
    (h1 : ∀ mu ∈ M, l.d1 mu = f.d1 mu) (hn : ∀ mu ∈ M, l.d1 mu ≠ 0) (e2 : l.d2 = f.d2) (e3 : l.d3 = f.d3) (e4 : ∀ mu, f.d4 mu = some (l.d4 mu))
    (hd : ∀ e ∈ E, HasDerivAt l.inv (l.dinv e) e) : LOk l M E where
  openM := hM
  mem := fun e he => by rw [hv]; exact (hi.2 e he).1
  left := fun e he => by rw [hl, hv]; exact (hi.2 e he).2
  inv := hd
  d1 := hn
  d2 := fun mu hm => by
    rw [e2]
    refine (h3 mu hm).2.1.congr_of_eventuallyEq ?_
    filter_upwards [hM.mem_nhds hm] with x hx using h1 x hx
  d3 := fun mu hm => by rw [e2, e3]; exact (h3 mu hm).2.2
  d4 := fun mu hm => by
    obtain ⟨x, hx, hd⟩ := h4 mu hm
    rw [e4] at hx
    rw [e3, Option.some.inj hx]; exact hd

theorem C128_identity : LOk OLink.identity univ univ := by
  have h1 : ∀ mu : ℝ, OLink.identity.d1 mu = 1 := fun mu => by simp [OLink.d1, OLink.identity]
  refine lok_of isOpen_univ C34_identity C35_identity_partial.1 C35_identity_partial.2.1 rfl rfl (fun mu _ => h1 mu) (fun mu _ => by rw [h1]; exact one_ne_zero) rfl rfl
    (fun _ => rfl) fun e _ => ?_
  exact (hasDerivAt_id e).congr_deriv (by simp [OLink.identity])

theorem C128_log : LOk OLink.log (Ioi 0) univ := by
  have h1 : ∀ mu ∈ Ioi (0 : ℝ), OLink.log.d1 mu = 1 / mu := fun mu hm => by simp only [OLink.d1, OLink.log, Real.exp_log hm]
  exact lok_of isOpen_Ioi C34_log C35_log.1 C35_log.2.1 rfl rfl h1 (fun mu hm => by rw [h1 mu hm]; exact one_div_ne_zero (ne_of_gt hm)) rfl rfl
    (fun _ => rfl) fun e _ => Real.hasDerivAt_exp e

theorem C128_reciprocal : LOk OLink.reciprocal {0}ᶜ {0}ᶜ := by
  have h1 : ∀ mu ∈ ({0}ᶜ : Set ℝ), OLink.reciprocal.d1 mu = -1 / mu ^ 2 := fun mu hm => by
    have : mu ≠ 0 := hm
    simp only [OLink.d1, OLink.reciprocal]
    field_simp
  obtain ⟨f, ef, hf⟩ := C35_reciprocal.2.2
  refine lok_of isOpen_compl_singleton C34_reciprocal C35_reciprocal.1 C35_reciprocal.2.1 rfl rfl h1 (fun mu hm => ?_) rfl rfl (fun _ => rfl) fun e he => ?_
  · rw [h1 mu hm]; exact div_ne_zero (by norm_num) (pow_ne_zero 2 hm)
  · have : f e = -1 / e ^ 2 := (Option.some.inj (ef e)).symm
    have h := (hf e he).1
    rw [this] at h
    exact h

theorem C128_logit : LOk OLink.logit (Ioo 0 1) univ := by
  have h1 : ∀ mu ∈ Ioo (0 : ℝ) 1, OLink.logit.d1 mu = 1 / (mu * (1 - mu)) := fun mu hm => by
    have h2 : 0 < 1 - mu := by linarith [hm.2]
    have h3 : 0 < mu := hm.1
    simp only [OLink.d1, OLink.logit, Real.exp_log (div_pos h3 h2)]
    field_simp
    ring
  obtain ⟨f, ef, hf⟩ := C35_logit.2.2
  refine lok_of isOpen_Ioo C34_logit C35_logit.1 C35_logit.2.1 rfl rfl h1 (fun mu hm => ?_) rfl rfl (fun _ => rfl) fun e he => ?_
  · have h2 : 0 < 1 - mu := by linarith [hm.2]
    have h3 : 0 < mu := hm.1
    rw [h1 mu hm]; positivity
  · have : f e = exp e / (1 + exp e) ^ 2 := (Option.some.inj (ef e)).symm
    have h := (hf e he).1
    rw [this] at h
    exact h

theorem C128_power {α : ℝ} (hα : α ≠ 0) : LOk (OLink.power α) (Ioi 0) (Ioi 0) := by
  obtain ⟨f, ef, hf⟩ := (C35_power hα).2.2
  have h1 : ∀ mu, (OLink.power α).d1 mu = (powerLink α).d1 mu := fun mu => rfl
  refine lok_of isOpen_Ioi (C34_power hα) (C35_power hα).1 (C35_power hα).2.1 rfl rfl (fun mu _ => h1 mu) (fun mu hm => ?_) rfl rfl (fun _ => rfl) fun e he => ?_
  · rw [h1, pow_d1 hα hm]
    exact mul_ne_zero hα (rpow_pos_of_pos hm _).ne'
  · have : f e = (OLink.power α).dinv e := (Option.some.inj (ef e)).symm
    have h := hf e he
    rw [this] at h
    exact h

/-- **C128** Violated: the second derivative of the negative binomial link has the wrong sign. -/
theorem C128_negbin_violated {k : ℝ} (hk : 0 < k) (h : 0 < mu) : ¬ HasDerivAt (OLink.negbin k).d1 ((OLink.negbin k).d2 mu) mu := by
  intro hd
  have h1 : ∀ x ∈ Ioi (0 : ℝ), (OLink.negbin k).d1 x = 1 / (x + k * x ^ 2) := fun x hx => by
    have hx' : 0 < x := hx
    have hp : 0 < x + 1 / k := by positivity
    simp only [OLink.d1, OLink.negbin, Real.exp_log (div_pos hx' hp)]
    have : 1 - x / (x + 1 / k) = (1 / k) / (x + 1 / k) := by field_simp; ring
    rw [this]
    field_simp
    ring
  have h2 : HasDerivAt (fun x => 1 / (x + k * x ^ 2)) ((OLink.negbin k).d2 mu) mu := by
    refine hd.congr_of_eventuallyEq ?_
    filter_upwards [isOpen_Ioi.mem_nhds h] with x hx using (h1 x hx).symm
  have h3 : HasDerivAt (fun x => 1 / (x + k * x ^ 2)) (-(1 + k * (2 * mu)) / (mu + k * mu ^ 2) ^ 2) mu := by
    have hp : mu + k * mu ^ 2 ≠ 0 := by positivity
    have := ((hasDerivAt_id mu).add (((hasDerivAt_id mu).pow 2).const_mul k)).inv hp
    simp only [one_div]
    refine this.congr_deriv ?_
    simp
  have h4 := h2.unique h3
  have h5 : 0 < (OLink.negbin k).d2 mu := by simp only [OLink.negbin]; positivity
  rw [h4] at h5
  have h6 : -(1 + k * (2 * mu)) / (mu + k * mu ^ 2) ^ 2 < 0 := div_neg_of_neg_of_pos (by nlinarith [mul_pos hk h]) (by positivity)
  linarith

/-! ### The variance functions -/

theorem C128_gaussian : VOk OVar.gaussian univ univ where
  v0 := fun _ _ => one_ne_zero
  v1 := fun _ _ => hasDerivAt_const _ _
  v2 := fun _ _ => hasDerivAt_const _ _
  v3 := fun _ _ => hasDerivAt_const _ _
  dev := fun y _ mu _ => by
    refine (((hasDerivAt_id mu).const_sub y).pow 2).congr_deriv ?_
    simp [OVar.gaussian]

theorem C128_invGaussian : VOk OVar.invGaussian (Ioi 0) (Ioi 0) where
  v0 := fun mu hm => pow_ne_zero 3 (ne_of_gt hm)
  v1 := fun mu _ => by simpa [OVar.invGaussian] using hasDerivAt_pow 3 mu
  v2 := fun mu _ => by
    refine ((hasDerivAt_pow 2 mu).const_mul 3).congr_deriv ?_
    simp only [OVar.invGaussian]; push_cast; ring
  v3 := fun mu _ => by simpa [OVar.invGaussian] using (hasDerivAt_id mu).const_mul 6
  dev := fun y hy mu hm => by
    have hy : 0 < y := hy
    have hm : 0 < mu := hm
    have h := (((hasDerivAt_id mu).const_sub y).fun_pow 2).fun_div ((hasDerivAt_pow 2 mu).const_mul y) (by positivity)
    refine h.congr_deriv ?_
    simp only [OVar.invGaussian, id, Nat.reduceSub, pow_one, Nat.cast_ofNat]
    field_simp
    ring

theorem C128_gamma : VOk OVar.gamma (Ioi 0) (Ioi 0) where
  v0 := fun mu hm => pow_ne_zero 2 (ne_of_gt hm)
  v1 := fun mu _ => by simpa [OVar.gamma] using hasDerivAt_pow 2 mu
  v2 := fun mu _ => by simpa [OVar.gamma] using (hasDerivAt_id mu).const_mul 2
  v3 := fun mu _ => hasDerivAt_const _ _
  dev := fun y hy mu hm => by
    have hy : 0 < y := hy
    have hm : 0 < mu := hm
    have h1 : HasDerivAt (fun x => y / x) (-y / mu ^ 2) mu := by
      refine ((hasDerivAt_const mu y).fun_div (hasDerivAt_id mu) hm.ne').congr_deriv ?_
      simp only [id]; ring
    have h := ((((hasDerivAt_id mu).const_sub y).fun_div (hasDerivAt_id mu) hm.ne').fun_sub (h1.log (div_pos hy hm).ne')).const_mul 2
    refine h.congr_deriv ?_
    simp only [OVar.gamma, id]
    field_simp
    ring

theorem C128_poisson : VOk OVar.poisson (Ici 0) (Ioi 0) where
  v0 := fun mu hm => ne_of_gt hm
  v1 := fun mu _ => hasDerivAt_id mu
  v2 := fun mu _ => hasDerivAt_const _ _
  v3 := fun mu _ => hasDerivAt_const _ _
  dev := fun y hy mu hm => by
    have hm : 0 < mu := hm
    by_cases h0 : y = 0
    · subst h0
      simp only [OVar.poisson, if_true]
      refine ((hasDerivAt_id mu).const_mul 2).congr_deriv ?_
      field_simp
      ring
    · have hy : 0 < y := lt_of_le_of_ne hy (Ne.symm h0)
      have h1 : HasDerivAt (fun x => y / x) (-y / mu ^ 2) mu := by
        refine ((hasDerivAt_const mu y).fun_div (hasDerivAt_id mu) hm.ne').congr_deriv ?_
        simp only [id]; ring
      have h := (((h1.log (div_pos hy hm).ne').const_mul y).fun_sub ((hasDerivAt_id mu).const_sub y)).const_mul 2
      simp only [OVar.poisson, if_neg h0]
      refine h.congr_deriv ?_
      field_simp
      ring

theorem C128_binomial : VOk OVar.binomial (Icc 0 1) (Ioo 0 1) where
  v0 := fun mu hm => mul_ne_zero hm.1.ne' (by linarith [hm.2])
  v1 := fun mu _ => by
    refine ((hasDerivAt_id mu).mul ((hasDerivAt_id mu).const_sub 1)).congr_deriv ?_
    simp only [OVar.binomial, id]; ring
  v2 := fun mu _ => by simpa [OVar.binomial] using ((hasDerivAt_id mu).const_mul 2).const_sub 1
  v3 := fun mu _ => hasDerivAt_const _ _
  dev := fun y hy mu hm => by
    have hm0 : 0 < mu := hm.1
    have hm1 : 0 < 1 - mu := by linarith [hm.2]
    have hs : HasDerivAt (fun x : ℝ => 1 - x) (-1) mu := (hasDerivAt_id mu).const_sub 1
    by_cases h0 : y = 0
    · subst h0
      simp only [OVar.binomial, if_true]
      refine ((hs.log hm1.ne').fun_neg.const_mul 2).congr_deriv ?_
      field_simp
      ring
    by_cases h1 : y = 1
    · subst h1
      simp only [OVar.binomial, if_neg h0, if_true]
      refine ((Real.hasDerivAt_log hm0.ne').fun_neg.const_mul 2).congr_deriv ?_
      field_simp
    · have hy0 : 0 < y := lt_of_le_of_ne hy.1 (Ne.symm h0)
      have hy1 : 0 < 1 - y := by
        have := lt_of_le_of_ne hy.2 h1
        linarith
      have e1 : HasDerivAt (fun x => y / x) (-y / mu ^ 2) mu := by
        refine ((hasDerivAt_const mu y).fun_div (hasDerivAt_id mu) hm0.ne').congr_deriv ?_
        simp only [id]; ring
      have e2 : HasDerivAt (fun x => (1 - y) / (1 - x)) ((1 - y) / (1 - mu) ^ 2) mu := by
        refine ((hasDerivAt_const mu (1 - y)).fun_div hs hm1.ne').congr_deriv ?_
        ring
      have h := (((e1.log (div_pos hy0 hm0).ne').const_mul y).fun_add ((e2.log (div_pos hy1 hm1).ne').const_mul (1 - y))).const_mul 2
      simp only [OVar.binomial, if_neg h0, if_neg h1]
      refine h.congr_deriv ?_
      field_simp
      ring

/-! ### The canonical links: the weights never vanish -/

theorem C128_poisson_log (y eta : ℝ) : oa OLink.log OVar.poisson y (OLink.log.inv eta) = 1 := by
  have : (0 : ℝ) < exp eta := exp_pos eta
  simp only [oa, OLink.d1, OLink.log, OVar.poisson, Real.log_exp]
  field_simp
  ring

theorem C128_binomial_logit (y eta : ℝ) : oa OLink.logit OVar.binomial y (OLink.logit.inv eta) = 1 := by
  have h := C128_logit.mem eta trivial
  have hd := dinv_eq C128_logit (E := univ) (eta := eta) trivial
  have hm0 : 0 < OLink.logit.inv eta := h.1
  have hm1 : 0 < 1 - OLink.logit.inv eta := by linarith [h.2]
  have h1 : OLink.logit.d1 (OLink.logit.inv eta) = 1 / (OLink.logit.inv eta * (1 - OLink.logit.inv eta)) := by
    generalize OLink.logit.inv eta = x at *
    simp only [OLink.d1, OLink.logit, Real.exp_log (div_pos hm0 hm1)]
    field_simp
    ring
  rw [oa, h1]
  generalize OLink.logit.inv eta = x at *
  simp only [OLink.logit, OVar.binomial]
  field_simp
  ring

theorem C128_gaussian_identity (y eta : ℝ) : oa OLink.identity OVar.gaussian y (OLink.identity.inv eta) = 1 := by
  simp [oa, OLink.d1, OLink.identity, OVar.gaussian]

theorem C128_gamma_reciprocal (y : ℝ) (h : eta ≠ 0) : oa OLink.reciprocal OVar.gamma y (OLink.reciprocal.inv eta) = 1 := by
  simp only [oa, OLink.d1, OLink.reciprocal, OVar.gamma]
  field_simp
  ring

theorem C128_invGaussian_power (y : ℝ) (h : 0 < eta) : oa (OLink.power (-2)) OVar.invGaussian y ((OLink.power (-2)).inv eta) = 1 := by
  have hm : 0 < (OLink.power (-2)).inv eta := (C128_power (by norm_num : (-2 : ℝ) ≠ 0)).mem eta h
  have h1 : (OLink.power (-2)).d1 ((OLink.power (-2)).inv eta) = -2 * (OLink.power (-2)).inv eta ^ (-2 - 1 : ℝ) := pow_d1 (by norm_num) hm
  rw [oa, h1]
  generalize (OLink.power (-2)).inv eta = x at *
  have h2 : (OLink.power (-2)).d2 x = 6 * x ^ (-2 - 1 : ℝ) * x⁻¹ := by
    simp only [OLink.power]
    rw [if_neg (by norm_num), show (-2 - 2 : ℝ) = (-2 - 1 : ℝ) + (-1) by norm_num, rpow_add hm, rpow_neg_one]
    ring
  have h3 : 0 < x ^ (-2 - 1 : ℝ) := rpow_pos_of_pos hm _
  rw [h2]
  simp only [OVar.invGaussian]
  generalize x ^ (-2 - 1 : ℝ) = c at *
  field_simp
  ring

/-- **C128** Under their default links all five families serve the additive model at every response and predictor. -/
theorem C128_defaults : (∀ y eta, FamOk (ofam OLink.identity OVar.gaussian) y eta) ∧ (∀ y > 0, ∀ eta > 0, FamOk (ofam (OLink.power (-2)) OVar.invGaussian) y eta) ∧
    (∀ y > 0, ∀ eta > 0, FamOk (ofam OLink.reciprocal OVar.gamma) y eta) ∧ (∀ y ≥ 0, ∀ eta, FamOk (ofam OLink.log OVar.poisson) y eta) ∧
    ∀ y ∈ Icc (0 : ℝ) 1, ∀ eta, FamOk (ofam OLink.logit OVar.binomial) y eta := by
  have hr : LOk OLink.reciprocal (Ioi 0) (Ioi 0) := by
    have h := C128_reciprocal
    have hs : ∀ x ∈ Ioi (0 : ℝ), x ∈ ({0}ᶜ : Set ℝ) := fun x hx => ne_of_gt hx
    exact ⟨isOpen_Ioi, fun e he => (one_div_pos.2 he : 0 < 1 / e), fun e he => h.left e (hs e he), fun e he => h.inv e (hs e he), fun e he => h.d1 e (hs e he),
      fun e he => h.d2 e (hs e he), fun e he => h.d3 e (hs e he), fun e he => h.d4 e (hs e he)⟩
  refine ⟨fun y eta => ?_, fun y hy eta he => ?_, fun y hy eta he => ?_, fun y hy eta => ?_, fun y hy eta => ?_⟩
  · exact C128_family_partial C128_identity C128_gaussian trivial trivial (by rw [C128_gaussian_identity]; exact one_ne_zero)
  · exact C128_family_partial (C128_power (by norm_num)) C128_invGaussian he hy (by rw [C128_invGaussian_power y he]; exact one_ne_zero)
  · exact C128_family_partial hr C128_gamma he hy (by rw [C128_gamma_reciprocal y (ne_of_gt he)]; exact one_ne_zero)
  · exact C128_family_partial C128_log C128_poisson trivial hy (by rw [C128_poisson_log]; exact one_ne_zero)
  · exact C128_family_partial C128_logit C128_binomial trivial hy (by rw [C128_binomial_logit]; exact one_ne_zero)

/-- **C128** Violated: for a Gaussian response with a log link, at a mean of half the response, `dw_deta` and
`d2w_deta2` divide by zero, though the weight has both derivatives. -/
theorem C128_family_violated (h : 0 < mu) : odw OLink.log OVar.gaussian (2 * mu) mu = none ∧ od2w OLink.log OVar.gaussian (2 * mu) mu = none ∧
    FamOk gausLog (2 * mu) (Real.log mu) ∧ ∀ x > 0, ow OLink.log OVar.gaussian (2 * mu) x = gausLog.w (2 * mu) x := by
  have ha : oa OLink.log OVar.gaussian (2 * mu) mu = 0 := by
    simp only [oa, OLink.d1, OLink.log, OVar.gaussian, Real.exp_log h]
    field_simp
    ring
  have h1 : odw OLink.log OVar.gaussian (2 * mu) mu = none := by rw [odw, if_pos ha]
  refine ⟨h1, by rw [od2w, h1]; rfl, gausLog_ok _ _, fun x hx => ?_⟩
  rw [gausLog_w _ (ne_of_gt hx)]
  simp only [ow, oa, OLink.d1, OLink.log, OVar.gaussian, Real.exp_log hx]
  field_simp
  ring

/-! ### The scale functions -/

theorem C128_scale_gaussian (n : ℕ) {phi : ℝ} (h : 0 < phi) : ScaleOk (Scale.gaussian n) phi where
  d1 := by
    refine ((((Real.hasDerivAt_log h.ne').div_const 2).add_const (Real.log (2 * π) / 2)).const_mul (n : ℝ)).congr_deriv ?_
    simp only [Scale.gaussian]; field_simp
  d2 := by
    refine ((hasDerivAt_const phi (n : ℝ)).fun_div ((hasDerivAt_id phi).const_mul 2) (by positivity)).congr_deriv ?_
    simp only [Scale.gaussian, id]; field_simp; ring

theorem C128_scale_invGaussian {n : ℕ} (y : Fin n → ℝ) {phi : ℝ} (h : 0 < phi) : ScaleOk (Scale.invGaussian y) phi where
  d1 := by
    have := HasDerivAt.fun_sum (u := Finset.univ) fun i (_ : i ∈ (Finset.univ : Finset (Fin n))) =>
      ((Real.hasDerivAt_log h.ne').div_const 2).add_const (Real.log (2 * π * y i ^ 3) / 2)
    refine this.congr_deriv ?_
    simp only [Scale.invGaussian, Finset.sum_const, Finset.card_univ, Fintype.card_fin, nsmul_eq_mul]
    field_simp
  d2 := by
    refine ((hasDerivAt_const phi (n : ℝ)).fun_div ((hasDerivAt_id phi).const_mul 2) (by positivity)).congr_deriv ?_
    simp only [Scale.invGaussian, id]; field_simp; ring

theorem C128_scale_gamma {sp : Sp} (hsp : IsSp sp) {n : ℕ} (y : Fin n → ℝ) {phi : ℝ} (h : 0 < phi) : ScaleOk (Scale.gamma sp y) phi := by
  have hv : HasDerivAt (fun x : ℝ => 1 / x) (-(1 / phi) ^ 2) phi := by
    refine ((hasDerivAt_const phi (1 : ℝ)).fun_div (hasDerivAt_id phi) h.ne').congr_deriv ?_
    simp only [id]; field_simp; ring
  have hl := Real.hasDerivAt_log h.ne'
  have hp : 0 < 1 / phi := by positivity
  constructor
  · have := HasDerivAt.fun_sum (u := Finset.univ) fun i (_ : i ∈ (Finset.univ : Finset (Fin n))) =>
      (((((hsp.digamma _ hp).comp phi hv).fun_add (hl.fun_mul hv)).fun_add hv).add_const (Real.log (y i)))
    refine this.congr_deriv ?_
    simp only [Scale.gamma, Finset.sum_const, Finset.card_univ, Fintype.card_fin, nsmul_eq_mul]
    field_simp
    ring
  · have := ((((hsp.trigamma _ hp).comp phi hv).fun_add hl).fun_neg.fun_mul (hv.fun_pow 2)).mul_const (n : ℝ)
    refine this.congr_deriv ?_
    simp only [Scale.gamma, Function.comp_apply]
    push_cast
    field_simp
    ring

/-- **C128** The scale functions of a family with a scale are the derivatives they are named as. -/
theorem C128_scale_partial {sp : Sp} (hsp : IsSp sp) {n : ℕ} (y : Fin n → ℝ) {phi : ℝ} (h : 0 < phi) (k : FamKind) : ∀ S, k.scale sp y = some S → ScaleOk S phi := by
  intro S hS
  cases k <;> simp only [FamKind.scale, Option.some.injEq, reduceCtorEq] at hS <;> subst hS
  · exact C128_scale_gaussian n h
  · exact C128_scale_invGaussian y h
  · exact C128_scale_gamma hsp y h

/-- **C128** Violated: the families with a known scale have no scale functions, so `reml` raises for them. -/
theorem C128_scale_violated (sp : Sp) {n : ℕ} (y : Fin n → ℝ) (k : FamKind) : k.scale sp y = none ↔ k = .negbin ∨ k = .poisson ∨ k = .binomial := by
  cases k <;> simp [FamKind.scale]

end Verif.Gam
