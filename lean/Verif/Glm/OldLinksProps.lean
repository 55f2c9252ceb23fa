import Verif.Glm.OldFamiliesProps
/-!
# C210: links of `pyglm/links.py` and `pylmm/links.py`
-/
namespace Verif.Glm.Old
open Real Set Filter Topology Verif.Glm

/-- Replacing `dlink` by a function equal to it on an open set keeps the derivatives right. -/
theorem linkD_congr {l l' : LinkFns} {M : Set ℝ} (ho : IsOpen M) (hl : l'.link = l.link)
    (h2 : l'.d2 = l.d2) (h3 : l'.d3 = l.d3) (h1 : ∀ mu ∈ M, l'.d1 mu = l.d1 mu)
    (h : LinkD3 l M) : LinkD3 l' M := by
  intro mu hm
  obtain ⟨a, b, c⟩ := h mu hm
  refine ⟨?_, ?_, ?_⟩
  · rw [hl, h1 mu hm]; exact a
  · rw [h2]
    exact b.congr_of_eventuallyEq (by filter_upwards [ho.mem_nhds hm] with x hx; exact h1 x hx)
  · rw [h2, h3]; exact c

theorem C210_identity : Inverse identityO univ univ ∧ LinkD3 identityO univ ∧
    LinkD4 identityO univ ∧ InvD2 identityO univ := by
  refine ⟨C34_identity, C35_identity_partial.1, C35_identity_partial.2.1, fun eta => 0 * eta + 1,
    fun _ => rfl, fun eta _ => ⟨?_, ?_⟩⟩
  · exact (hasDerivAt_id eta).congr_deriv (by simp)
  · refine (((hasDerivAt_id eta).const_mul 0).add_const 1).congr_deriv ?_
    simp [identityO, identityLink]

theorem C210_log : Inverse logO (Ioi 0) univ ∧ LinkD3 logO (Ioi 0) ∧ LinkD4 logO (Ioi 0) ∧
    InvD2 logO univ :=
  ⟨C34_log, linkD_congr (l := logLink) isOpen_Ioi rfl rfl rfl
    (fun mu hm => by simp only [logO, logLink, exp_log (show 0 < mu from hm)]) C35_log.1,
    C35_log.2.1, C35_log.2.2⟩

theorem C210_reciprocal : Inverse reciprocalO {0}ᶜ {0}ᶜ ∧ LinkD3 reciprocalO {0}ᶜ ∧
    LinkD4 reciprocalO {0}ᶜ ∧ InvD2 reciprocalO {0}ᶜ :=
  ⟨C34_reciprocal, linkD_congr (l := reciprocalLink) isOpen_compl_singleton rfl rfl
    rfl
    (fun mu hm => by
      have hm : mu ≠ 0 := hm
      simp only [reciprocalO, reciprocalLink]; field_simp) C35_reciprocal.1,
    C35_reciprocal.2.1, C35_reciprocal.2.2⟩

theorem C210_cloglog : Inverse cloglogO (Ioo 0 1) univ ∧ LinkD3 cloglogO (Ioo 0 1) ∧
    LinkD4 cloglogO (Ioo 0 1) ∧ InvD2 cloglogO univ := by
  refine ⟨C34_cloglog, linkD_congr (l := cloglogLink) isOpen_Ioo rfl rfl rfl (fun mu hm => ?_)
    C35_cloglog.1,
    C35_cloglog.2.1, C35_cloglog.2.2⟩
  obtain ⟨h0, h1⟩ := hm
  have h2 : 0 < 1 - mu := sub_pos.2 h1
  have h3 : 0 < log (1 / (1 - mu)) := log_pos (by rw [one_lt_div h2]; linarith)
  simp only [cloglogO, cloglogLink]
  rw [exp_sub, exp_log h3, exp_log (by positivity)]
  field_simp

/-- The probit link: all derivatives but the fourth. -/
theorem C210_probit_partial {ndtr ndtri erfinv : ℝ → ℝ} (h : IsNdtr ndtr ndtri erfinv) :
    Inverse (probitO ndtr ndtri erfinv) (Ioo 0 1) univ ∧
    LinkD3 (probitO ndtr ndtri erfinv) (Ioo 0 1) ∧ InvD2 (probitO ndtr ndtri erfinv) univ := by
  obtain ⟨f, hf, hd⟩ := (C35_probit_partial h).2
  refine ⟨C34_probit h, linkD_congr (l := probitLink ndtr ndtri erfinv) isOpen_Ioo rfl rfl rfl
    (fun mu hm => ?_)
    (C35_probit_partial h).1, (C35_probit_partial h).2⟩
  have g := (good_probit h).inv_deriv (mem_univ (ndtri mu))
  have e : (probitLink ndtr ndtri erfinv).inv (ndtri mu) = mu := ((C34_probit h).1 mu hm).2
  rw [e] at g
  have u := g.2.unique (hd (ndtri mu) trivial).1
  have e2 : f (ndtri mu) = exp (-ndtri mu ^ 2 / 2) / sqrt (2 * π) :=
    (Option.some.inj (hf (ndtri mu))).symm
  rw [e2] at u
  show 1 / (exp (-ndtri mu ^ 2 / 2) / sqrt (2 * π)) = _
  rw [← u, one_div_one_div]

/-- `d4link` calls a function that `scipy.special` does not have. -/
theorem C210_probit_d4_violated (ndtr ndtri erfinv : ℝ → ℝ) :
    ¬ LinkD4 (probitO ndtr ndtri erfinv) (Ioo 0 1) := by
  intro h
  obtain ⟨x, hx, -⟩ := h (1 / 2) ⟨by norm_num, by norm_num⟩
  cases hx

/-! ## `PowerLink` of `pylmm` -/

/-- For exponent zero (the log link) all is right. -/
theorem C210_power_zero_partial (eta : ℝ) : HasDerivAt (powInv 0) (powDinvL 0 eta) eta ∧
    HasDerivAt (powDinvL 0) (powD2invL 0 eta) eta ∧
    ∀ mu > 0, HasDerivAt (powLink 0) (powD1L 0 mu) mu := by
  have e1 : powInv 0 = exp := by funext x; simp [powInv]
  have e2 : powDinvL 0 = exp := by funext x; simp [powDinvL]
  have e3 : powLink 0 = log := by funext x; simp [powLink]
  refine ⟨?_, ?_, fun mu hm => ?_⟩
  · rw [e1, e2]; exact hasDerivAt_exp eta
  · rw [e2, show powD2invL 0 eta = exp eta by simp [powD2invL]]; exact hasDerivAt_exp eta
  · rw [powD1L, e2, e3, exp_log hm, one_div]; exact hasDerivAt_log (ne_of_gt hm)

/-- For positive exponents `dinv_link` and `d2inv_link` are the derivatives in the exponent. -/
theorem C210_power_alpha {α eta : ℝ} (hα : 0 < α) (he : 0 < eta) :
    HasDerivAt (fun a => powInv a eta) (powDinvL α eta) α ∧
    HasDerivAt (fun a => powDinvL a eta) (powD2invL α eta) α := by
  have hi : HasDerivAt (fun a : ℝ => 1 / a) (-1 / α ^ 2) α := by
    simpa using hasDerivAt_const_div_pow 1 0 hα.ne'
  have hp : HasDerivAt (fun a : ℝ => eta ^ (1 / a)) (log eta * (-1 / α ^ 2) * eta ^ (1 / α)) α :=
    hi.const_rpow he
  refine ⟨?_, ?_⟩
  · refine (hp.congr_deriv ?_).congr_of_eventuallyEq ?_
    · simp only [powDinvL, if_neg hα.ne']; ring
    · filter_upwards [Ioi_mem_nhds hα] with a ha
      simp only [powInv, if_neg (ne_of_gt (show 0 < a from ha))]
  · have h2 : HasDerivAt (fun a : ℝ => a ^ 2) (2 * α) α :=
      (hasDerivAt_pow 2 α).congr_deriv (by norm_num)
    refine (((hp.mul_const (log eta)).fun_neg.fun_div h2 (by positivity)).congr_deriv
      ?_).congr_of_eventuallyEq ?_
    · simp only [powD2invL, if_neg hα.ne']
      generalize eta ^ (1 / α) = E
      field_simp
      ring
    · filter_upwards [Ioi_mem_nhds hα] with a ha
      simp only [powDinvL, if_neg (ne_of_gt (show 0 < a from ha))]

/-- They are not the derivatives in the linear predictor: at one they return zero, and `dlink`
divides by that zero, for every exponent other than zero. -/
theorem C210_power_violated {α : ℝ} (hα : α ≠ 0) :
    ¬ HasDerivAt (powInv α) (powDinvL α 1) 1 ∧ powDinvL α (powLink α 1) = 0 := by
  have h0 : powDinvL α 1 = 0 := by simp [powDinvL, hα]
  refine ⟨fun h => ?_, ?_⟩
  · have h2 : HasDerivAt (powInv α) (1 / α) 1 := by
      have h3 := hasDerivAt_rpow_const (x := 1) (p := 1 / α) (Or.inl one_ne_zero)
      refine (h3.congr_deriv (by simp)).congr_of_eventuallyEq ?_
      exact Eventually.of_forall fun x => by simp only [powInv, if_neg hα]
    rw [h0] at h
    exact one_div_ne_zero hα (h2.unique h)
  · rw [show powLink α 1 = 1 by simp [powLink, hα]]; exact h0

/-- For the identity (`alpha = 1`), away from one, all three are wrong too: at `exp 1` the second
derivative should be zero and the first one. -/
theorem C210_power_one_violated :
    powInv 1 = id ∧ powDinvL 1 (exp 1) = -exp 1 ∧ powD2invL 1 (exp 1) = 3 * exp 1 ∧
    powD1L 1 (exp 1) = -(1 / exp 1) ∧
    ¬ HasDerivAt (powInv 1) (powDinvL 1 (exp 1)) (exp 1) ∧
    ¬ HasDerivAt (powLink 1) (powD1L 1 (exp 1)) (exp 1) := by
  have e1 : powInv 1 = id := by funext x; simp [powInv]
  have e2 : powLink 1 = id := by funext x; simp [powLink]
  have h1 : powDinvL 1 (exp 1) = -exp 1 := by simp [powDinvL]
  have h3 : powD1L 1 (exp 1) = -(1 / exp 1) := by
    rw [powD1L, e2, id, h1, one_div_neg_eq_neg_one_div]
  have hp := exp_pos 1
  refine ⟨e1, h1, ?_, h3, fun h => ?_, fun h => ?_⟩
  · simp [powD2invL]; ring
  · rw [e1, h1] at h
    have := h.unique (hasDerivAt_id _)
    linarith
  · rw [e2, h3] at h
    have := h.unique (hasDerivAt_id _)
    have : 0 < 1 / exp 1 := by positivity
    linarith

end Verif.Glm.Old
