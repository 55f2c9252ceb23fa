import Verif.Glm.Links
import Mathlib.Analysis.SpecialFunctions.Log.Deriv
import Mathlib.Analysis.SpecialFunctions.Pow.Deriv
import Mathlib.Analysis.SpecialFunctions.ExpDeriv
import Mathlib.Analysis.SpecialFunctions.Sqrt
import Mathlib.Analysis.Calculus.Deriv.Inverse
import Mathlib.Analysis.Calculus.Deriv.MeanValue
import Mathlib.Topology.Order.MonotoneContinuity
import Mathlib.Tactic.FieldSimp
import Mathlib.Tactic.Ring
import Mathlib.Tactic.Linarith
import Mathlib.Tactic.Positivity
import Mathlib.Tactic.LinearCombination
/-!
# C34, C35: link functions, their inverses and their derivatives
-/
namespace Verif.Glm
open Real Set

/-! ## Specification -/

/-- `link : M → E` and `inv : E → M` are mutually inverse. -/
def Inverse (l : LinkFns) (M E : Set ℝ) : Prop :=
  (∀ mu ∈ M, l.link mu ∈ E ∧ l.inv (l.link mu) = mu) ∧
  (∀ eta ∈ E, l.inv eta ∈ M ∧ l.link (l.inv eta) = eta)

/-- `d1`, `d2`, `d3` are the first three derivatives of `link` on `M`. -/
def LinkD3 (l : LinkFns) (M : Set ℝ) : Prop :=
  ∀ mu ∈ M, HasDerivAt l.link (l.d1 mu) mu ∧ HasDerivAt l.d1 (l.d2 mu) mu ∧
    HasDerivAt l.d2 (l.d3 mu) mu

/-- `d4` returns the derivative of `d3` on `M`. -/
def LinkD4 (l : LinkFns) (M : Set ℝ) : Prop :=
  ∀ mu ∈ M, ∃ x, l.d4 mu = some x ∧ HasDerivAt l.d3 x mu

/-- `dinv`, `d2inv` return the first two derivatives of `inv` on `E`. -/
def InvD2 (l : LinkFns) (E : Set ℝ) : Prop :=
  ∃ f : ℝ → ℝ, (∀ eta, l.dinv eta = some (f eta)) ∧
    ∀ eta ∈ E, HasDerivAt l.inv (f eta) eta ∧ HasDerivAt f (l.d2inv eta) eta

/-! ## Identity -/

theorem C34_identity : Inverse identityLink univ univ :=
  ⟨fun _ _ => ⟨trivial, rfl⟩, fun _ _ => ⟨trivial, rfl⟩⟩

theorem C35_identity_partial : LinkD3 identityLink univ ∧ LinkD4 identityLink univ ∧
    ∀ eta, HasDerivAt (fun _ : ℝ => (1 : ℝ)) (identityLink.d2inv eta) eta := by
  refine ⟨fun mu _ => ⟨hasDerivAt_id mu, hasDerivAt_const mu 1, hasDerivAt_const mu 0⟩,
    fun mu _ => ⟨0, rfl, hasDerivAt_const mu 0⟩, fun eta => ?_⟩
  simpa [identityLink] using hasDerivAt_const eta (1 : ℝ)

/-- `IdentityLink.dinv_link(eta)` always raises. -/
theorem C35_identity_dinv_violated : ¬ InvD2 identityLink univ := by
  rintro ⟨f, h, -⟩
  simpa [identityLink] using h 0

/-! ## Log -/

theorem C34_log : Inverse logLink (Ioi 0) univ :=
  ⟨fun _ h => ⟨trivial, exp_log h⟩, fun eta _ => ⟨exp_pos eta, log_exp eta⟩⟩

theorem hasDerivAt_npow (n : ℕ) (x : ℝ) : HasDerivAt (fun y : ℝ => y ^ n) (n * x ^ (n - 1)) x :=
  hasDerivAt_pow n x

/-- Derivative of `c / y ^ n`. -/
theorem hasDerivAt_const_div_pow (c : ℝ) (n : ℕ) {x : ℝ} (hx : x ≠ 0) :
    HasDerivAt (fun y : ℝ => c / y ^ (n + 1)) (-(c * (n + 1)) / x ^ (n + 2)) x := by
  have h := ((hasDerivAt_pow (n + 1) x).fun_inv (pow_ne_zero _ hx)).const_mul c
  simp only [div_eq_mul_inv]
  refine h.congr_deriv ?_
  push_cast
  field_simp
  ring

theorem C35_log : LinkD3 logLink (Ioi 0) ∧ LinkD4 logLink (Ioi 0) ∧ InvD2 logLink univ := by
  refine ⟨fun mu h => ?_, fun mu h => ?_, ⟨exp, fun _ => rfl,
    fun eta _ => ⟨hasDerivAt_exp eta, hasDerivAt_exp eta⟩⟩⟩
  · have h0 : mu ≠ 0 := (mem_Ioi.1 h).ne'
    refine ⟨(hasDerivAt_log h0).congr_deriv (by simp [logLink]), ?_, ?_⟩
    · have := hasDerivAt_const_div_pow 1 0 h0
      simpa [logLink] using this
    · have := hasDerivAt_const_div_pow (-1) 1 h0
      refine this.congr_deriv ?_
      norm_num [logLink]
  · have h0 : mu ≠ 0 := (mem_Ioi.1 h).ne'
    refine ⟨_, rfl, ?_⟩
    refine (hasDerivAt_const_div_pow 2 2 h0).congr_deriv ?_
    norm_num

/-! ## Reciprocal -/

theorem C34_reciprocal : Inverse reciprocalLink {0}ᶜ {0}ᶜ := by
  have h : ∀ x : ℝ, x ∈ ({0}ᶜ : Set ℝ) → 1 / x ∈ ({0}ᶜ : Set ℝ) ∧ 1 / (1 / x) = x := by
    intro x hx
    exact ⟨by simpa using hx, by simp⟩
  exact ⟨h, h⟩

theorem C35_reciprocal :
    LinkD3 reciprocalLink {0}ᶜ ∧ LinkD4 reciprocalLink {0}ᶜ ∧ InvD2 reciprocalLink {0}ᶜ := by
  have a1 : ∀ x : ℝ, x ≠ 0 → HasDerivAt (fun y : ℝ => 1 / y) (-1 / x ^ 2) x := by
    intro x hx
    simpa using hasDerivAt_const_div_pow 1 0 hx
  have a2 : ∀ x : ℝ, x ≠ 0 → HasDerivAt (fun y : ℝ => -1 / y ^ 2) (2 / x ^ 3) x := by
    intro x hx
    refine (hasDerivAt_const_div_pow (-1) 1 hx).congr_deriv ?_
    norm_num
  refine ⟨fun mu h => ⟨a1 mu h, a2 mu h, ?_⟩, fun mu h => ⟨_, rfl, ?_⟩, ⟨_, fun _ => rfl,
    fun eta h => ⟨a1 eta h, a2 eta h⟩⟩⟩
  · refine (hasDerivAt_const_div_pow 2 2 h).congr_deriv ?_
    norm_num [reciprocalLink]
  · refine (hasDerivAt_const_div_pow (-6) 3 h).congr_deriv ?_
    norm_num

/-! ## Logit -/

theorem C34_logit : Inverse logitLink (Ioo 0 1) univ := by
  constructor
  · rintro mu ⟨h0, h1⟩
    refine ⟨trivial, ?_⟩
    have h2 : 0 < 1 - mu := sub_pos.2 h1
    simp only [logitLink, exp_log (div_pos h0 h2)]
    field_simp
    ring
  · intro eta _
    have hu := exp_pos eta
    refine ⟨⟨?_, ?_⟩, ?_⟩
    · simp only [logitLink]; positivity
    · simp only [logitLink]
      rw [div_lt_one (by positivity)]; linarith
    · simp only [logitLink]
      have : exp eta / (exp eta + 1) / (1 - exp eta / (exp eta + 1)) = exp eta := by
        have h1 : 1 - exp eta / (exp eta + 1) = 1 / (exp eta + 1) := by field_simp; ring
        rw [h1]; field_simp
      rw [this, log_exp]

theorem one_sub_deriv (mu : ℝ) : HasDerivAt (fun y : ℝ => 1 - y) (-1) mu := by
  simpa using (hasDerivAt_id mu).const_sub 1

theorem C35_logit :
    LinkD3 logitLink (Ioo 0 1) ∧ LinkD4 logitLink (Ioo 0 1) ∧ InvD2 logitLink univ := by
  refine ⟨?_, ?_, ?_⟩
  · rintro mu ⟨h0, h1⟩
    have h2 : 1 - mu ≠ 0 := (sub_pos.2 h1).ne'
    have h3 : mu - 1 ≠ 0 := fun h => h2 (by linarith)
    have h0' := h0.ne'
    have hd := one_sub_deriv mu
    refine ⟨?_, ?_, ?_⟩
    · have := ((hasDerivAt_id mu).fun_div hd h2).log (div_ne_zero h0' h2)
      refine this.congr_deriv ?_
      simp only [logitLink, id]
      field_simp
      ring
    · have := (hasDerivAt_const mu (1 : ℝ)).fun_div ((hasDerivAt_id mu).fun_mul hd)
        (mul_ne_zero h0' h2)
      refine this.congr_deriv ?_
      simp only [logitLink, id]
      field_simp
      ring
    · have := ((hasDerivAt_id mu).const_mul 2 |>.sub_const 1).fun_div
        ((hasDerivAt_pow 2 mu).fun_mul (hd.fun_pow 2)) (mul_ne_zero (pow_ne_zero 2 h0') (pow_ne_zero 2 h2))
      refine this.congr_deriv ?_
      simp only [logitLink, id]
      have e : mu - 1 = -(1 - mu) := by ring
      rw [e]
      field_simp
      ring
  · rintro mu ⟨h0, h1⟩
    have h2 : 1 - mu ≠ 0 := (sub_pos.2 h1).ne'
    have h3 : mu - 1 ≠ 0 := fun h => h2 (by linarith)
    have h0' := h0.ne'
    refine ⟨_, rfl, ?_⟩
    have := ((((hasDerivAt_pow 2 mu).const_mul (-6)).fun_add ((hasDerivAt_id mu).const_mul 6)).sub_const 2).fun_div
        ((((hasDerivAt_id mu).sub_const 1).fun_pow 3).fun_mul (hasDerivAt_pow 3 mu))
        (mul_ne_zero (pow_ne_zero 3 h3) (pow_ne_zero 3 h0'))
    refine this.congr_deriv ?_
    simp only [id]
    have e : (1 - mu) ^ 4 = (mu - 1) ^ 4 := by ring
    rw [e]
    field_simp
    ring
  · refine ⟨_, fun _ => rfl, fun eta _ => ?_⟩
    have hu := exp_pos eta
    have h1 : exp eta + 1 ≠ 0 := by positivity
    have h2 : 1 + exp eta ≠ 0 := by positivity
    have he := hasDerivAt_exp eta
    constructor
    · have := he.fun_div (he.add_const 1) h1
      refine this.congr_deriv ?_
      have e : 1 + exp eta = exp eta + 1 := add_comm _ _
      rw [e]
      field_simp
      ring
    · have := he.fun_div ((he.const_add 1).fun_pow 2) (pow_ne_zero 2 h2)
      refine this.congr_deriv ?_
      simp only [logitLink]
      field_simp
      ring

/-! ## Log complement -/

theorem C34_logcomp : Inverse logCompLink (Iio 1) univ := by
  constructor
  · intro mu h
    refine ⟨trivial, ?_⟩
    simp only [logCompLink]
    rw [exp_log (sub_pos.2 h)]; ring
  · intro eta _
    refine ⟨?_, ?_⟩
    · simp only [logCompLink, mem_Iio]
      linarith [exp_pos eta]
    · simp only [logCompLink, sub_sub_cancel, log_exp]

theorem C35_logcomp :
    LinkD3 logCompLink (Iio 1) ∧ LinkD4 logCompLink (Iio 1) ∧ InvD2 logCompLink univ := by
  refine ⟨fun mu h => ?_, fun mu h => ⟨_, rfl, ?_⟩, ⟨_, fun _ => rfl, fun eta _ => ?_⟩⟩
  · have h2 : 1 - mu ≠ 0 := (sub_pos.2 h).ne'
    have hd := one_sub_deriv mu
    refine ⟨hd.log h2, ?_, ?_⟩
    · refine ((hasDerivAt_const mu (-1 : ℝ)).fun_div hd h2).congr_deriv ?_
      simp only [logCompLink]; field_simp; ring
    · refine ((hasDerivAt_const mu (-1 : ℝ)).fun_div (hd.fun_pow 2)
        (pow_ne_zero 2 h2)).congr_deriv ?_
      simp only [logCompLink]
      have e : mu - 1 = -(1 - mu) := by ring
      rw [e]; field_simp; ring
  · have h2 : 1 - mu ≠ 0 := (sub_pos.2 h).ne'
    have h3 : mu - 1 ≠ 0 := fun h => h2 (by linarith)
    refine ((hasDerivAt_const mu (2 : ℝ)).fun_div (((hasDerivAt_id mu).sub_const 1).fun_pow 3)
      (pow_ne_zero 3 h3)).congr_deriv ?_
    have e : (1 - mu) ^ 4 = (mu - 1) ^ 4 := by ring
    rw [e]; simp only [id]; field_simp; ring
  · exact ⟨(hasDerivAt_exp eta).const_sub 1, (hasDerivAt_exp eta).neg⟩

/-! ## Complementary log-log -/

theorem C34_cloglog : Inverse cloglogLink (Ioo 0 1) univ := by
  constructor
  · rintro mu ⟨h0, h1⟩
    refine ⟨trivial, ?_⟩
    have h2 : 0 < 1 - mu := sub_pos.2 h1
    have h3 : 0 < log (1 / (1 - mu)) := log_pos (by rw [lt_div_iff₀ h2]; linarith)
    simp only [cloglogLink]
    rw [exp_log h3, ← log_inv, one_div, inv_inv, exp_log h2]; ring
  · intro eta _
    have hu := exp_pos eta
    refine ⟨⟨?_, ?_⟩, ?_⟩
    · simp only [cloglogLink, sub_pos]
      rw [exp_lt_one_iff]; linarith
    · simp only [cloglogLink]
      linarith [exp_pos (-exp eta)]
    · simp only [cloglogLink, sub_sub_cancel, one_div]
      rw [log_inv, log_exp, neg_neg, log_exp]

theorem cll_u {mu : ℝ} (h : mu < 1) :
    HasDerivAt (fun y : ℝ => log (1 / (1 - y))) (1 / (1 - mu)) mu := by
  have h2 : 1 - mu ≠ 0 := (sub_pos.2 h).ne'
  have := ((hasDerivAt_const mu (1 : ℝ)).fun_div (one_sub_deriv mu) h2).log
    (div_ne_zero one_ne_zero h2)
  refine this.congr_deriv ?_
  field_simp
  ring

theorem C35_cloglog :
    LinkD3 cloglogLink (Ioo 0 1) ∧ LinkD4 cloglogLink (Ioo 0 1) ∧ InvD2 cloglogLink univ := by
  refine ⟨?_, ?_, ⟨_, fun _ => rfl, fun eta _ => ?_⟩⟩
  · rintro mu ⟨h0, h1⟩
    have h2 : 0 < 1 - mu := sub_pos.2 h1
    have h3 : 0 < log (1 / (1 - mu)) := log_pos (by rw [lt_div_iff₀ h2]; linarith)
    have hu := cll_u h1
    have hd := one_sub_deriv mu
    refine ⟨?_, ?_, ?_⟩
    · refine (hu.log h3.ne').congr_deriv ?_
      simp only [cloglogLink]
      rw [div_div]
    · refine ((hasDerivAt_const mu (1 : ℝ)).fun_div (hd.fun_mul hu)
        (mul_ne_zero h2.ne' h3.ne')).congr_deriv ?_
      simp only [cloglogLink]
      generalize log (1 / (1 - mu)) = u at h3
      have := h2.ne'
      have := h3.ne'
      field_simp
      ring
    · refine ((hu.sub_const 1).fun_div ((hd.fun_pow 2).fun_mul (hu.fun_pow 2))
        (mul_ne_zero (pow_ne_zero 2 h2.ne') (pow_ne_zero 2 h3.ne'))).congr_deriv ?_
      simp only [cloglogLink]
      generalize log (1 / (1 - mu)) = u at h3
      have := h2.ne'
      have := h3.ne'
      have e : mu - 1 = -(1 - mu) := by ring
      rw [e]
      field_simp
      ring
  · rintro mu ⟨h0, h1⟩
    have h2 : 0 < 1 - mu := sub_pos.2 h1
    have h3 : 0 < log (1 / (1 - mu)) := log_pos (by rw [lt_div_iff₀ h2]; linarith)
    have hm : mu - 1 ≠ 0 := by intro h; linarith
    have hu := cll_u h1
    refine ⟨_, rfl, ?_⟩
    refine (((((hu.fun_pow 2).const_mul (-2)).fun_add (hu.const_mul 3)).sub_const 2).fun_div
      ((((hasDerivAt_id mu).sub_const 1).fun_pow 3).fun_mul (hu.fun_pow 3))
      (mul_ne_zero (pow_ne_zero 3 hm) (pow_ne_zero 3 h3.ne'))).congr_deriv ?_
    simp only [id]
    generalize log (1 / (1 - mu)) = u at h3
    have := h2.ne'
    have := h3.ne'
    have e : mu - 1 = -(1 - mu) := by ring
    rw [e]
    field_simp
    ring
  · have he := hasDerivAt_exp eta
    have h1 : HasDerivAt (fun y : ℝ => exp (y - exp y)) (exp (eta - exp eta) * (1 - exp eta)) eta :=
      ((hasDerivAt_id eta).sub he).exp
    refine ⟨?_, h1.congr_deriv ?_⟩
    · refine (he.fun_neg.exp.const_sub 1).congr_deriv ?_
      rw [sub_eq_add_neg eta, exp_add]; ring
    · simp only [cloglogLink]; ring

/-! ## Negative binomial -/

theorem C34_negbin {k : ℝ} (hk : 0 < k) : Inverse (negBinLink k) (Ioi 0) (Iio 0) := by
  constructor
  · intro mu h
    have h0 : 0 < mu := h
    have hv : 0 < mu + 1 / k := by positivity
    have hlt : mu / (mu + 1 / k) < 1 := by
      rw [div_lt_one hv]; linarith [one_div_pos.2 hk]
    refine ⟨log_neg (div_pos h0 hv) hlt, ?_⟩
    simp only [negBinLink, negBinLinkKV]
    rw [exp_log (div_pos h0 hv)]
    have : 1 - mu / (mu + 1 / k) = 1 / (k * (mu + 1 / k)) := by field_simp; ring
    rw [this]
    field_simp
  · intro eta h
    have h0 : eta < 0 := h
    have hu := exp_pos eta
    have hu1 : 0 < 1 - exp eta := by
      have := exp_lt_one_iff.2 h0; linarith
    refine ⟨?_, ?_⟩
    · simp only [negBinLink, negBinLinkKV, mem_Ioi]; positivity
    · simp only [negBinLink, negBinLinkKV]
      have : exp eta / (k * (1 - exp eta)) / (exp eta / (k * (1 - exp eta)) + 1 / k) = exp eta := by
        have h1 : exp eta / (k * (1 - exp eta)) + 1 / k = 1 / (k * (1 - exp eta)) := by
          field_simp; ring
        rw [h1]; field_simp
      rw [this, log_exp]

theorem negbin_d1 {k mu : ℝ} (hk : 0 < k) (h0 : 0 < mu) :
    HasDerivAt (negBinLink k).link ((negBinLink k).d1 mu) mu := by
  have hv : 0 < mu + 1 / k := by positivity
  refine (((hasDerivAt_id mu).fun_div ((hasDerivAt_id mu).add_const (1 / k)) hv.ne').log
    (div_pos h0 hv).ne').congr_deriv ?_
  simp only [negBinLink, negBinLinkKV, id]
  have : mu + k * mu ^ 2 ≠ 0 := by positivity
  have : mu * k + 1 ≠ 0 := by positivity
  field_simp
  ring

theorem negbin_d2 {k mu : ℝ} (hk : 0 < k) (h0 : 0 < mu) :
    HasDerivAt (negBinLink k).d1 (-(negBinLink k).d2 mu) mu := by
  have h1 : mu + k * mu ^ 2 ≠ 0 := by positivity
  refine ((hasDerivAt_const mu (1 : ℝ)).fun_div
    ((hasDerivAt_id mu).fun_add ((hasDerivAt_pow 2 mu).const_mul k)) h1).congr_deriv ?_
  simp only [negBinLink, negBinLinkKV, id]
  have : mu * k + 1 ≠ 0 := by positivity
  field_simp
  ring

theorem negbin_d3 {k mu : ℝ} (hk : 0 < k) (h0 : 0 < mu) :
    HasDerivAt (fun m => -(negBinLink k).d2 m) ((negBinLink k).d3 mu) mu := by
  have hv : 0 < 1 / k := by positivity
  simp only [negBinLink, negBinLinkKV]
  generalize 1 / k = v at hv
  have h1 : mu ^ 2 * (v + mu) ^ 2 ≠ 0 := by positivity
  refine (((((hasDerivAt_id mu).const_mul 2).const_add v).const_mul v).fun_div
    ((hasDerivAt_pow 2 mu).fun_mul (((hasDerivAt_id mu).const_add v).fun_pow 2)) h1).fun_neg.congr_deriv ?_
  simp only [id]
  have : v + mu ≠ 0 := by positivity
  field_simp
  ring

theorem negbin_d4 {k mu : ℝ} (hk : 0 < k) (h0 : 0 < mu) :
    ∃ x, (negBinLink k).d4 mu = some x ∧ HasDerivAt (negBinLink k).d3 (-x) mu ∧ 0 < x := by
  have hv : 0 < 1 / k := by positivity
  refine ⟨_, rfl, ?_, ?_⟩
  · simp only [negBinLink, negBinLinkKV]
    generalize 1 / k = v at hv
    have h1 : mu ^ 3 * (v + mu) ^ 3 ≠ 0 := by positivity
    refine (((((hasDerivAt_id mu).const_mul (3 * v)).const_add (v ^ 2)).fun_add
      ((hasDerivAt_pow 2 mu).const_mul 3)).const_mul (2 * v) |>.fun_div
      ((hasDerivAt_pow 3 mu).fun_mul (((hasDerivAt_id mu).const_add v).fun_pow 3)) h1).congr_deriv ?_
    simp only [id]
    have : v + mu ≠ 0 := by positivity
    have : mu + v ≠ 0 := by positivity
    rw [add_comm mu v]
    field_simp
    ring
  · positivity

/-- The first and third derivative of the negative binomial link and both derivatives of its
inverse are right; the second and fourth have the wrong sign. -/
theorem C35_negbin_partial {k : ℝ} (hk : 0 < k) :
    (∀ mu > 0, HasDerivAt (negBinLink k).link ((negBinLink k).d1 mu) mu ∧
      HasDerivAt (negBinLink k).d1 (-(negBinLink k).d2 mu) mu ∧
      HasDerivAt (fun m => -(negBinLink k).d2 m) ((negBinLink k).d3 mu) mu ∧
      ∃ x, (negBinLink k).d4 mu = some x ∧ HasDerivAt (negBinLink k).d3 (-x) mu) ∧
    InvD2 (negBinLink k) (Iio 0) := by
  refine ⟨fun mu h => ⟨negbin_d1 hk h, negbin_d2 hk h, negbin_d3 hk h, ?_⟩, ?_⟩
  · obtain ⟨x, h1, h2, -⟩ := negbin_d4 hk h
    exact ⟨x, h1, h2⟩
  · refine ⟨_, fun _ => rfl, fun eta h => ?_⟩
    have h0 : eta < 0 := h
    have he := hasDerivAt_exp eta
    have hu1 : 1 - exp eta ≠ 0 := by
      have := exp_lt_one_iff.2 h0; linarith
    constructor
    · refine (he.fun_div ((he.const_sub 1).const_mul k) (mul_ne_zero hk.ne' hu1)).congr_deriv ?_
      field_simp
      ring
    · refine (he.fun_div (((he.const_sub 1).fun_pow 2).const_mul k)
        (mul_ne_zero hk.ne' (pow_ne_zero 2 hu1))).congr_deriv ?_
      simp only [negBinLink, negBinLinkKV]
      have e : exp eta - 1 = -(1 - exp eta) := by ring
      rw [e]
      field_simp
      ring

/-- `d2link` of the negative binomial link is never the derivative of `dlink`. -/
theorem C35_negbin_d2_violated {k mu : ℝ} (hk : 0 < k) (h0 : 0 < mu) :
    ¬ HasDerivAt (negBinLink k).d1 ((negBinLink k).d2 mu) mu := by
  intro h
  have h1 := h.unique (negbin_d2 hk h0)
  have h2 : 0 < (negBinLink k).d2 mu := by
    simp only [negBinLink, negBinLinkKV]; positivity
  linarith

/-- `d4link` of the negative binomial link is never the derivative of `d3link`. -/
theorem C35_negbin_d4_violated {k mu : ℝ} (hk : 0 < k) (h0 : 0 < mu) :
    ¬ ∃ x, (negBinLink k).d4 mu = some x ∧ HasDerivAt (negBinLink k).d3 x mu := by
  rintro ⟨x, hx, h⟩
  obtain ⟨y, hy, h2, h3⟩ := negbin_d4 hk h0
  obtain rfl : x = y := by rw [hx] at hy; exact Option.some.inj hy
  have := h.unique h2
  linarith

/-! ## Power -/

theorem C34_power_zero : Inverse (powerLink 0) (Ioi 0) univ := by
  have := C34_log
  simpa [Inverse, powerLink, powLink, powInv, logLink] using this

theorem C34_power {α : ℝ} (hα : α ≠ 0) : Inverse (powerLink α) (Ioi 0) (Ioi 0) := by
  simp only [Inverse, powerLink, powLink, powInv, if_neg hα]
  refine ⟨fun mu h => ⟨rpow_pos_of_pos h _, ?_⟩, fun eta h => ⟨rpow_pos_of_pos h _, ?_⟩⟩
  · rw [← rpow_mul (le_of_lt h), mul_one_div_cancel hα, rpow_one]
  · rw [← rpow_mul (le_of_lt h), one_div_mul_cancel hα, rpow_one]

theorem pow_d1 {α mu : ℝ} (hα : α ≠ 0) (h : 0 < mu) :
    (powerLink α).d1 mu = α * mu ^ (α - 1) := by
  simp only [powerLink, powDinv, powLink, if_neg hα]
  rw [← rpow_mul h.le, mul_sub, mul_one_div_cancel hα, mul_one, one_div_div,
    div_eq_mul_inv, ← rpow_neg h.le]
  congr 2; ring

theorem C35_power {α : ℝ} (hα : α ≠ 0) : LinkD3 (powerLink α) (Ioi 0) ∧
    LinkD4 (powerLink α) (Ioi 0) ∧
    ∃ f : ℝ → ℝ, (∀ eta, (powerLink α).dinv eta = some (f eta)) ∧
      ∀ eta ∈ Ioi 0, HasDerivAt (powerLink α).inv (f eta) eta := by
  have hp : ∀ (b mu : ℝ), 0 < mu → HasDerivAt (fun y : ℝ => y ^ b) (b * mu ^ (b - 1)) mu :=
    fun b mu h => hasDerivAt_rpow_const (Or.inl h.ne')
  refine ⟨fun mu h => ⟨?_, ?_, ?_⟩, fun mu h => ⟨_, rfl, ?_⟩, ⟨_, fun _ => rfl, fun eta h => ?_⟩⟩
  · rw [pow_d1 hα h]
    have e : (powerLink α).link = fun y => y ^ α := by
      funext y; simp only [powerLink, powLink, if_neg hα]
    rw [e]
    exact hp α mu h
  · have e : (powerLink α).d1 =ᶠ[nhds mu] fun y => α * y ^ (α - 1) := by
      filter_upwards [Ioi_mem_nhds h] with y hy using pow_d1 hα hy
    refine HasDerivAt.congr_of_eventuallyEq ?_ e
    refine ((hp (α - 1) mu h).const_mul α).congr_deriv ?_
    simp only [powerLink, if_neg hα]
    rw [show α - 1 - 1 = α - 2 by ring]; ring
  · have e : (powerLink α).d2 = fun y => (α - 1) * α * y ^ (α - 2) := by
      funext y; simp only [powerLink, if_neg hα]
    rw [e]
    refine ((hp (α - 2) mu h).const_mul _).congr_deriv ?_
    simp only [powerLink, if_neg hα]
    rw [show α - 2 - 1 = α - 3 by ring]; ring
  · have e : (powerLink α).d3 = fun y => (α - 2) * (α - 1) * α * y ^ (α - 3) := by
      funext y; simp only [powerLink, if_neg hα]
    rw [e]
    refine ((hp (α - 3) mu h).const_mul _).congr_deriv ?_
    simp only [if_neg hα]
    rw [show α - 3 - 1 = α - 4 by ring]; ring
  · have e : (powerLink α).inv = fun y => y ^ (1 / α) := by
      funext y; simp only [powerLink, powInv, if_neg hα]
    rw [e]
    refine (hp (1 / α) eta h).congr_deriv ?_
    simp only [powDinv, if_neg hα]
    field_simp

/-- With `alpha = 0` all methods are those of the log link. -/
theorem C35_power_zero : LinkD3 (powerLink 0) (Ioi 0) ∧ LinkD4 (powerLink 0) (Ioi 0) ∧
    InvD2 (powerLink 0) univ := by
  obtain ⟨h1, h2, h3⟩ := C35_log
  refine ⟨?_, ?_, ?_⟩
  · intro mu h
    obtain ⟨a, b, c⟩ := h1 mu h
    have e1 : (powerLink 0).link = logLink.link := by funext y; simp [powerLink, powLink, logLink]
    have e2 : (powerLink 0).d2 = logLink.d2 := by funext y; simp [powerLink, logLink]
    have e3 : (powerLink 0).d3 = logLink.d3 := by funext y; simp [powerLink, logLink]
    have e4 : ∀ y > 0, (powerLink 0).d1 y = logLink.d1 y := by
      intro y hy; simp [powerLink, powDinv, powLink, logLink, exp_log hy]
    rw [e1, e2, e3, e4 mu h]
    refine ⟨a, b.congr_of_eventuallyEq ?_, c⟩
    filter_upwards [Ioi_mem_nhds h] with y hy using e4 y hy
  · intro mu h
    have e3 : (powerLink 0).d3 = logLink.d3 := by funext y; simp [powerLink, logLink]
    have e4 : (powerLink 0).d4 = logLink.d4 := by funext y; simp [powerLink, logLink]
    rw [e3, e4]; exact h2 mu h
  · obtain ⟨f, a, b⟩ := h3
    have e1 : (powerLink 0).inv = logLink.inv := by funext y; simp [powerLink, powInv, logLink]
    have e2 : (powerLink 0).dinv = logLink.dinv := by
      funext y; simp [powerLink, powDinv, logLink]
    have e3 : (powerLink 0).d2inv = logLink.d2inv := by funext y; simp [powerLink, logLink]
    exact ⟨f, by rw [e2]; exact a, by rw [e1, e3]; exact b⟩

/-- `PowerLink.d2inv_link` has the wrong sign: for no `alpha` other than 0 and 1 is it the
derivative of `dinv_link`. -/
theorem C35_power_d2inv_violated {α eta : ℝ} (hα : α ≠ 0) (h1 : α ≠ 1) (h : 0 < eta) :
    ¬ HasDerivAt (powDinv α) ((powerLink α).d2inv eta) eta := by
  intro hd
  have e : powDinv α = fun y => y ^ (1 / α - 1) / α := by
    funext y; simp only [powDinv, if_neg hα]
  have h2 : HasDerivAt (powDinv α) (-(powerLink α).d2inv eta) eta := by
    rw [e]
    refine ((hasDerivAt_rpow_const (p := 1 / α - 1) (Or.inl h.ne')).div_const α).congr_deriv ?_
    simp only [powerLink, if_neg hα]
    rw [show 1 / α - 1 - 1 = 1 / α - 2 by ring]
    field_simp
    ring
  have h3 := hd.unique h2
  have h4 : (powerLink α).d2inv eta ≠ 0 := by
    simp only [powerLink, if_neg hα]
    have := (rpow_pos_of_pos h (1 / α - 2)).ne'
    have := sub_ne_zero.2 h1
    positivity
  apply h4; linarith

/-! ## Probit -/

/-- Contract of scipy's `ndtr`, `ndtri`, `erfinv`: the normal distribution function, its inverse,
and the inverse error function (`ndtr x = (1 + erf (x / sqrt 2)) / 2`). -/
structure IsNdtr (ndtr ndtri erfinv : ℝ → ℝ) : Prop where
  deriv : ∀ x, HasDerivAt ndtr (exp (-x ^ 2 / 2) / sqrt (2 * π)) x
  range : ∀ x, ndtr x ∈ Ioo 0 1
  left : ∀ x, ndtri (ndtr x) = x
  right : ∀ m ∈ Ioo (0 : ℝ) 1, ndtr (ndtri m) = m
  erf : ∀ m ∈ Ioo (0 : ℝ) 1, erfinv (2 * m - 1) = ndtri m / sqrt 2

theorem C34_probit {ndtr ndtri erfinv : ℝ → ℝ} (h : IsNdtr ndtr ndtri erfinv) :
    Inverse (probitLink ndtr ndtri erfinv) (Ioo 0 1) univ :=
  ⟨fun mu hm => ⟨trivial, h.right mu hm⟩, fun eta _ => ⟨h.range eta, h.left eta⟩⟩

theorem ndtri_deriv {ndtr ndtri erfinv : ℝ → ℝ} (h : IsNdtr ndtr ndtri erfinv) {m : ℝ}
    (hm : m ∈ Ioo (0 : ℝ) 1) :
    HasDerivAt ndtri (exp (ndtri m ^ 2 / 2) * sqrt (2 * π)) m := by
  have hmono : StrictMono ndtr := by
    apply strictMono_of_deriv_pos
    intro x
    rw [(h.deriv x).deriv]
    have := pi_pos
    positivity
  have himono : StrictMonoOn ndtri (Ioo 0 1) := by
    intro a ha b hb hab
    by_contra hle
    have := hmono.monotone (not_lt.1 hle)
    rw [h.right a ha, h.right b hb] at this
    linarith
  have himage : ndtri '' (Ioo 0 1) = univ :=
    eq_univ_of_forall fun x => ⟨ndtr x, h.range x, h.left x⟩
  have hc : ContinuousAt ndtri m :=
    himono.continuousAt_of_image_mem_nhds (Ioo_mem_nhds hm.1 hm.2)
      (by rw [himage]; exact Filter.univ_mem)
  have hne : exp (-ndtri m ^ 2 / 2) / sqrt (2 * π) ≠ 0 := by
    have := pi_pos
    positivity
  have := (h.deriv (ndtri m)).of_local_left_inverse hc hne (by
    filter_upwards [Ioo_mem_nhds hm.1 hm.2] with y hy using h.right y hy)
  refine this.congr_deriv ?_
  rw [inv_div, div_eq_mul_inv, ← exp_neg, mul_comm]
  congr 2; ring

/-- Everything in the probit link that does not raise is right. -/
theorem C35_probit_partial {ndtr ndtri erfinv : ℝ → ℝ} (h : IsNdtr ndtr ndtri erfinv) :
    LinkD3 (probitLink ndtr ndtri erfinv) (Ioo 0 1) ∧
      InvD2 (probitLink ndtr ndtri erfinv) univ := by
  have hs2 : sqrt 2 ^ 2 = 2 := sq_sqrt (by norm_num)
  have hs2p : 0 < sqrt 2 := sqrt_pos.2 (by norm_num)
  have hp := pi_pos
  have hsp : sqrt π ^ 2 = π := sq_sqrt hp.le
  have hspi : sqrt (2 * π) = sqrt 2 * sqrt π := sqrt_mul (by norm_num) π
  have e2 : ∀ y ∈ Ioo (0 : ℝ) 1, erfinv (2 * y - 1) ^ 2 = ndtri y ^ 2 / 2 := by
    intro y hy
    rw [h.erf y hy, div_pow, hs2]
  constructor
  · intro m hm
    have hz := ndtri_deriv h hm
    have hz2 : HasDerivAt (fun y => ndtri y ^ 2 / 2)
        (ndtri m * (exp (ndtri m ^ 2 / 2) * sqrt (2 * π))) m := by
      refine ((hz.fun_pow 2).div_const 2).congr_deriv ?_
      push_cast; ring
    refine ⟨?_, ?_, ?_⟩
    · refine hz.congr_deriv ?_
      simp only [probitLink]
      rw [e2 m hm]
    · have e : (probitLink ndtr ndtri erfinv).d1 =ᶠ[nhds m]
          fun y => exp (ndtri y ^ 2 / 2) * sqrt (2 * π) := by
        filter_upwards [Ioo_mem_nhds hm.1 hm.2] with y hy
        simp only [probitLink]; rw [e2 y hy]
      refine HasDerivAt.congr_of_eventuallyEq ?_ e
      refine (hz2.exp.mul_const _).congr_deriv ?_
      simp only [probitLink]
      rw [e2 m hm, h.erf m hm, hspi]
      have ex : exp (2 * (ndtri m ^ 2 / 2)) = exp (ndtri m ^ 2 / 2) * exp (ndtri m ^ 2 / 2) := by
        rw [← exp_add]; congr 1; ring
      rw [ex]
      field_simp
      rw [hs2, hsp]
    · have e : (probitLink ndtr ndtri erfinv).d2 =ᶠ[nhds m]
          fun y => 2 * sqrt 2 * π * exp (2 * (ndtri y ^ 2 / 2)) * (ndtri y / sqrt 2) := by
        filter_upwards [Ioo_mem_nhds hm.1 hm.2] with y hy
        simp only [probitLink]; rw [e2 y hy, h.erf y hy]
      refine HasDerivAt.congr_of_eventuallyEq ?_ e
      refine (((hz2.const_mul 2).exp.const_mul (2 * sqrt 2 * π)).fun_mul
        (hz.div_const (sqrt 2))).congr_deriv ?_
      simp only [probitLink]
      rw [e2 m hm]
      have ex : exp (3 * (ndtri m ^ 2 / 2)) =
          exp (2 * (ndtri m ^ 2 / 2)) * exp (ndtri m ^ 2 / 2) := by
        rw [← exp_add]; congr 1; ring
      have hpp : π ^ ((3 : ℝ) / 2) = π * sqrt π := by
        rw [show (3 : ℝ) / 2 = 1 + 1 / 2 by norm_num, rpow_add hp, rpow_one, ← sqrt_eq_rpow]
      rw [ex, hpp, hspi]
      field_simp
      ring_nf
  · refine ⟨_, fun _ => rfl, fun eta _ => ⟨h.deriv eta, ?_⟩⟩
    have h1 : HasDerivAt (fun y : ℝ => -y ^ 2 / 2) (-eta) eta := by
      refine ((hasDerivAt_pow 2 eta).fun_neg.div_const 2).congr_deriv ?_
      push_cast; ring
    refine (h1.exp.div_const _).congr_deriv ?_
    simp only [probitLink]; ring

/-- `ProbitLink.d4link` raises for every argument. -/
theorem C35_probit_d4_violated (ndtr ndtri erfinv : ℝ → ℝ) :
    ¬ LinkD4 (probitLink ndtr ndtri erfinv) (Ioo 0 1) := by
  intro h
  obtain ⟨x, hx, -⟩ := h (1 / 2) ⟨by norm_num, by norm_num⟩
  simp [probitLink] at hx

end Verif.Glm
