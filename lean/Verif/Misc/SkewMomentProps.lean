import Verif.Misc.SkewMomentLemmas

/-!
# C181: moments and random draws of the skew normal distribution
-/

namespace Verif.Misc.SkewNorm

open Verif.Glm Verif.Misc MeasureTheory Set Filter Topology

section
variable {m s v : ℝ} (hs : 0 < s)
include hs

/-- The density integrates to one. -/
theorem C181_total : ∫ y, dens y m s v = 1 := by
  have h := expect (m := m) (v := v) hs fun _ => 1
  simp only [one_mul] at h
  have := A0 v
  simp only [A, pow_zero, one_mul] at this
  rw [h, this]

omit hs in
theorem t_eq (v : ℝ) : √(2 / ((1 + v ^ 2) * Real.pi)) = 2 / (√(1 + v ^ 2) * √(2 * Real.pi)) := by
  have hp := Real.pi_pos
  rw [Real.sqrt_eq_iff_mul_self_eq (by positivity) (by positivity), ← sq, div_pow, mul_pow,
    Real.sq_sqrt (by positivity), Real.sq_sqrt (by positivity)]
  field_simp

/-- `_mean` is the mean. -/
theorem C181_mean : Integrable (fun y => y * dens y m s v) ∧
    mean m s v = ∫ y, y * dens y m s v := by
  constructor
  · rw [expect_int hs fun y => y]
    refine (poly_int v m s 0 0).congr (Eventually.of_forall fun x => ?_)
    simp only; ring
  · have h := poly_E v m s 0 0
    rw [expect hs fun y => y]
    have e : (fun x => (m + s * x) * ndtr0 (v * x) * phi0 x) = fun x =>
      (m + s * x + 0 * x ^ 2 + 0 * x ^ 3) * ndtr0 (v * x) * phi0 x := by funext x; ring
    rw [e, h, A1]
    simp only [mean]
    rw [t_eq]; ring

theorem mean_A : mean m s v = m + s * A v 1 := by
  simp only [mean]
  rw [t_eq, A1]; ring

omit hs in
theorem A1_sq : A v 1 ^ 2 = 2 * v ^ 2 / ((1 + v ^ 2) * Real.pi) := by
  have hp := Real.pi_pos
  rw [A1, div_pow, mul_pow, mul_pow, Real.sq_sqrt (by positivity), Real.sq_sqrt (by positivity)]
  field_simp

omit hs in
theorem A1_lt : A v 1 ^ 2 < 1 := by
  have hp := Real.two_le_pi
  rw [A1_sq, div_lt_one (by positivity)]
  nlinarith [sq_nonneg v]

theorem central2 : ∫ y, (y - mean m s v) ^ 2 * dens y m s v = s ^ 2 * (1 - A v 1 ^ 2) := by
  rw [expect hs fun y => (y - mean m s v) ^ 2, mean_A hs]
  have h := poly_E v (s ^ 2 * A v 1 ^ 2) (-2 * s ^ 2 * A v 1) (s ^ 2) 0
  have e : (fun x => (m + s * x - (m + s * A v 1)) ^ 2 * ndtr0 (v * x) * phi0 x) = fun x =>
    (s ^ 2 * A v 1 ^ 2 + -2 * s ^ 2 * A v 1 * x + s ^ 2 * x ^ 2 + 0 * x ^ 3) * ndtr0 (v * x) * phi0 x := by
    funext x; ring
  rw [e, h]; ring

theorem central3 : ∫ y, (y - mean m s v) ^ 3 * dens y m s v = s ^ 3 * (A v 3 - 3 * A v 1 + 2 * A v 1 ^ 3) := by
  rw [expect hs fun y => (y - mean m s v) ^ 3, mean_A hs]
  have h := poly_E v (-s ^ 3 * A v 1 ^ 3) (3 * s ^ 3 * A v 1 ^ 2) (-3 * s ^ 3 * A v 1) (s ^ 3)
  have e : (fun x => (m + s * x - (m + s * A v 1)) ^ 3 * ndtr0 (v * x) * phi0 x) = fun x =>
    (-s ^ 3 * A v 1 ^ 3 + 3 * s ^ 3 * A v 1 ^ 2 * x + -3 * s ^ 3 * A v 1 * x ^ 2 + s ^ 3 * x ^ 3) *
      ndtr0 (v * x) * phi0 x := by
    funext x; ring
  rw [e, h]; ring

/-- `_variance` is the variance, which is positive. -/
theorem C181_variance : 0 < variance m s v ∧
    variance m s v = ∫ y, (y - mean m s v) ^ 2 * dens y m s v := by
  have h := A1_lt (v := v)
  have e : variance m s v = s ^ 2 * (1 - A v 1 ^ 2) := by rw [A1_sq]; rfl
  refine ⟨?_, by rw [central2 hs, e]⟩
  rw [e]
  exact mul_pos (pow_pos hs 2) (by linarith)

omit hs in
theorem third : A v 3 - 3 * A v 1 + 2 * A v 1 ^ 3 = (4 - Real.pi) / 2 * A v 1 ^ 3 := by
  have hp := Real.pi_pos
  have hc := c_pos v
  have h1 : A v 3 = 2 * A v 1 + A v 1 / (1 + v ^ 2) := by
    rw [A3, A1, show √(1 + v ^ 2) ^ 3 = √(1 + v ^ 2) ^ 2 * √(1 + v ^ 2) by ring, Real.sq_sqrt (by positivity)]
    have : 0 < √(2 * Real.pi) := by positivity
    field_simp
  have h2 := A1_sq (v := v)
  have h3 : A v 1 ^ 3 = A v 1 * (2 * v ^ 2 / ((1 + v ^ 2) * Real.pi)) := by rw [← h2]; ring
  rw [h1, h3]
  field_simp
  ring

/-- The standardised third central moment. -/
noncomputable def trueSkew (m s v : ℝ) : ℝ :=
  (∫ y, (y - mean m s v) ^ 3 * dens y m s v) / √(∫ y, (y - mean m s v) ^ 2 * dens y m s v) ^ 3

theorem trueSkew_eq : trueSkew m s v = (4 - Real.pi) / 2 * A v 1 ^ 3 / √(1 - A v 1 ^ 2) ^ 3 := by
  rw [trueSkew, central2 hs, central3 hs, third, Real.sqrt_mul (by positivity), Real.sqrt_sq hs.le, mul_pow,
    mul_div_mul_left _ _ (pow_pos hs 3).ne']

/-- `_skewness` is the skewness when `v` is not zero … -/
theorem C181_skewness_partial (hv : v ≠ 0) : skewness m s v = some (trueSkew m s v) := by
  have hp := Real.pi_pos
  have hl := A1_lt (v := v)
  have hv2 : 0 < v ^ 2 := by positivity
  have hb : 0 < A v 1 ^ 2 := by rw [A1_sq]; positivity
  have hu : Real.pi / 2 * (1 + 1 / v ^ 2) - 1 = ((A v 1 ^ 2) / (1 - A v 1 ^ 2))⁻¹ := by
    have h : A v 1 ^ 2 * (Real.pi / 2 * (1 + 1 / v ^ 2)) = 1 := by
      rw [A1_sq]; field_simp; ring
    rw [inv_div, eq_div_iff hb.ne']
    linear_combination h
  have hr : ∀ a : ℝ, 0 < a → (a⁻¹) ^ (-3 / 2 : ℝ) = √a ^ 3 := by
    intro a ha
    rw [Real.inv_rpow ha.le, ← Real.rpow_neg ha.le, Real.sqrt_eq_rpow, ← Real.rpow_natCast, ← Real.rpow_mul ha.le]
    norm_num
  have hsg : √(A v 1 ^ 2) ^ 3 * ((SignType.sign v : SignType) : ℝ) = A v 1 ^ 3 := by
    rw [Real.sqrt_sq_eq_abs]
    have hk : 0 < 2 / (√(1 + v ^ 2) * √(2 * Real.pi)) := by positivity
    have hA : A v 1 = 2 / (√(1 + v ^ 2) * √(2 * Real.pi)) * v := by rw [A1]; ring
    rw [hA]
    generalize 2 / (√(1 + v ^ 2) * √(2 * Real.pi)) = k at hk
    rcases lt_or_gt_of_ne hv with h | h
    · rw [sign_neg h, abs_of_neg (mul_neg_of_pos_of_neg hk h)]
      simp; ring
    · rw [sign_pos h, abs_of_pos (mul_pos hk h)]
      simp
  rw [skewness, if_neg hv2.ne', trueSkew_eq hs]
  simp only [hu]
  rw [hr _ (div_pos hb (by linarith)), Real.sqrt_div (sq_nonneg _), div_pow, Option.some_inj]
  rw [← hsg]
  ring

/-- … and at `v = 0`, the default of `_rvs`, it divides by zero, though the skewness is zero there. -/
theorem C181_skewness_violated : skewness m s 0 = none ∧ trueSkew m s 0 = 0 := by
  refine ⟨by simp [skewness], ?_⟩
  rw [trueSkew_eq hs, A1]; simp

/-! ### Random draws -/

omit hs in
theorem half_line (a : ℝ) {r : ℝ} (hr : 0 < r) : IntegrableOn (fun z => phi0 ((z - a) / r) / r) (Ioi 0) ∧
    ∫ z in Ioi (0 : ℝ), phi0 ((z - a) / r) / r = ndtr0 (a / r) := by
  have hd : ∀ z ∈ Ici (0 : ℝ), HasDerivAt (fun z => -ndtr0 ((a - z) / r)) (phi0 ((z - a) / r) / r) z := by
    intro z _
    have h0 : HasDerivAt (fun z : ℝ => (a - z) / r) (-1 / r) z :=
      ((hasDerivAt_id z).const_sub a).div_const r
    refine (HasDerivAt.comp z (ndtr0_deriv ((a - z) / r)) h0).neg.congr_deriv ?_
    rw [← phi0_even, show -((a - z) / r) = (z - a) / r by ring]
    ring
  have ht : Tendsto (fun z => -ndtr0 ((a - z) / r)) atTop (𝓝 (-0)) := by
    refine (ndtr0_bot.comp ?_).neg
    refine Tendsto.atBot_div_const hr ?_
    exact tendsto_atBot_add_const_left _ a tendsto_neg_atTop_atBot
  have hi := integrableOn_Ioi_deriv_of_nonneg' hd (fun z _ => by have := phi0_pos ((z - a) / r); positivity) ht
  refine ⟨hi, ?_⟩
  rw [integral_Ioi_of_hasDerivAt_of_tendsto' hd hi ht]
  simp

omit hs in
theorem r_facts (v : ℝ) : 0 < √(1 - (v / √(1 + v ^ 2)) ^ 2) ∧
    √(1 - (v / √(1 + v ^ 2)) ^ 2) ^ 2 = 1 - (v / √(1 + v ^ 2)) ^ 2 ∧
    (v / √(1 + v ^ 2)) / √(1 - (v / √(1 + v ^ 2)) ^ 2) = v := by
  have hc := c_pos v
  have e : 1 - (v / √(1 + v ^ 2)) ^ 2 = (1 / √(1 + v ^ 2)) ^ 2 := by
    rw [div_pow, div_pow, Real.sq_sqrt (by positivity)]
    field_simp
    ring
  rw [e, Real.sqrt_sq (by positivity)]
  refine ⟨by positivity, rfl, ?_⟩
  field_simp

omit hs in
/-- Exchanging the draw and the hidden variable. -/
theorem swap_phi {t r : ℝ} (hr : 0 < r) (h : r ^ 2 = 1 - t ^ 2) (x z : ℝ) :
    phi0 ((x - t * z) / r) * phi0 z = phi0 x * phi0 ((z - t * x) / r) := by
  have hp := Real.pi_pos
  simp only [phi0]
  rw [div_mul_div_comm, div_mul_div_comm, ← Real.exp_add, ← Real.exp_add]
  congr 2
  field_simp
  rw [h]
  ring

/-- `_rvs` applied to two independent standard normal numbers has the skew normal law. -/
theorem C181_rvs {f : ℝ → ℝ} (hf : Measurable f) {C : ℝ} (hC : ∀ y, |f y| ≤ C) :
    ∫ z1, ∫ z2, f (rvs z1 z2 m s v) * phi0 z2 * phi0 z1 = ∫ y, f y * dens y m s v := by
  obtain ⟨hr, hr2, htr⟩ := r_facts v
  set t := v / √(1 + v ^ 2) with ht
  set r := √(1 - t ^ 2) with hrd
  -- the inner integral in terms of the draw
  have h1 : ∀ z1, ∫ z2, f (rvs z1 z2 m s v) * phi0 z2 * phi0 z1 =
      ∫ x, f (x * s + m) * (phi0 x * (phi0 ((|z1| - t * x) / r) / r)) := by
    intro z1
    have hd : ∀ x, HasDerivAt (fun x => (x - t * |z1|) / r) (1 / r) x := fun x =>
      ((hasDerivAt_id x).sub_const _).div_const r
    have hsj : Function.Surjective fun x => (x - t * |z1|) / r := fun y =>
      ⟨r * y + t * |z1|, by beta_reduce; field_simp; ring⟩
    have h0 : ∫ z2, f (rvs z1 z2 m s v) * phi0 z2 * phi0 z1 =
        ∫ z2, f ((t * |z1| + z2 * r) * s + m) * phi0 z2 * phi0 z1 := by
      rcases le_or_gt 0 z1 with hz | hz
      · simp only [rvs, if_pos hz, ← ht, ← hrd, ge_iff_le, abs_of_nonneg hz]
      · rw [← integral_neg_eq_self]
        congr 1
        funext z2
        simp only [rvs, ge_iff_le, if_neg (not_le.2 hz), ← ht, ← hrd, abs_of_neg hz, phi0_even]
        congr 4
        ring
    rw [h0, integral_bij hd (fun _ => by positivity) hsj]
    congr 1
    funext x
    have e1 : (t * |z1| + (x - t * |z1|) / r * r) * s + m = x * s + m := by field_simp; ring
    have e2 : phi0 z1 = phi0 |z1| := by
      rcases abs_choice z1 with e | e <;> rw [e]
      rw [phi0_even]
    have e3 := swap_phi hr hr2 x |z1|
    rw [e1, e2]
    linear_combination (f (x * s + m) / r) * e3
  simp only [h1]
  have habs : ∀ x, ∫ z, phi0 ((|z| - t * x) / r) / r = 2 * ndtr0 (v * x) := by
    intro x
    rw [integral_comp_abs (f := fun z => phi0 ((z - t * x) / r) / r), (half_line (t * x) hr).2,
      show t * x / r = t / r * x by ring, htr]
  have habsi : ∀ x, Integrable fun z => phi0 ((|z| - t * x) / r) / r := by
    intro x
    have hb : Integrable fun z => phi0 ((z - t * x) / r) / r := by
      refine ((integrable_bij (f := fun z => (z - t * x) / r) (f' := fun _ => 1 / r)
        (fun z => ((hasDerivAt_id z).sub_const _).div_const r) (fun _ => by positivity)
        (fun y => ⟨r * y + t * x, by beta_reduce; field_simp; ring⟩) phi0).1 phi0_int).congr
        (Eventually.of_forall fun z => ?_)
      simp only; ring
    refine (hb.add hb.comp_neg).mono' ?_ (Eventually.of_forall fun z => ?_)
    · have hc := phi0_cont
      exact (by fun_prop : Continuous fun z => phi0 ((|z| - t * x) / r) / r).aestronglyMeasurable
    · have p1 := div_pos (phi0_pos ((z - t * x) / r)) hr
      have p2 := div_pos (phi0_pos ((-z - t * x) / r)) hr
      rw [Real.norm_eq_abs, abs_of_pos (div_pos (phi0_pos _) hr)]
      simp only [Pi.add_apply]
      rcases abs_choice z with e | e <;> rw [e] <;> linarith
  have hm : Measurable fun p : ℝ × ℝ => f (p.2 * s + m) * (phi0 p.2 * (phi0 ((|p.1| - t * p.2) / r) / r)) := by
    have hc := phi0_cont
    refine (hf.comp (by fun_prop)).mul (Continuous.measurable ?_)
    fun_prop
  have hint : Integrable (Function.uncurry fun z x => f (x * s + m) * (phi0 x * (phi0 ((|z| - t * x) / r) / r)))
      (volume.prod volume) := by
    refine (integrable_prod_iff' (f := Function.uncurry fun z x => f (x * s + m) *
      (phi0 x * (phi0 ((|z| - t * x) / r) / r))) hm.aestronglyMeasurable).2 ?_
    refine ⟨Eventually.of_forall fun x => ?_, ?_⟩
    · refine ((habsi x).const_mul (f (x * s + m) * phi0 x)).congr (Eventually.of_forall fun z => ?_)
      simp only [Function.uncurry]; ring
    · have e : (fun x => ∫ z, ‖Function.uncurry (fun z x => f (x * s + m) *
          (phi0 x * (phi0 ((|z| - t * x) / r) / r))) (z, x)‖) =
          fun x => |f (x * s + m)| * (phi0 x * (2 * ndtr0 (v * x))) := by
        funext x
        have e2 : (fun z => ‖Function.uncurry (fun z x => f (x * s + m) *
          (phi0 x * (phi0 ((|z| - t * x) / r) / r))) (z, x)‖) =
          fun z => (|f (x * s + m)| * phi0 x) * (phi0 ((|z| - t * x) / r) / r) := by
          funext z
          have := phi0_pos ((|z| - t * x) / r)
          simp only [Function.uncurry, Real.norm_eq_abs]
          rw [abs_mul, abs_of_pos (mul_pos (phi0_pos x) (div_pos this hr))]
          ring
        rw [e2, integral_const_mul, habs]
        ring
      rw [e]
      refine (phi0_int.const_mul (C * 2)).mono' ?_ (Eventually.of_forall fun x => ?_)
      · have hc := phi0_cont
        have hn := ndtr0_cont
        refine ((hf.comp (by fun_prop : Measurable fun x : ℝ => x * s + m)).abs.mul
          (Continuous.measurable ?_)).aestronglyMeasurable
        fun_prop
      · have hn := ndtr0_range (v * x)
        have hx := phi0_pos x
        rw [Real.norm_eq_abs, abs_mul, abs_abs, abs_of_pos (mul_pos hx (by linarith [hn.1]))]
        have h2 : phi0 x * (2 * ndtr0 (v * x)) ≤ phi0 x * 2 := by nlinarith [hn.2]
        calc |f (x * s + m)| * (phi0 x * (2 * ndtr0 (v * x)))
            ≤ C * (phi0 x * 2) := mul_le_mul (hC _) h2 (mul_pos hx (by linarith [hn.1])).le
              ((abs_nonneg _).trans (hC 0))
          _ = C * 2 * phi0 x := by ring
  rw [integral_integral_swap hint, expect hs, ← integral_const_mul]
  congr 1
  funext x
  have e : (fun z => f (x * s + m) * (phi0 x * (phi0 ((|z| - t * x) / r) / r))) =
      fun z => (f (x * s + m) * phi0 x) * (phi0 ((|z| - t * x) / r) / r) := by funext z; ring
  rw [e, integral_const_mul, habs, show x * s + m = m + s * x by ring]
  ring

end

end Verif.Misc.SkewNorm
