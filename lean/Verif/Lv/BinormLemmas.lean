import Verif.Lv.Binorm
import Verif.Glm.NdtrProps
import Mathlib.Analysis.Calculus.ParametricIntegral
import Mathlib.Analysis.SpecialFunctions.Gaussian.GaussianIntegral
import Mathlib.Analysis.Calculus.FDeriv.Partial
import Mathlib.MeasureTheory.Measure.Lebesgue.Integral

/-!
The bivariate normal distribution function and its derivatives.
-/

namespace Verif.Lv
open Real Set MeasureTheory Filter Topology Verif.Glm

/-- Specification: the standard bivariate normal distribution function, an integral of the density. -/
noncomputable def Phi2 (h k r : ℝ) : ℝ := ∫ x in Iic h, ∫ y in Iic k, pdf x y r

theorem s_pos {r : ℝ} (hr : |r| < 1) : 0 < 1 - r ^ 2 := by
  have := (sq_lt_one_iff_abs_lt_one r).2 hr
  linarith

theorem rt_pos {r : ℝ} (hr : |r| < 1) : 0 < √(1 - r ^ 2) := Real.sqrt_pos.2 (s_pos hr)

theorem phi0_pos (x : ℝ) : 0 < phi0 x := by
  have := pi_pos
  unfold phi0
  positivity

theorem phi0_le (x : ℝ) : phi0 x ≤ 1 := by
  unfold phi0
  have h1 : exp (-x ^ 2 / 2) ≤ 1 := Real.exp_le_one_iff.2 (by nlinarith [sq_nonneg x])
  have h2 : 1 ≤ √(2 * π) := by
    rw [Real.one_le_sqrt]
    have := Real.two_le_pi
    linarith
  rw [div_le_one (by linarith)]
  linarith

theorem phi0_deriv (x : ℝ) : HasDerivAt phi0 (-x * phi0 x) x := by
  have h := ((((hasDerivAt_id x).fun_pow 2).fun_neg.div_const 2).exp).div_const (√(2 * π))
  refine h.congr_deriv ?_
  simp [phi0]
  ring

theorem normPdf_eq : normPdf = phi0 := rfl

/-- The density is that of the first variable times the conditional density of the second. -/
theorem pdf_eq {r : ℝ} (hr : |r| < 1) (x y : ℝ) : pdf x y r = phi0 x * (phi0 ((y - r * x) / √(1 - r ^ 2)) / √(1 - r ^ 2)) := by
  have h1 := s_pos hr
  have h2 := rt_pos hr
  have h3 : √(1 - r ^ 2) ^ 2 = 1 - r ^ 2 := Real.sq_sqrt h1.le
  have hp : √(2 * π) * √(2 * π) = 2 * π := Real.mul_self_sqrt (by have := pi_pos; positivity)
  have hp0 : 0 < √(2 * π) := Real.sqrt_pos.2 (by have := pi_pos; positivity)
  unfold pdf pdfG phi0
  dsimp only
  have e : exp (-x ^ 2 / 2) / √(2 * π) * (exp (-((y - r * x) / √(1 - r ^ 2)) ^ 2 / 2) / √(2 * π) / √(1 - r ^ 2)) =
      (1 / (√(2 * π) * √(2 * π) * √(1 - r ^ 2))) * (exp (-x ^ 2 / 2) * exp (-((y - r * x) / √(1 - r ^ 2)) ^ 2 / 2)) := by
    field_simp
  rw [e, hp, ← Real.exp_add, div_pow, h3]
  simp only [sub_zero, mul_one, one_pow, div_one]
  congr 2
  field_simp
  ring

theorem pdf_symm (x y r : ℝ) : pdf x y r = pdf y x r := by
  unfold pdf pdfG
  dsimp only
  congr 3
  ring

theorem pdf_cont {r : ℝ} (hr : |r| < 1) : Continuous fun p : ℝ × ℝ => pdf p.1 p.2 r := by
  have h : (fun p : ℝ × ℝ => pdf p.1 p.2 r) = fun p : ℝ × ℝ => phi0 p.1 * (phi0 ((p.2 - r * p.1) / √(1 - r ^ 2)) / √(1 - r ^ 2)) :=
    funext fun p => pdf_eq hr _ _
  rw [h]
  have := phi0_cont
  fun_prop

/-- Given the first variable the second has a normal distribution function. -/
theorem inner_eq {r : ℝ} (hr : |r| < 1) (x k : ℝ) : ∫ y in Iic k, pdf x y r = phi0 x * ndtr0 ((k - r * x) / √(1 - r ^ 2)) := by
  have h2 := rt_pos hr
  simp only [pdf_eq hr]
  rw [integral_const_mul]
  congr 1
  have hd : ∀ y ∈ Iic k, HasDerivAt (fun y => ndtr0 ((y - r * x) / √(1 - r ^ 2))) (phi0 ((y - r * x) / √(1 - r ^ 2)) / √(1 - r ^ 2)) y := fun y _ => by
    have h := (ndtr0_deriv ((y - r * x) / √(1 - r ^ 2))).comp y (((hasDerivAt_id y).sub_const (r * x)).div_const (√(1 - r ^ 2)))
    exact h.congr_deriv (by ring)
  have hi : Integrable fun y => phi0 ((y - r * x) / √(1 - r ^ 2)) / √(1 - r ^ 2) :=
    ((phi0_int.comp_div h2.ne').comp_sub_right (r * x)).div_const _
  have ht : Tendsto (fun y => ndtr0 ((y - r * x) / √(1 - r ^ 2))) atBot (𝓝 0) := by
    refine ndtr0_bot.comp ?_
    exact Tendsto.atBot_div_const h2 (tendsto_atBot_add_const_right _ _ tendsto_id)
  rw [integral_Iic_of_hasDerivAt_of_tendsto' hd hi.integrableOn ht, sub_zero]

theorem Phi2_eq {r : ℝ} (hr : |r| < 1) (h k : ℝ) : Phi2 h k r = ∫ x in Iic h, phi0 x * ndtr0 ((k - r * x) / √(1 - r ^ 2)) := by
  unfold Phi2
  simp only [inner_eq hr]

theorem ndtr0_cont : Continuous ndtr0 := continuous_iff_continuousAt.2 fun x => (ndtr0_deriv x).continuousAt

theorem int_cond (k r : ℝ) (c : ℝ) : Integrable fun x => phi0 x * ndtr0 ((k - r * x) / c) := by
  refine phi0_int.mono' (by have := phi0_cont; have := ndtr0_cont; exact (by fun_prop : Continuous _).aestronglyMeasurable) (Eventually.of_forall fun x => ?_)
  have h1 := ndtr0_range ((k - r * x) / c)
  rw [Real.norm_eq_abs, abs_of_pos (mul_pos (phi0_pos x) h1.1)]
  exact mul_le_of_le_one_right (phi0_pos x).le h1.2.le

theorem int_phi0_abs (c : ℝ) : Integrable fun x => phi0 x * (c + |x|) := by
  have h1 : Integrable fun x : ℝ => x * exp (-(1 / 2) * x ^ 2) := integrable_mul_exp_neg_mul_sq (by norm_num)
  have h2 : Integrable fun x : ℝ => phi0 x * |x| := by
    refine ((h1.norm).div_const (√(2 * π))).congr (Eventually.of_forall fun x => ?_)
    simp only [norm_mul, Real.norm_eq_abs, abs_of_pos (Real.exp_pos _), phi0]
    rw [show -(1 / 2) * x ^ 2 = -x ^ 2 / 2 by ring]
    ring
  simp only [mul_add]
  exact (phi0_int.mul_const c).add h2

/-- The argument of the conditional distribution, differentiated in the correlation. -/
theorem arg_deriv {r : ℝ} (hr : |r| < 1) (x k : ℝ) : HasDerivAt (fun r => (k - r * x) / √(1 - r ^ 2)) ((r * k - x) / ((1 - r ^ 2) * √(1 - r ^ 2))) r := by
  have h1 := s_pos hr
  have h2 := rt_pos hr
  have h3 : √(1 - r ^ 2) ^ 2 = 1 - r ^ 2 := Real.sq_sqrt h1.le
  have hs : HasDerivAt (fun r : ℝ => √(1 - r ^ 2)) (-r / √(1 - r ^ 2)) r := by
    have := (((hasDerivAt_id r).fun_pow 2).const_sub 1).sqrt h1.ne'
    refine this.congr_deriv ?_
    simp
    field_simp
  have hn : HasDerivAt (fun r : ℝ => k - r * x) (-x) r := by
    simpa using ((hasDerivAt_id r).mul_const x).const_sub k
  refine (hn.fun_div hs h2.ne').congr_deriv ?_
  rw [h3]
  field_simp
  rw [h3]
  ring

/-- Plackett: the distribution function differentiated in the correlation is the density. -/
theorem Phi2_dr {r : ℝ} (hr : |r| < 1) (h k : ℝ) : HasDerivAt (fun r => Phi2 h k r) (pdf h k r) r := by
  obtain ⟨ρ, hρ, hρ1⟩ := exists_between hr
  have hρ0 : 0 ≤ ρ := (abs_nonneg r).trans hρ.le
  have hs : {t : ℝ | |t| < ρ} ∈ 𝓝 r := (isOpen_lt continuous_abs continuous_const).mem_nhds hρ
  have hlt : ∀ t ∈ {t : ℝ | |t| < ρ}, |t| < 1 := fun t ht => lt_trans ht hρ1
  have hρs : 0 < 1 - ρ ^ 2 := s_pos (by rwa [abs_of_nonneg hρ0])
  have key := (hasDerivAt_integral_of_dominated_loc_of_deriv_le (μ := volume.restrict (Iic h)) (s := {t : ℝ | |t| < ρ}) (x₀ := r)
    (F := fun r x => phi0 x * ndtr0 ((k - r * x) / √(1 - r ^ 2)))
    (F' := fun r x => phi0 x * (phi0 ((k - r * x) / √(1 - r ^ 2)) * ((r * k - x) / ((1 - r ^ 2) * √(1 - r ^ 2)))))
    (bound := fun x => phi0 x * (|k| + |x|) / ((1 - ρ ^ 2) * √(1 - ρ ^ 2))) hs ?_ (int_cond k r _).integrableOn ?_ ?_ ?_ ?_)
  · obtain ⟨hint, hder⟩ := key
    have e2 : ∫ x in Iic h, phi0 x * (phi0 ((k - r * x) / √(1 - r ^ 2)) * ((r * k - x) / ((1 - r ^ 2) * √(1 - r ^ 2)))) = pdf h k r := by
      have h1 := s_pos hr
      have h2 := rt_pos hr
      have h3 : √(1 - r ^ 2) ^ 2 = 1 - r ^ 2 := Real.sq_sqrt h1.le
      have hd : ∀ x ∈ Iic h, HasDerivAt (fun x => pdf x k r) (phi0 x * (phi0 ((k - r * x) / √(1 - r ^ 2)) * ((r * k - x) / ((1 - r ^ 2) * √(1 - r ^ 2))))) x := fun x _ => by
        have a1 : HasDerivAt (fun x => (k - r * x) / √(1 - r ^ 2)) (-r / √(1 - r ^ 2)) x := by
          have := (((hasDerivAt_id x).const_mul r).const_sub k).div_const (√(1 - r ^ 2))
          simpa using this
        have a2 := (phi0_deriv x).fun_mul (((phi0_deriv ((k - r * x) / √(1 - r ^ 2))).comp x a1).div_const (√(1 - r ^ 2)))
        rw [show (fun x => pdf x k r) = fun x => phi0 x * (phi0 ((k - r * x) / √(1 - r ^ 2)) / √(1 - r ^ 2)) from funext fun x => pdf_eq hr x k]
        refine a2.congr_deriv ?_
        simp only [Function.comp]
        generalize phi0 ((k - r * x) / √(1 - r ^ 2)) = A
        generalize phi0 x = B
        field_simp
        rw [h3]
        ring
      have ht : Tendsto (fun x => pdf x k r) atBot (𝓝 0) := by
        have b1 : Tendsto phi0 atBot (𝓝 0) := by
          have := phi0_int
          have hsq : Tendsto (fun x : ℝ => x ^ 2 / 2) atBot atTop := by
            have : Tendsto (fun x : ℝ => x ^ 2) atBot atTop := by
              have := (tendsto_pow_atTop (α := ℝ) (n := 2) two_ne_zero).comp tendsto_neg_atBot_atTop
              simpa [Function.comp_def] using this
            exact this.atTop_div_const two_pos
          have : Tendsto (fun x : ℝ => exp (-(x ^ 2 / 2)) / √(2 * π)) atBot (𝓝 (0 / √(2 * π))) :=
            (Real.tendsto_exp_neg_atTop_nhds_zero.comp hsq).div_const _
          rw [zero_div] at this
          refine this.congr fun x => ?_
          rw [phi0, neg_div]
        have b2 : Tendsto (fun x => phi0 x * (1 / √(1 - r ^ 2))) atBot (𝓝 0) := by
          have := b1.mul_const (1 / √(1 - r ^ 2))
          rwa [zero_mul] at this
        refine squeeze_zero (fun x => ?_) (fun x => ?_) b2
        · rw [pdf_eq hr]
          exact mul_nonneg (phi0_pos x).le (div_nonneg (phi0_pos _).le h2.le)
        · rw [pdf_eq hr]
          exact mul_le_mul_of_nonneg_left (div_le_div_of_nonneg_right (phi0_le _) h2.le) (phi0_pos x).le
      rw [integral_Iic_of_hasDerivAt_of_tendsto' hd hint ht, sub_zero]
    rw [e2] at hder
    refine hder.congr_of_eventuallyEq ?_
    filter_upwards [hs] with t ht
    exact Phi2_eq (hlt t ht) h k
  · refine Eventually.of_forall fun t => ?_
    exact (int_cond k t _).aestronglyMeasurable.restrict
  · have := phi0_cont
    exact (by fun_prop : Continuous _).aestronglyMeasurable
  · refine Eventually.of_forall fun x t ht => ?_
    have h1 := s_pos (hlt t ht)
    have h2 := rt_pos (hlt t ht)
    have h4 : 1 - ρ ^ 2 ≤ 1 - t ^ 2 := by
      have ht' : |t| < ρ := ht
      have : t ^ 2 ≤ ρ ^ 2 := sq_le_sq' (abs_lt.1 ht').1.le (abs_lt.1 ht').2.le
      linarith
    have h5 : √(1 - ρ ^ 2) ≤ √(1 - t ^ 2) := Real.sqrt_le_sqrt h4
    have h6 : 0 < √(1 - ρ ^ 2) := Real.sqrt_pos.2 hρs
    rw [norm_mul, norm_mul, Real.norm_eq_abs, Real.norm_eq_abs, abs_of_pos (phi0_pos _), abs_of_pos (phi0_pos _), mul_div_assoc]
    refine mul_le_mul_of_nonneg_left ?_ (phi0_pos x).le
    have h7 : ‖(t * k - x) / ((1 - t ^ 2) * √(1 - t ^ 2))‖ ≤ (|k| + |x|) / ((1 - ρ ^ 2) * √(1 - ρ ^ 2)) := by
      rw [norm_div, Real.norm_eq_abs, Real.norm_eq_abs, abs_of_pos (mul_pos h1 h2)]
      refine div_le_div₀ (by positivity) ?_ (mul_pos hρs h6) (mul_le_mul h4 h5 h6.le h1.le)
      refine (abs_sub _ _).trans (add_le_add ?_ le_rfl)
      rw [abs_mul]
      exact mul_le_of_le_one_left (abs_nonneg k) (hlt t ht).le
    exact (mul_le_of_le_one_left (norm_nonneg _) (phi0_le _)).trans h7
  · exact ((int_phi0_abs |k|).div_const _).integrableOn
  · refine Eventually.of_forall fun x t ht => ?_
    exact ((ndtr0_deriv _).comp t (arg_deriv (hlt t ht) x k)).const_mul (phi0 x)

/-- The distribution function differentiated in its first argument. -/
theorem Phi2_du {r : ℝ} (hr : |r| < 1) (u v : ℝ) : HasDerivAt (fun u => Phi2 u v r) (phi0 u * ndtr0 ((v - r * u) / √(1 - r ^ 2))) u := by
  have hc : Continuous fun x => phi0 x * ndtr0 ((v - r * x) / √(1 - r ^ 2)) := by
    have := phi0_cont
    have := ndtr0_cont
    fun_prop
  have e : (fun u => Phi2 u v r) = fun u => Phi2 0 v r + ∫ x in (0 : ℝ)..u, phi0 x * ndtr0 ((v - r * x) / √(1 - r ^ 2)) := by
    funext u
    have := intervalIntegral.integral_Iic_sub_Iic (μ := volume) (a := 0) (b := u) (int_cond v r (√(1 - r ^ 2))).integrableOn (int_cond v r (√(1 - r ^ 2))).integrableOn
    rw [Phi2_eq hr, Phi2_eq hr]
    linarith
  rw [e]
  exact (intervalIntegral.integral_hasDerivAt_right (hc.intervalIntegrable _ _) (hc.stronglyMeasurableAtFilter _ _) hc.continuousAt).const_add _

theorem ndtr0_neg (x : ℝ) : ndtr0 (-x) = 1 - ndtr0 x := by
  have h1 : ∫ t in Iic (-x), phi0 t = ∫ t in Ioi x, phi0 t := by
    rw [← integral_comp_neg_Ioi]
    refine setIntegral_congr_fun measurableSet_Ioi fun t _ => ?_
    simp only [phi0, neg_sq]
  have := integral_add_compl (measurableSet_Iic (a := x)) phi0_int
  rw [compl_Iic, phi0_total] at this
  simp only [ndtr0, h1]
  linarith

theorem Phi2_zero (h k : ℝ) : Phi2 h k 0 = ndtr0 h * ndtr0 k := by
  rw [Phi2_eq (by simp)]
  simp only [zero_mul, sub_zero, ne_eq, OfNat.ofNat_ne_zero, not_false_eq_true, zero_pow, Real.sqrt_one, div_one]
  rw [integral_mul_const]
  rfl

theorem dpdf_cont_r (h k : ℝ) : ContinuousOn (fun r => pdf h k r) {r | |r| < 1} := by
  unfold pdf pdfG
  intro r hr
  have h1 : 0 < 1 - r ^ 2 := s_pos hr
  have h2 := rt_pos hr
  have hp := pi_pos
  refine ContinuousAt.continuousWithinAt ?_
  dsimp only
  refine ContinuousAt.mul ?_ (ContinuousAt.rexp ?_)
  · refine ContinuousAt.div continuousAt_const (by fun_prop) (by positivity)
  · refine ContinuousAt.mul (ContinuousAt.div continuousAt_const (by fun_prop) (by positivity)) (by fun_prop)

/-- The distribution function from the independent case and the density. -/
theorem Phi2_int {r : ℝ} (hr : |r| < 1) (h k : ℝ) : ndtr0 h * ndtr0 k + ∫ t in (0 : ℝ)..r, pdf h k t = Phi2 h k r := by
  have hsub : ∀ t ∈ uIcc 0 r, |t| < 1 := fun t ht => by
    have := abs_sub_left_of_mem_uIcc ht
    simp only [sub_zero] at this
    exact this.trans_lt hr
  have := intervalIntegral.integral_eq_sub_of_hasDerivAt (f := fun t => Phi2 h k t) (f' := fun t => pdf h k t) (a := 0) (b := r)
    (fun t ht => Phi2_dr (hsub t ht) h k) ((dpdf_cont_r h k).mono hsub).intervalIntegrable
  rw [this, Phi2_zero]
  ring

theorem Phi2_symm {r : ℝ} (hr : |r| < 1) (h k : ℝ) : Phi2 h k r = Phi2 k h r := by
  rw [← Phi2_int hr, ← Phi2_int hr, mul_comm]
  simp only [pdf_symm h k]

theorem Phi2_dv {r : ℝ} (hr : |r| < 1) (u v : ℝ) : HasDerivAt (fun v => Phi2 u v r) (phi0 v * ndtr0 ((u - r * v) / √(1 - r ^ 2))) v := by
  simp only [Phi2_symm hr u]
  exact Phi2_du hr v u

end Verif.Lv
