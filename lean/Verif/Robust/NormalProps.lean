import Verif.Robust.Props
import Verif.Glm.NdtrProps
import Mathlib.MeasureTheory.Integral.IntegralEqImproper
import Mathlib.MeasureTheory.Measure.Lebesgue.Integral
/-!
# Closed forms for expectations under the normal distribution (C70)
-/
namespace Verif.Robust
open Real Set Filter Topology MeasureTheory Verif.Glm

/-- Contract of `scipy.special.ndtr`: the standard normal distribution function. -/
def IsNormalCdf (ndtr : ℝ → ℝ) : Prop := ∀ x, ndtr x = ∫ t in Iic x, normPdf t

theorem isNormalCdf_ndtr0 : IsNormalCdf ndtr0 := fun _ => rfl

theorem normPdf_eq : normPdf = phi0 := rfl

theorem cdf_eq {ndtr : ℝ → ℝ} (h : IsNormalCdf ndtr) : ndtr = ndtr0 := funext h

theorem pdf_pos (x : ℝ) : 0 < normPdf x := by
  have := pi_pos
  unfold normPdf; positivity

theorem pdf_deriv (x : ℝ) : HasDerivAt normPdf (-x * normPdf x) x := by
  have h : HasDerivAt (fun x : ℝ => -x ^ 2 / 2) (-x) x :=
    ((hasDerivAt_pow 2 x).fun_neg.div_const 2).congr_deriv (by norm_num; ring)
  refine (h.exp.div_const (sqrt (2 * π))).congr_deriv ?_
  simp only [normPdf]; ring

theorem pdf_even (x : ℝ) : normPdf (-x) = normPdf x := by
  simp only [normPdf, neg_sq]

theorem pdf_abs (x : ℝ) : normPdf |x| = normPdf x := by
  simp only [normPdf, sq_abs]

theorem pdf_top : Tendsto normPdf atTop (𝓝 0) := by
  have h : Tendsto (fun x : ℝ => -x ^ 2 / 2) atTop atBot := by
    have : Tendsto (fun x : ℝ => x ^ 2 / 2) atTop atTop :=
      (tendsto_pow_atTop two_ne_zero).atTop_div_const two_pos
    refine (tendsto_neg_atTop_atBot.comp this).congr fun x => ?_
    simp only [Function.comp]; ring
  have := (tendsto_exp_atBot.comp h).div_const (sqrt (2 * π))
  rw [zero_div] at this
  exact this

theorem cdf_half : ndtr0 0 = 1 / 2 := by
  have h1 := integral_add_compl (measurableSet_Iic (a := (0 : ℝ))) phi0_int
  rw [compl_Iic, phi0_total] at h1
  have h2 : ∫ x in Ioi (0 : ℝ), phi0 x = ∫ x in Iic (0 : ℝ), phi0 x := by
    have := integral_comp_neg_Iic (0 : ℝ) phi0
    rw [neg_zero] at this
    rw [← this]
    exact setIntegral_congr_fun measurableSet_Iic fun x _ => pdf_even x
  rw [h2] at h1
  simp only [ndtr0]; linarith

/-- Tail integral of `x φ(x)`. -/
theorem tail_x (k : ℝ) (hk : 0 ≤ k) : IntegrableOn (fun x => x * normPdf x) (Ioi k) ∧
    ∫ x in Ioi k, x * normPdf x = normPdf k := by
  have hd : ∀ x ∈ Ici k, HasDerivAt (fun x => -normPdf x) (x * normPdf x) x := fun x _ =>
    (pdf_deriv x).fun_neg.congr_deriv (by ring)
  have ht : Tendsto (fun x => -normPdf x) atTop (𝓝 0) := by simpa using pdf_top.neg
  have hn : ∀ x ∈ Ioi k, 0 ≤ x * normPdf x := fun x hx =>
    mul_nonneg (hk.trans (le_of_lt hx)) (pdf_pos x).le
  exact ⟨integrableOn_Ioi_deriv_of_nonneg' hd hn ht, by
    rw [integral_Ioi_of_hasDerivAt_of_nonneg' hd hn ht]; ring⟩

theorem tail_1 (k : ℝ) : IntegrableOn normPdf (Ioi k) ∧
    ∫ x in Ioi k, normPdf x = 1 - ndtr0 k := by
  refine ⟨phi0_int.integrableOn, ?_⟩
  have h1 := integral_add_compl (measurableSet_Iic (a := k)) phi0_int
  rw [compl_Iic, phi0_total] at h1
  simp only [ndtr0, normPdf_eq]; linarith

theorem mid_1 (k : ℝ) : ∫ x in (0 : ℝ)..k, normPdf x = ndtr0 k - 1 / 2 := by
  rw [← cdf_half]
  exact intervalIntegral.integral_eq_sub_of_hasDerivAt (fun x _ => ndtr0_deriv x)
    (phi0_cont.intervalIntegrable _ _)

theorem mid_2 (k : ℝ) :
    ∫ x in (0 : ℝ)..k, x ^ 2 * normPdf x = ndtr0 k - 1 / 2 - k * normPdf k := by
  have hd : ∀ x, HasDerivAt (fun x => ndtr0 x - x * normPdf x) (x ^ 2 * normPdf x) x := fun x =>
    ((ndtr0_deriv x).fun_sub ((hasDerivAt_id' x).fun_mul (pdf_deriv x))).congr_deriv (by
      rw [← normPdf_eq]; ring)
  have hc : Continuous fun x => x ^ 2 * normPdf x :=
    (continuous_pow 2).mul (by rw [normPdf_eq]; exact phi0_cont)
  rw [intervalIntegral.integral_eq_sub_of_hasDerivAt (fun x _ => hd x)
    (hc.intervalIntegrable _ _), cdf_half]
  ring

/-- An even function given by one formula up to `k` and another beyond. -/
theorem split_even {f g h : ℝ → ℝ} {k : ℝ} (hk : 0 < k) (he : ∀ x, f x = f |x|)
    (hg : ∀ x, 0 ≤ x → x ≤ k → f x = g x) (hh : ∀ x, k < x → f x = h x)
    (gi : Continuous g) (hi : IntegrableOn h (Ioi k)) :
    ∫ x, f x = 2 * ((∫ x in (0 : ℝ)..k, g x) + ∫ x in Ioi k, h x) := by
  have e : ∫ x, f x = ∫ x, f |x| := integral_congr_ae (ae_of_all _ he)
  rw [e, integral_comp_abs]
  have i1 : IntervalIntegrable f volume 0 k := by
    refine (gi.intervalIntegrable 0 k).congr ?_
    intro x hx
    rw [uIoc_of_le hk.le] at hx
    exact (hg x hx.1.le hx.2).symm
  have i2 : IntegrableOn f (Ioi k) :=
    hi.congr_fun (fun x hx => (hh x hx).symm) measurableSet_Ioi
  rw [← intervalIntegral.integral_interval_add_Ioi' i1 i2]
  congr 2
  · apply intervalIntegral.integral_congr
    intro x hx
    rw [uIcc_of_le hk.le] at hx
    exact hg x hx.1 hx.2
  · exact setIntegral_congr_fun measurableSet_Ioi fun x hx => hh x hx

variable {s : ℝ} {c : Option ℝ} {ndtr : ℝ → ℝ}

theorem pdf_cont : Continuous normPdf := phi0_cont

/-- C70: `Huber.E_rho` is the normal expectation of rho. -/
theorem C70_rho (hn : IsNormalCdf ndtr) (hc : 0 < tuning s c) :
    ∫ x, huberRho s x c * normPdf x = huberErho ndtr s c := by
  rw [cdf_eq hn]
  simp only [huberErho, huberRho]
  generalize tuning s c = k at *
  obtain ⟨i1, e1⟩ := tail_1 k
  obtain ⟨ix, ex⟩ := tail_x k hc.le
  rw [split_even (g := fun x => (1 / 2) * (x ^ 2 * normPdf x))
    (h := fun x => k * (x * normPdf x) - k ^ 2 / 2 * normPdf x) hc]
  · rw [intervalIntegral.integral_const_mul, mid_2, integral_sub (ix.const_mul k)
      (i1.const_mul (k ^ 2 / 2)), integral_const_mul, integral_const_mul, ex, e1]
    ring
  · intro x; simp only [abs_abs, sq_abs, pdf_abs]
  · intro x h0 h1; rw [abs_of_nonneg h0, if_pos h1]; ring
  · intro x h0; rw [abs_of_pos (hc.trans h0), if_neg (not_le.2 h0)]; ring
  · exact continuous_const.mul ((continuous_pow 2).mul pdf_cont)
  · exact (ix.const_mul k).sub (i1.const_mul (k ^ 2 / 2))

/-- C70: `Huber.E_psi2`. -/
theorem C70_psi2 (hn : IsNormalCdf ndtr) (hc : 0 < tuning s c) :
    ∫ x, huberPsi s x c ^ 2 * normPdf x = huberEpsi2 ndtr s c := by
  have e : ∀ x, huberPsi s x c ^ 2 = if |x| ≤ tuning s c then x ^ 2 else tuning s c ^ 2 := by
    intro x
    rw [← C38_huber_weights hc]
    simp only [huberWeights]
    split_ifs with h
    · ring
    · have : 0 < |x| := by linarith
      rw [mul_pow, div_pow, sq_abs]
      have : x ≠ 0 := abs_pos.1 this
      field_simp
  simp only [e]
  rw [cdf_eq hn]
  simp only [huberEpsi2]
  generalize tuning s c = k at *
  obtain ⟨i1, e1⟩ := tail_1 k
  rw [split_even (g := fun x => x ^ 2 * normPdf x) (h := fun x => k ^ 2 * normPdf x) hc]
  · rw [mid_2, integral_const_mul, e1]
    ring
  · intro x; simp only [abs_abs, sq_abs, pdf_abs]
  · intro x h0 h1; rw [abs_of_nonneg h0, if_pos h1]
  · intro x h0; rw [abs_of_pos (hc.trans h0), if_neg (not_le.2 h0)]
  · exact (continuous_pow 2).mul pdf_cont
  · exact i1.const_mul (k ^ 2)

/-- C70: `Huber.E_phi`. -/
theorem C70_phi (hn : IsNormalCdf ndtr) (hc : 0 < tuning s c) :
    ∫ x, huberPhi s x c * normPdf x = huberEphi ndtr s c := by
  rw [cdf_eq hn]
  simp only [huberEphi, huberPhi]
  generalize tuning s c = k at *
  rw [split_even (g := fun x => normPdf x) (h := fun _ => 0) hc]
  · rw [mid_1, integral_zero]
    ring
  · intro x; simp only [abs_abs, pdf_abs]
  · intro x h0 h1; rw [abs_of_nonneg h0, if_pos h1, one_mul]
  · intro x h0; rw [abs_of_pos (hc.trans h0), if_neg (not_le.2 h0), zero_mul]
  · exact pdf_cont
  · exact integrableOn_zero

theorem integral_odd {f : ℝ → ℝ} (h : ∀ x, f (-x) = -f x) : ∫ x, f x = 0 := by
  have h1 := integral_neg_eq_self f volume
  have h2 : ∫ x, f (-x) = -∫ x, f x := by
    rw [← integral_neg]
    exact integral_congr_ae (ae_of_all _ h)
  linarith

/-- C70: `Huber.E_psi`. -/
theorem C70_psi (hc : 0 < tuning s c) :
    ∫ x, huberPsi s x c * normPdf x = huberEpsi s c := by
  rw [huberEpsi]
  apply integral_odd
  intro x
  rw [pdf_even, ← C38_huber_weights hc, ← C38_huber_weights hc]
  simp only [huberWeights, abs_neg]
  ring

/-- C70: `E_phi` is positive, so the asymptotic variance `E_psi2 / E_phi²` is defined. -/
theorem C70_pos (hn : IsNormalCdf ndtr) (hc : 0 < tuning s c) : 0 < huberEphi ndtr s c := by
  rw [cdf_eq hn]
  simp only [huberEphi]
  have := ndtr0_mono hc
  rw [cdf_half] at this
  linarith

/-- C70: the base class `E_psi`, which `Bisquare` inherits, integrates rho instead of psi; the
expectation of the bisquare psi is zero, but the integral it computes is positive. -/
theorem C70_base_psi_violated (hc : 0 < tuning s c) :
    ∫ x, bisqPsi s x c * normPdf x = 0 ∧ 0 < ∫ x, ePsiInt (bisquare s) c x := by
  constructor
  · apply integral_odd
    intro x
    rw [pdf_even, bisqPsi_eq hc, bisqPsi_eq hc, neg_div, neg_sq]
    ring
  · have hcont : Continuous fun x => bisqRho s x c :=
      continuous_iff_continuousAt.2 fun x => (C38_bisq_psi hc x).continuousAt
    have hi : Integrable fun x => bisqRho s x c * normPdf x := by
      refine phi0_int.mono (hcont.mul pdf_cont).aestronglyMeasurable (ae_of_all _ fun x => ?_)
      rw [norm_mul, ← normPdf_eq]
      obtain ⟨h0, h1⟩ := C38_bisq_nonneg hc x
      rw [norm_of_nonneg h0]
      exact mul_le_of_le_one_left (norm_nonneg _) h1
    have hnn : ∀ x, 0 ≤ bisqRho s x c * normPdf x := fun x =>
      mul_nonneg (C38_bisq_nonneg hc x).1 (pdf_pos x).le
    have h2 : ∫ x in Ioi (tuning s c), bisqRho s x c * normPdf x ≤
        ∫ x, bisqRho s x c * normPdf x :=
      setIntegral_le_integral hi (ae_of_all _ hnn)
    have h3 : ∫ x in Ioi (tuning s c), bisqRho s x c * normPdf x = 1 - ndtr0 (tuning s c) := by
      rw [← (tail_1 (tuning s c)).2]
      refine setIntegral_congr_fun measurableSet_Ioi fun x hx => ?_
      have hx : tuning s c < x := hx
      simp only [bisqRho]
      rw [if_neg (not_le.2 (lt_of_lt_of_le hx (le_abs_self x))), one_mul]
    have := (ndtr0_range (tuning s c)).2
    change 0 < ∫ x, bisqRho s x c * normPdf x
    linarith

end Verif.Robust
