import Verif.Glm.LinksProps
import Mathlib.Probability.Distributions.Gaussian.Real
import Mathlib.MeasureTheory.Integral.IntervalIntegral.FundThmCalculus
import Mathlib.MeasureTheory.Integral.IntegralEqImproper
/-!
# The contract `IsNdtr` is satisfiable

The standard normal distribution function and its inverse satisfy it.
-/
namespace Verif.Glm
open Real Set MeasureTheory ProbabilityTheory Filter Topology

/-- Standard normal density. -/
noncomputable def phi0 (x : ℝ) : ℝ := exp (-x ^ 2 / 2) / sqrt (2 * π)

theorem phi0_eq : phi0 = gaussianPDFReal 0 1 := by
  funext x
  simp only [phi0, gaussianPDFReal, NNReal.coe_one, mul_one, sub_zero]
  rw [div_eq_inv_mul]

theorem phi0_int : Integrable phi0 := by
  rw [phi0_eq]; exact integrable_gaussianPDFReal 0 1

theorem phi0_total : ∫ x, phi0 x = 1 := by
  rw [phi0_eq]; exact integral_gaussianPDFReal_eq_one 0 one_ne_zero

theorem phi0_cont : Continuous phi0 := by
  unfold phi0; fun_prop

/-- Standard normal distribution function. -/
noncomputable def ndtr0 (x : ℝ) : ℝ := ∫ t in Iic x, phi0 t

theorem ndtr0_deriv (x : ℝ) : HasDerivAt ndtr0 (phi0 x) x := by
  have e : ndtr0 = fun y => ndtr0 0 + ∫ t in (0 : ℝ)..y, phi0 t := by
    funext y
    have := intervalIntegral.integral_Iic_sub_Iic (f := phi0) (μ := volume) (a := 0) (b := y)
      phi0_int.integrableOn phi0_int.integrableOn
    simp only [ndtr0]
    linarith
  rw [e]
  exact (intervalIntegral.integral_hasDerivAt_right (phi0_cont.intervalIntegrable _ _)
    (phi0_cont.stronglyMeasurableAtFilter _ _) phi0_cont.continuousAt).const_add _

theorem ndtr0_mono : StrictMono ndtr0 := by
  apply strictMono_of_deriv_pos
  intro x
  rw [(ndtr0_deriv x).deriv]
  have := pi_pos
  unfold phi0
  positivity

theorem ndtr0_top : Tendsto ndtr0 atTop (𝓝 1) := by
  rw [← phi0_total]
  have := (aecover_Iic (μ := (volume : Measure ℝ)) (l := atTop) tendsto_id)
    |>.integral_tendsto_of_countably_generated phi0_int
  exact this

theorem ndtr0_bot : Tendsto ndtr0 atBot (𝓝 0) := by
  have e : ndtr0 = fun x => 1 - ∫ t in Ioi x, phi0 t := by
    funext x
    have := integral_add_compl (measurableSet_Iic (a := x)) phi0_int
    rw [compl_Iic, phi0_total] at this
    simp only [ndtr0]; linarith
  have h := (aecover_Ioi (μ := (volume : Measure ℝ)) (l := atBot) tendsto_id)
    |>.integral_tendsto_of_countably_generated phi0_int
  rw [phi0_total] at h
  rw [e]
  have := h.const_sub 1
  simpa using this

theorem ndtr0_range (x : ℝ) : ndtr0 x ∈ Ioo 0 1 := by
  constructor
  · have h1 : ndtr0 (x - 1) < ndtr0 x := ndtr0_mono (by linarith)
    exact lt_of_le_of_lt (ndtr0_mono.monotone.le_of_tendsto ndtr0_bot (x - 1)) h1
  · have h1 : ndtr0 x < ndtr0 (x + 1) := ndtr0_mono (by linarith)
    exact lt_of_lt_of_le h1 (ndtr0_mono.monotone.ge_of_tendsto ndtr0_top (x + 1))

theorem ndtr0_surj {m : ℝ} (hm : m ∈ Ioo (0 : ℝ) 1) : ∃ x, ndtr0 x = m := by
  obtain ⟨a, ha⟩ := (ndtr0_bot.eventually (gt_mem_nhds hm.1)).exists
  obtain ⟨b, hb⟩ := (ndtr0_top.eventually (lt_mem_nhds hm.2)).exists
  have hc : Continuous ndtr0 :=
    continuous_iff_continuousAt.2 fun x => (ndtr0_deriv x).continuousAt
  have := mem_range_of_exists_le_of_exists_ge hc ⟨a, ha.le⟩ ⟨b, hb.le⟩
  exact this

/-- There are functions satisfying the contract, so C34 and C35 for the probit link are not
vacuous. -/
theorem C34_probit_contract : ∃ ndtr ndtri erfinv : ℝ → ℝ, IsNdtr ndtr ndtri erfinv := by
  refine ⟨ndtr0, Function.invFun ndtr0, fun z => Function.invFun ndtr0 ((z + 1) / 2) / sqrt 2,
    ?_, ndtr0_range, ?_, ?_, ?_⟩
  · exact ndtr0_deriv
  · exact Function.leftInverse_invFun ndtr0_mono.injective
  · exact fun m hm => Function.invFun_eq (ndtr0_surj hm)
  · intro m _
    congr 2; ring

end Verif.Glm
