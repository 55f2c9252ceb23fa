import Verif.Reg.Nb2
import Verif.Reg.BetaProps
import Mathlib.Analysis.Analytic.Binomial
import Mathlib.Analysis.SpecialFunctions.Gamma.Beta
/-!
# The negative binomial series
-/
namespace Verif.Reg
open Real

/-- `Γ(k + a) / Γ(a)` as a rising factorial. -/
theorem gamma_ratio {a : ℝ} (ha : 0 < a) (k : ℕ) : Gamma (k + a) / Gamma a = (ascPochhammer ℝ k).eval a := by
  induction k with
  | zero => simp [div_self (Gamma_pos_of_pos ha).ne']
  | succ k ih =>
    have hk : (k : ℝ) + a ≠ 0 := by positivity
    rw [ascPochhammer_succ_right, Polynomial.eval_mul, ← ih]
    have : ((k + 1 : ℕ) : ℝ) + a = ((k : ℝ) + a) + 1 := by push_cast; ring
    rw [this, Gamma_add_one hk]
    simp
    ring

/-- The negative binomial series. -/
theorem nb_series {a r : ℝ} (ha : 0 < a) (h0 : 0 ≤ r) (h1 : r < 1) :
    HasSum (fun k : ℕ => Gamma (k + a) / (Gamma a * k.factorial) * r ^ k) ((1 - r) ^ (-a)) := by
  have h := (Real.one_div_one_sub_rpow_hasFPowerSeriesOnBall_zero a).hasSum (y := r) (by
    simp only [Metric.mem_eball, edist_zero_right]
    rw [enorm_eq_nnnorm]
    have : ‖r‖₊ < 1 := by
      rw [← NNReal.coe_lt_coe]; simpa [abs_of_nonneg h0] using h1
    exact_mod_cast this)
  rw [zero_add, one_div, ← rpow_neg (by linarith)] at h
  refine h.congr_fun fun k => ?_
  rw [FormalMultilinearSeries.ofScalars_apply_eq, smul_eq_mul, ← Ring.multichoose_eq, ← div_div, gamma_ratio ha]
  have hk : (k.factorial : ℝ) ≠ 0 := by positivity
  have e := Ring.factorial_nsmul_multichoose_eq_ascPochhammer a k
  rw [Polynomial.ascPochhammer_smeval_eq_eval, nsmul_eq_mul] at e
  rw [← e]
  field_simp

theorem coef_succ {a : ℝ} (ha : 0 < a) (k : ℕ) :
    ((k + 1 : ℕ) : ℝ) * (Gamma ((k + 1 : ℕ) + a) / (Gamma a * (k + 1).factorial)) = a * (Gamma (k + (a + 1)) / (Gamma (a + 1) * k.factorial)) := by
  have h1 : ((k + 1 : ℕ) : ℝ) + a = k + (a + 1) := by push_cast; ring
  have h2 : ((k + 1 : ℕ) : ℝ) ≠ 0 := by positivity
  have h3 : (k.factorial : ℝ) ≠ 0 := by positivity
  have h4 := (Gamma_pos_of_pos ha).ne'
  rw [h1, Gamma_add_one ha.ne', Nat.factorial_succ, Nat.cast_mul]
  field_simp

/-- First and second factorial moments of the series. -/
theorem nb_series1 {a r : ℝ} (ha : 0 < a) (h0 : 0 ≤ r) (h1 : r < 1) :
    HasSum (fun k : ℕ => (k : ℝ) * (Gamma (k + a) / (Gamma a * k.factorial) * r ^ k)) (a * r * (1 - r) ^ (-(a + 1))) := by
  rw [← hasSum_nat_add_iff' 1]
  simp only [Finset.sum_range_one, Nat.cast_zero, zero_mul, sub_zero]
  refine ((nb_series (a := a + 1) (by linarith) h0 h1).mul_left (a * r)).congr_fun fun k => ?_
  rw [← mul_assoc, coef_succ ha, pow_succ]
  ring

theorem nb_series2 {a r : ℝ} (ha : 0 < a) (h0 : 0 ≤ r) (h1 : r < 1) :
    HasSum (fun k : ℕ => (k : ℝ) * (k - 1) * (Gamma (k + a) / (Gamma a * k.factorial) * r ^ k)) (a * r * ((a + 1) * r * (1 - r) ^ (-(a + 1 + 1)))) := by
  rw [← hasSum_nat_add_iff' 1]
  simp only [Finset.sum_range_one, Nat.cast_zero, zero_mul, sub_zero]
  refine ((nb_series1 (a := a + 1) (by linarith) h0 h1).mul_left (a * r)).congr_fun fun k => ?_
  have := coef_succ ha k
  have e : ((k + 1 : ℕ) : ℝ) - 1 = k := by push_cast; ring
  rw [e]
  calc ((k + 1 : ℕ) : ℝ) * k * (Gamma ((k + 1 : ℕ) + a) / (Gamma a * (k + 1).factorial) * r ^ (k + 1))
      = (((k + 1 : ℕ) : ℝ) * (Gamma ((k + 1 : ℕ) + a) / (Gamma a * (k + 1).factorial))) * (k * r ^ (k + 1)) := by ring
    _ = _ := by rw [this, pow_succ]; ring

end Verif.Reg
