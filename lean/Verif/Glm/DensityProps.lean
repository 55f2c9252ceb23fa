import Verif.Glm.TauProps
import Mathlib.Probability.Distributions.Gaussian.Real
import Mathlib.Probability.Distributions.Gamma
import Mathlib.Analysis.Analytic.Binomial
/-!
# C68: `_full_loglike` is minus the logarithm of a probability density
-/
namespace Verif.Glm
open Real Set ProbabilityTheory

/-- Gaussian with mean `mu` and variance `phi / weights`. -/
theorem C68_gaussian {y mu w phi k : ℝ} (hw : 0 < w) (hphi : 0 < phi) :
    exp (-gaussian.full y mu w phi k) = gaussianPDFReal mu ⟨phi / w, (div_pos hphi hw).le⟩ y := by
  have hv : 0 < phi / w := div_pos hphi hw
  have hpi := pi_pos
  simp only [gaussian, gaussianPDFReal, ln2pi]
  have e : -((w / phi * (y - mu) ^ 2 + log (1 / (w / phi))) / 2 + log (2 * π) / 2) =
      log (sqrt (2 * π * (phi / w)))⁻¹ + -(y - mu) ^ 2 / (2 * (phi / w)) := by
    rw [log_inv, log_sqrt (by positivity), log_mul (by positivity) hv.ne', one_div_div]
    field_simp
    ring
  rw [e, exp_add, exp_log (by positivity)]
  rfl

/-- Gamma with shape `weights / phi` and mean `mu`. -/
theorem C68_gamma {sp : Sp} (hsp : IsSp sp) {y mu w phi k : ℝ} (hy : 0 < y) (hm : 0 < mu)
    (hw : 0 < w) (hphi : 0 < phi) :
    exp (-(gamma sp).full y mu w phi k) = gammaPDFReal (w / phi) (w / phi / mu) y := by
  have ha : 0 < w / phi := div_pos hw hphi
  simp only [gamma, gammaPDFReal, if_pos hy.le]
  rw [hsp.gammaln _ ha]
  generalize w / phi = a at ha
  have hr : 0 < a / mu := div_pos ha hm
  have hG := Real.Gamma_pos_of_pos ha
  rw [rpow_def_of_pos hr, rpow_def_of_pos hy,
    show a * y / mu = a / mu * y by ring, log_mul hr.ne' hy.ne']
  have e : -(a / mu * y - a * (log (a / mu) + log y) + log (Gamma a) + log y) =
      log (a / mu) * a + -log (Gamma a) + log y * (a - 1) + -(a / mu * y) := by ring
  rw [e, exp_add, exp_add, exp_add, exp_neg (log (Gamma a)), exp_log hG]
  rfl

/-- Poisson counts (unit weight and scale). -/
theorem C68_poisson {sp : Sp} (hsp : IsSp sp) (y : ℕ) {mu k : ℝ} (hm : 0 < mu) :
    exp (-(poisson sp).full y mu 1 1 k) = exp (-mu) * mu ^ y / y.factorial := by
  simp only [poisson]
  rw [hsp.gammaln _ (by positivity), Real.Gamma_nat_eq_factorial]
  have hf : (0 : ℝ) < y.factorial := by exact_mod_cast y.factorial_pos
  have e : -(-(1 / 1) * (y * log mu - mu) + 1 / 1 * log (y.factorial : ℝ)) =
      -mu + y * log mu + -log (y.factorial : ℝ) := by ring
  rw [e, exp_add, exp_add, exp_neg (log _), exp_log hf, mul_comm (y : ℝ), exp_mul, exp_log hm,
    rpow_natCast]
  rfl

/-- Binomial proportions `r / n` with weight `n`. -/
theorem C68_binomial {sp : Sp} (hsp : IsSp sp) {n r : ℕ} (hn : 0 < n) (hr : r ≤ n) {mu k : ℝ}
    (h0 : 0 < mu) (h1 : mu < 1) :
    exp (-(binomial sp).full (r / n) mu n 1 k) =
      n.choose r * mu ^ r * (1 - mu) ^ (n - r) := by
  have hn' : (n : ℝ) ≠ 0 := by exact_mod_cast hn.ne'
  have h2 : 0 < 1 - mu := sub_pos.2 h1
  simp only [binomial, logbinom]
  rw [mul_div_cancel₀ _ hn', ← Nat.cast_sub hr, hsp.gammaln _ (by positivity),
    hsp.gammaln _ (by positivity), hsp.gammaln _ (by positivity), Real.Gamma_nat_eq_factorial,
    Real.Gamma_nat_eq_factorial, Real.Gamma_nat_eq_factorial]
  have f1 : (0 : ℝ) < n.factorial := by exact_mod_cast n.factorial_pos
  have f2 : (0 : ℝ) < r.factorial := by exact_mod_cast r.factorial_pos
  have f3 : (0 : ℝ) < (n - r).factorial := by exact_mod_cast (n - r).factorial_pos
  have e : -(-((n : ℝ) / 1) * (r / n * log mu + (1 - r / n) * log (1 - mu)) -
      (log (n.factorial : ℝ) - log (r.factorial : ℝ) - log ((n - r).factorial : ℝ))) =
      log (n.factorial : ℝ) + -log (r.factorial : ℝ) + -log ((n - r).factorial : ℝ) +
        log mu * r + log (1 - mu) * ((n - r : ℕ) : ℝ) := by
    rw [Nat.cast_sub hr]; field_simp; ring
  rw [e, exp_add, exp_add, exp_add, exp_add, exp_neg, exp_neg, exp_log f1, exp_log f2, exp_log f3,
    exp_mul, exp_mul, exp_log h0, exp_log h2, rpow_natCast, rpow_natCast,
    Nat.cast_choose ℝ hr]
  field_simp

/-- Inverse Gaussian with mean `mu` and shape `weights / phi`. -/
theorem C68_invGaussian {y mu w phi k : ℝ} (hy : 0 < y) (hw : 0 < w)
    (hphi : 0 < phi) :
    exp (-invGaussian.full y mu w phi k) =
      sqrt (w / phi / (2 * π * y ^ 3)) * exp (-(w / phi * (y - mu) ^ 2 / (2 * mu ^ 2 * y))) := by
  have hpi := pi_pos
  simp only [invGaussian, ln2pi]
  have e : -((w * (y - mu) ^ 2 / (y * mu ^ 2 * phi) + log (phi * y ^ 3 / w)) / 2 + log (2 * π) / 2) =
      log (sqrt (w / phi / (2 * π * y ^ 3))) + -(w / phi * (y - mu) ^ 2 / (2 * mu ^ 2 * y)) := by
    have e2 : w / phi / (2 * π * y ^ 3) = (phi * y ^ 3 / w * (2 * π))⁻¹ := by field_simp
    rw [log_sqrt (by positivity), e2, log_inv,
      log_mul (x := phi * y ^ 3 / w) (y := 2 * π) (by positivity) (by positivity)]
    rcases eq_or_ne mu 0 with h | h
    · subst h; simp; ring
    · field_simp
      ring
  rw [e, exp_add, exp_log (by positivity)]

/-- The negative binomial probability of `y` with mean `mu` and dispersion `k`. -/
noncomputable def nbPMF (mu k : ℝ) (y : ℕ) : ℝ :=
  Real.Gamma (y + 1 / k) / (Real.Gamma (1 / k) * y.factorial) *
    (k * mu / (1 + k * mu)) ^ y * (1 / (1 + k * mu)) ^ (1 / k)

theorem C68_negBinomial {sp : Sp} (hsp : IsSp sp) (y : ℕ) {mu phi k : ℝ} (hm : 0 < mu)
    (hk : 0 < k) : exp (-(negBinomial sp).full y mu 1 phi k) = nbPMF mu k y := by
  have ha : 0 < 1 / k := one_div_pos.2 hk
  have hya : 0 < (y : ℝ) + 1 / k := by positivity
  have h1 : 0 < 1 + k * mu := by positivity
  simp only [negBinomial, nbPMF]
  rw [hsp.gammaln _ ha, hsp.gammaln _ hya, hsp.gammaln _ (by positivity),
    Real.Gamma_nat_eq_factorial]
  generalize 1 / k = a at ha hya
  have hf : (0 : ℝ) < y.factorial := by exact_mod_cast y.factorial_pos
  have g1 := Real.Gamma_pos_of_pos ha
  have g2 := Real.Gamma_pos_of_pos hya
  have hkm : 0 < k * mu := by positivity
  have e : -(-1 * (y * log (k * mu) - (y + a) * log (1 + k * mu) + log (Gamma (y + a)) -
      log (Gamma a)) + 1 / 1 * log (y.factorial : ℝ)) =
      log (Gamma (y + a)) + -log (Gamma a) + -log (y.factorial : ℝ) + log (k * mu) * y +
        -(log (1 + k * mu) * y) + log (1 / (1 + k * mu)) * a := by
    rw [one_div (1 + k * mu), log_inv]; ring
  rw [e, exp_add, exp_add, exp_add, exp_add, exp_add, exp_neg, exp_neg, exp_neg, exp_log g1,
    exp_log g2, exp_log hf, exp_mul, exp_mul, exp_log hkm, exp_log h1, rpow_natCast, rpow_natCast,
    exp_mul, exp_log (one_div_pos.2 h1), div_pow]
  field_simp

/-- The negative binomial probabilities sum to one. -/
theorem C68_negBinomial_sum {mu k : ℝ} (hm : 0 < mu) (hk : 0 < k) : HasSum (nbPMF mu k) 1 := by
  have ha : 0 < 1 / k := one_div_pos.2 hk
  have h1 : 0 < 1 + k * mu := by positivity
  have hp0 : 0 < k * mu / (1 + k * mu) := by positivity
  have hp1 : k * mu / (1 + k * mu) < 1 := by rw [div_lt_one h1]; linarith
  have hq : 1 / (1 + k * mu) = 1 - k * mu / (1 + k * mu) := by field_simp; ring
  unfold nbPMF
  rw [hq]
  generalize k * mu / (1 + k * mu) = q at hp0 hp1
  generalize 1 / k = a at ha
  have hs := (Real.one_div_one_sub_rpow_hasFPowerSeriesOnBall_zero a).hasSum (y := q)
    (by simp [enorm_eq_nnnorm]
        exact_mod_cast (show |q| < 1 by rw [abs_of_pos hp0]; exact hp1))
  have hc : ∀ n : ℕ, Ring.choose (a + n - 1) n =
      Real.Gamma (n + a) / (Real.Gamma a * n.factorial) := by
    intro n
    have hg := (Real.Gamma_pos_of_pos ha).ne'
    have hf : (n.factorial : ℝ) ≠ 0 := by exact_mod_cast n.factorial_ne_zero
    rw [← Ring.multichoose_eq, eq_div_iff (mul_ne_zero hg hf)]
    have h2 := Ring.factorial_nsmul_multichoose_eq_ascPochhammer a n
    rw [Polynomial.ascPochhammer_smeval_eq_eval, nsmul_eq_mul] at h2
    have h3 : ∀ n : ℕ, Real.Gamma (n + a) = Real.Gamma a * (ascPochhammer ℝ n).eval a := by
      intro n
      induction n with
      | zero => simp
      | succ n ih =>
        rw [ascPochhammer_succ_eval, ← mul_assoc, ← ih]
        have : (n : ℝ) + a ≠ 0 := by positivity
        rw [show ((n + 1 : ℕ) : ℝ) + a = (n + a) + 1 by push_cast; ring, Real.Gamma_add_one this]
        ring
    rw [h3, ← h2]; ring
  simp only [zero_add] at hs
  have hq0 : 0 < 1 - q := sub_pos.2 hp1
  have hs2 := hs.mul_right ((1 - q) ^ a)
  rw [one_div_mul_cancel (rpow_pos_of_pos hq0 a).ne'] at hs2
  refine hs2.congr_fun ?_
  intro n
  simp [FormalMultilinearSeries.ofScalars_apply_eq, hc]
  left; ring

end Verif.Glm
