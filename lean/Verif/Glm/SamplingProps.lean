import Verif.Glm.Sampling
import Verif.Glm.DensityProps
/-!
# C211: sampling and quantiles of the families; C212: intervals of `_predict`
-/
namespace Verif.Glm
open Real Set ProbabilityTheory

/-! ## C211 -/

/-- Gaussian: samples and quantiles belong to the density of the log-likelihood. -/
theorem C211_gaussian {mu phi : ℝ} (hphi : 0 < phi) (k : ℝ) (w : ℕ) (y : ℝ) :
    (rvs mu phi k w .gaussian).dens y = exp (-gaussian.full y mu 1 phi k) ∧
    ppf mu phi k w .gaussian = some (rvs mu phi k w .gaussian) := by
  refine ⟨?_, rfl⟩
  rw [C68_gaussian one_pos hphi]
  simp only [rvs, Dist.dens]
  congr 1
  apply NNReal.eq
  show sqrt phi ^ 2 = phi / 1
  rw [sq_sqrt hphi.le, div_one]

theorem C211_gamma {sp : Sp} (hsp : IsSp sp) {mu phi : ℝ} (hm : 0 < mu) (hphi : 0 < phi) (k : ℝ)
    (w : ℕ) {y : ℝ} (hy : 0 < y) :
    (rvs mu phi k w .gamma).dens y = exp (-(gamma sp).full y mu 1 phi k) ∧
    ppf mu phi k w .gamma = some (rvs mu phi k w .gamma) := by
  refine ⟨?_, ?_⟩
  · rw [C68_gamma hsp hy hm one_pos hphi]
    simp only [rvs, Dist.dens]
    congr 1
    field_simp
  · simp only [ppf, rvs, one_div_one_div]

theorem C211_negBinomial {sp : Sp} (hsp : IsSp sp) {mu k : ℝ} (hm : 0 < mu) (hk : 0 < k) (phi : ℝ)
    (w y : ℕ) : (rvs mu phi k w .negBinomial).pmf y = exp (-(negBinomial sp).full y mu 1 phi k) ∧
    ppf mu phi k w .negBinomial = some (rvs mu phi k w .negBinomial) := by
  refine ⟨?_, rfl⟩
  rw [C68_negBinomial hsp y hm hk]
  have e1 : -mu ^ 2 / (mu - (mu + k * mu ^ 2)) = 1 / k := by
    rw [sub_add_cancel_left]; field_simp
  have e2 : mu / (mu + k * mu ^ 2) = 1 / (1 + k * mu) := by field_simp
  have e3 : 1 - 1 / (1 + k * mu) = k * mu / (1 + k * mu) := by field_simp; ring
  simp only [rvs, Dist.pmf, nbPMF, e1, e2, e3]
  ring

theorem C211_poisson_partial {sp : Sp} (hsp : IsSp sp) {mu : ℝ} (hm : 0 < mu) (phi k : ℝ)
    (w y : ℕ) : (rvs mu phi k w .poisson).pmf y = exp (-(poisson sp).full y mu 1 1 k) := by
  rw [C68_poisson hsp y hm]; rfl

/-- Poisson: the quantile function always raises. -/
theorem C211_poisson_ppf_violated (mu phi k : ℝ) (w : ℕ) : ppf mu phi k w .poisson = none := rfl

theorem C211_binomial {sp : Sp} (hsp : IsSp sp) {n r : ℕ} (hn : 0 < n) (hr : r ≤ n) {mu : ℝ}
    (h0 : 0 < mu) (h1 : mu < 1) (phi k : ℝ) :
    (rvs mu phi k n .binomial).pmf r = exp (-(binomial sp).full (r / n) mu n 1 k) ∧
    ppf mu phi k n .binomial = some (rvs mu phi k n .binomial) := by
  refine ⟨?_, rfl⟩
  rw [C68_binomial hsp hn hr h0 h1]; rfl

/-- Inverse Gaussian, scale one: the samples are right. -/
theorem C211_invGaussian_partial (mu k : ℝ) (w : ℕ) {y : ℝ} (hy : 0 < y) :
    (rvs mu 1 k w .invGaussian).dens y = exp (-invGaussian.full y mu 1 1 k) := by
  rw [C68_invGaussian hy one_pos one_pos]
  simp only [rvs, Dist.dens, waldDens, if_pos hy, sqrt_one, div_one]

/-- For every other scale they are not: the shape is the root of the scale and not its inverse. -/
theorem C211_invGaussian_rvs_violated {mu phi : ℝ} (hm : 0 < mu) (hphi : 0 < phi) (h1 : phi ≠ 1)
    (k : ℝ) (w : ℕ) :
    (rvs mu phi k w .invGaussian).dens mu ≠ exp (-invGaussian.full mu mu 1 phi k) := by
  rw [C68_invGaussian hm one_pos hphi]
  simp only [rvs, Dist.dens, waldDens, if_pos hm, sub_self]
  intro h
  have hs : 0 < sqrt phi := sqrt_pos.2 hphi
  have hpi := pi_pos
  simp only [ne_eq, OfNat.ofNat_ne_zero, not_false_eq_true, zero_pow, mul_zero, zero_div, neg_zero,
    exp_zero, mul_one] at h
  rw [sqrt_inj (by positivity) (by positivity)] at h
  have h2 : sqrt phi = 1 / phi := by
    have : (2 * π * mu ^ 3) ≠ 0 := by positivity
    field_simp at h
    rw [eq_div_iff hphi.ne']; linarith
  have h3 : phi * phi ^ 2 = 1 := by
    have : sqrt phi ^ 2 = (1 / phi) ^ 2 := by rw [h2]
    rw [sq_sqrt hphi.le] at this
    field_simp at this
    linarith
  have h4 : (phi - 1) * (phi ^ 2 + phi + 1) = 0 := by linarith
  rcases mul_eq_zero.1 h4 with h5 | h5
  · exact h1 (by linarith)
  · nlinarith

/-- The quantiles never are: all of the distribution lies above the mean. -/
theorem C211_invGaussian_ppf_violated {mu phi : ℝ} (hphi : 0 < phi) (k : ℝ) (w : ℕ) :
    ∃ d, ppf mu phi k w .invGaussian = some d ∧ (∀ y ≤ mu, d.dens y = 0) ∧
      0 < exp (-invGaussian.full (mu / 2) mu 1 phi k) := by
  refine ⟨_, rfl, fun y hy => ?_, exp_pos _⟩
  have hs : 0 < sqrt phi := sqrt_pos.2 hphi
  simp only [Dist.dens, waldDens]
  rw [if_neg (not_lt.2 (div_nonpos_of_nonpos_of_nonneg (sub_nonpos.2 hy) hs.le)), zero_div]

/-! ## C212 -/

/-- The quadratic form of a Gram matrix is a sum of squares, so the root is of a nonnegative
number and is the length of `R x`. -/
theorem C212_variance {p q : ℕ} (x : Fin p → ℝ) (R : Fin q → Fin p → ℝ) :
    wdiag x (fun j k => ∑ i, R i j * R i k) = ∑ i, (∑ j, R i j * x j) ^ 2 := by
  unfold wdiag
  have e : ∀ i, (∑ j, R i j * x j) ^ 2 = ∑ j, ∑ k, x j * (R i j * R i k) * x k := by
    intro i
    rw [sq, Finset.sum_mul_sum]
    refine Finset.sum_congr rfl fun j _ => Finset.sum_congr rfl fun k _ => by ring
  simp only [e, Finset.mul_sum, Finset.sum_mul]
  rw [Finset.sum_comm' (s := Finset.univ) (t := fun _ => Finset.univ) (t' := Finset.univ)
    (s' := fun _ => Finset.univ) (by simp)]
  rw [Finset.sum_comm]
  conv_rhs => rw [Finset.sum_comm]
  refine Finset.sum_congr rfl fun j _ => ?_
  conv_rhs => rw [Finset.sum_comm]

/-- The confidence level is turned into the upper quantile level. -/
theorem C212_level {level : ℝ} (h1 : level < 1) :
    symmetricConfInt level = (1 + level) / 2 ∧ symmetricConfInt (100 * level) =
      (if 100 * level > 1 then (1 + level) / 2 else (1 + 100 * level) / 2) := by
  constructor
  · simp only [symmetricConfInt, if_neg (not_lt.2 h1.le)]; ring
  · simp only [symmetricConfInt]; split_ifs <;> ring

theorem ndtr_strictMono {ndtr ndtri erfinv : ℝ → ℝ} (h : IsNdtr ndtr ndtri erfinv) :
    StrictMono ndtr := by
  refine strictMono_of_deriv_pos fun x => ?_
  rw [(h.deriv x).deriv]
  have := pi_pos
  positivity

/-- The median of the standard normal distribution is zero. -/
theorem ndtr_half {ndtr ndtri erfinv : ℝ → ℝ} (h : IsNdtr ndtr ndtri erfinv) : ndtr 0 = 1 / 2 := by
  have hd : ∀ x, HasDerivAt (fun x => ndtr x + ndtr (-x)) 0 x := by
    intro x
    have h1 := (h.deriv (-x)).comp x (hasDerivAt_neg x)
    refine ((h.deriv x).fun_add h1).congr_deriv ?_
    rw [neg_sq]; ring
  have hc : ∀ x, ndtr x + ndtr (-x) = 2 * ndtr 0 := by
    intro x
    have := is_const_of_deriv_eq_zero (fun y => (hd y).differentiableAt) (fun y => (hd y).deriv) x 0
    rw [neg_zero] at this
    linarith
  have hr := h.range 0
  rcases lt_trichotomy (2 * ndtr 0) 1 with hlt | heq | hgt
  · have hm : (1 + 2 * ndtr 0) / 2 ∈ Ioo (0 : ℝ) 1 := ⟨by linarith [hr.1], by linarith⟩
    have h1 := hc (ndtri ((1 + 2 * ndtr 0) / 2))
    rw [h.right _ hm] at h1
    have := (h.range (-ndtri ((1 + 2 * ndtr 0) / 2))).1
    linarith
  · linarith
  · have hm : (2 * ndtr 0 - 1) / 2 ∈ Ioo (0 : ℝ) 1 := ⟨by linarith, by linarith [hr.2]⟩
    have h1 := hc (ndtri ((2 * ndtr 0 - 1) / 2))
    rw [h.right _ hm] at h1
    have := (h.range (-ndtri ((2 * ndtr 0 - 1) / 2))).2
    linarith

/-- The interval for the linear predictor contains exactly the values whose standardised distance
from the estimate, in units of the standard error, has a normal probability between the two levels;
and with an increasing inverse link the interval for the mean contains exactly their means. -/
theorem C212_mean_ci {ndtr ndtri erfinv : ℝ → ℝ} (h : IsNdtr ndtr ndtri erfinv) {inv : ℝ → ℝ}
    (hi : StrictMono inv) {level eta v : ℝ} (h0 : 0 < level) (h1 : level < 1) (hv : 0 < v)
    (eta0 : ℝ) :
    let r := meanCi true ndtri inv level eta v
    ((r.1 ≤ eta0 ∧ eta0 ≤ r.2.1) ↔ ndtr (|eta0 - eta| / sqrt v) ≤ (1 + level) / 2) ∧
    ((r.1 ≤ eta0 ∧ eta0 ≤ r.2.1) ↔ (r.2.2.1 ≤ inv eta0 ∧ inv eta0 ≤ r.2.2.2)) ∧
    r.1 + r.2.1 = 2 * eta := by
  intro r
  have hm : (1 + level) / 2 ∈ Ioo (0 : ℝ) 1 := ⟨by linarith, by linarith⟩
  have hs : 0 < sqrt v := sqrt_pos.2 hv
  have e : r = (eta - ndtri ((1 + level) / 2) * sqrt v, eta + ndtri ((1 + level) / 2) * sqrt v,
      inv (eta - ndtri ((1 + level) / 2) * sqrt v),
      inv (eta + ndtri ((1 + level) / 2) * sqrt v)) := by
    simp only [r, meanCi, (C212_level h1).1, if_true]
  rw [e]
  refine ⟨?_, ?_, by ring⟩
  · have h2 : ndtr (|eta0 - eta| / sqrt v) ≤ (1 + level) / 2 ↔
        |eta0 - eta| / sqrt v ≤ ndtri ((1 + level) / 2) := by
      conv_lhs => rw [← h.right _ hm]
      exact (ndtr_strictMono h).le_iff_le
    rw [h2, div_le_iff₀ hs, abs_le]
    constructor <;> rintro ⟨a, b⟩ <;> constructor <;> linarith
  · simp only [hi.le_iff_le]

/-- With a decreasing inverse link (reciprocal, log complement, negative powers) the lower limit is
the larger one. -/
theorem C212_mean_ci_violated {ndtr ndtri erfinv : ℝ → ℝ} (h : IsNdtr ndtr ndtri erfinv)
    {level v : ℝ} (h0 : 0 < level) (h1 : level < 1) (hv : 0 < v) (eta : ℝ) :
    let r := meanCi true ndtri logCompLink.inv level eta v
    r.2.2.2 < r.2.2.1 := by
  intro r
  have hm : (1 + level) / 2 ∈ Ioo (0 : ℝ) 1 := ⟨by linarith, by linarith⟩
  have hs : 0 < sqrt v := sqrt_pos.2 hv
  have hz : 0 < ndtri ((1 + level) / 2) := by
    rw [← (ndtr_strictMono h).lt_iff_lt, h.right _ hm, ndtr_half h]; linarith
  simp only [r, meanCi, (C212_level h1).1, if_true, logCompLink]
  have : eta - ndtri ((1 + level) / 2) * sqrt v < eta + ndtri ((1 + level) / 2) * sqrt v := by
    have := mul_pos hz hs
    linarith
  have := exp_lt_exp.2 this
  linarith

/-- `pyglm`: the reported standard error is the variance, and the interval is right only for
variance zero or one. -/
theorem C212_pyglm_violated {ndtr ndtri erfinv : ℝ → ℝ} (h : IsNdtr ndtr ndtri erfinv)
    {level v : ℝ} (h0 : 0 < level) (h1 : level < 1) (hv : 0 < v) (eta : ℝ)
    (inv : ℝ → ℝ) :
    (meanCi false ndtri inv level eta v).1 = (meanCi true ndtri inv level eta v).1 ↔ v = 1 := by
  have hm : (1 + level) / 2 ∈ Ioo (0 : ℝ) 1 := ⟨by linarith, by linarith⟩
  have hz : ndtri ((1 + level) / 2) ≠ 0 := by
    have : 0 < ndtri ((1 + level) / 2) := by
      rw [← (ndtr_strictMono h).lt_iff_lt, h.right _ hm, ndtr_half h]; linarith
    exact this.ne'
  simp only [meanCi, (C212_level h1).1, if_true, Bool.false_eq_true, if_false, sub_right_inj]
  rw [mul_right_inj' hz]
  constructor
  · intro e
    have h2 : v ^ 2 = v := by
      calc v ^ 2 = sqrt v ^ 2 := by rw [← e]
        _ = v := sq_sqrt hv.le
    have : v * (v - 1) = 0 := by linarith
    rcases mul_eq_zero.1 this with h3 | h3
    · exact absurd h3 hv.ne'
    · linarith
  · rintro rfl; simp

/-- Binomial: the limits are the two quantiles of the binomial distribution with the fitted mean. -/
theorem C212_predicted_partial (mu : ℝ) (w : ℕ) {level : ℝ} (h1 : level < 1) :
    predictedCi .binomial mu w level = some ((1 - level) / 2, (1 + level) / 2, .binom w mu) := by
  have e : 1 - (1 + level) / 2 = (1 - level) / 2 := by ring
  simp [predictedCi, ppfParams, ppf, (C212_level h1).1, e]

/-- For every other family the prediction interval, which is on by default, raises. -/
theorem C212_predicted_violated (kind : Kind) (h : kind ≠ .binomial) (mu : ℝ) (w : ℕ) (level : ℝ) :
    predictedCi kind mu w level = none := by
  cases kind <;> first | exact absurd rfl h | simp [predictedCi, ppfParams, ppf]

end Verif.Glm
