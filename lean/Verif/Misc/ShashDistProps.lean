import Verif.Misc.ShashDistLemmas

/-!
# The distribution functions and the moments of the sinh-arcsinh distribution (C179, C180)
-/

namespace Verif.Misc.Shash

open Verif.Glm Verif.Misc Verif.Lv MeasureTheory Set

section
variable {m s v t : ℝ} (hs : 0 < s) (ht : 0 < t)
include hs ht

/-- The density is positive, and its logarithm is the density whose derivatives are checked in C174. -/
theorem C179_log_density (y : ℝ) : 0 < pdf y m s v t ∧ Real.log (pdf y m s v t) = logDens y m s t v :=
  ⟨pdf_pos hs ht y, rfl⟩

/-- `_logpdf` and `_pdf` of `sinharcsinh_dist.py` are the same functions. -/
theorem C179_other_density (y : ℝ) :
    logpdf' y m s v t = logDens y m s t v ∧ pdf' y m s v t = pdf y m s v t := by
  have hp := Real.pi_pos
  have h : logpdf' y m s v t = Real.log (pdf y m s v t) := by
    have hc := Real.cosh_pos (t * Real.arsinh ((y - m) / s) - v)
    have h1 : 0 < √(2 * Real.pi) := by positivity
    have h2 : 0 < √(1 + ((y - m) / s) ^ 2) := by positivity
    simp only [logpdf', pdf]
    rw [Real.sqrt_mul (x := 2 * Real.pi) (by positivity),
      Real.log_mul (div_pos (mul_pos ht hc) (mul_pos hs (mul_pos h1 h2))).ne' (Real.exp_pos _).ne',
      Real.log_exp, Real.log_div (mul_pos ht hc).ne' (mul_pos hs (mul_pos h1 h2)).ne',
      Real.log_mul ht.ne' hc.ne', Real.log_mul hs.ne' (mul_pos h1 h2).ne',
      Real.log_mul h1.ne' h2.ne', Real.log_sqrt (by positivity : (0:ℝ) ≤ 2 * Real.pi),
      mul_comm (Real.arsinh ((y - m) / s)) t]
    ring
  refine ⟨h, ?_⟩
  rw [pdf', h, Real.exp_log (pdf_pos hs ht y)]

/-- `pdf` is the derivative of `cdf`. -/
theorem C179_derivative (y : ℝ) :
    HasDerivAt (fun y => cdf ndtr0 y m s v t) (pdf y m s v t) y := by
  have h := HasDerivAt.comp y (ndtr0_deriv (toNormal m s v t y)) (toNormal_deriv hs ht y)
  refine h.congr_deriv ?_
  rw [pdf_eq hs ht]; ring

/-- `cdf` increases from zero to one. -/
theorem C179_cdf : StrictMono (fun y => cdf ndtr0 y m s v t) ∧
    range (fun y => cdf ndtr0 y m s v t) = Ioo 0 1 := by
  refine ⟨fun a b hab => ndtr0_mono (toNormal_mono hs ht hab), ?_⟩
  ext p
  constructor
  · rintro ⟨y, rfl⟩; exact ndtr0_range _
  · intro hp
    obtain ⟨x, hx⟩ := ndtr0_surj hp
    obtain ⟨y, hy⟩ := toNormal_surj (m := m) (v := v) hs ht x
    exact ⟨y, by show ndtr0 (toNormal m s v t y) = p; rw [hy, hx]⟩

/-- The density integrates to one. -/
theorem C179_total : Integrable (fun y => pdf y m s v t) ∧ ∫ y, pdf y m s v t = 1 := by
  have h1 := expect_int (m := m) (v := v) hs ht fun _ => 1
  have h2 := expect (m := m) (v := v) hs ht fun _ => 1
  simp only [one_mul] at h1 h2
  exact ⟨h1.2 phi0_int, h2.trans phi0_total⟩

omit hs ht in
theorem inverse_eq (ndtri : ℝ → ℝ) (p : ℝ) :
    inverseCdf ndtri p m s v t = ofNormal m s v t (ndtri p) := by
  rw [inverseCdf, ofNormal, add_div]

/-- `inverse_cdf` and `_qtf` invert `cdf`. -/
theorem C179_inverse {ndtri : ℝ → ℝ} (hi : IsNdtri ndtri) {p : ℝ} (hp : p ∈ Ioo (0 : ℝ) 1) :
    cdf ndtr0 (inverseCdf ndtri p m s v t) m s v t = p ∧
    (∀ y, inverseCdf ndtri (cdf ndtr0 y m s v t) m s v t = y) ∧
    qtf ndtri p m s v t = inverseCdf ndtri p m s v t := by
  have h1 : ∀ p ∈ Ioo (0 : ℝ) 1, cdf ndtr0 (inverseCdf ndtri p m s v t) m s v t = p := by
    intro p hp
    show ndtr0 (toNormal m s v t (inverseCdf ndtri p m s v t)) = p
    rw [inverse_eq, to_of hs ht, hi p hp]
  refine ⟨h1 p hp, fun y => ?_, ?_⟩
  · exact (C179_cdf hs ht).1.injective (h1 _ (ndtr0_range _))
  · simp only [qtf, inverseCdf]
    rw [← add_div, add_comm (Real.arsinh (ndtri p))]; ring

/-- A draw is at most `y` exactly when the uniform number is at most `cdf y`, so draws have
distribution function `cdf`. -/
theorem C179_rvs {ndtri : ℝ → ℝ} (hi : IsNdtri ndtri) {u : ℝ} (hu : u ∈ Ioo (0 : ℝ) 1) (y : ℝ) :
    (rvs ndtri u m s v t ≤ y ↔ u ≤ cdf ndtr0 y m s v t) ∧
    (rvs' ndtri u m s v t ≤ y ↔ u ≤ cdf ndtr0 y m s v t) := by
  obtain ⟨h1, _, h3⟩ := C179_inverse (m := m) (v := v) hs ht hi hu
  have h4 : inverseCdf ndtri u m s v t ≤ y ↔ u ≤ cdf ndtr0 y m s v t := by
    rw [← (C179_cdf (m := m) (v := v) hs ht).1.le_iff_le]
    beta_reduce
    rw [h1]
  exact ⟨h4, by rw [rvs', h3]; exact h4⟩

/-- The volume of the uniform numbers whose draw is at most `y`. -/
theorem C179_law {ndtri : ℝ → ℝ} (hi : IsNdtri ndtri) (y : ℝ) :
    volume {u ∈ Ioo (0 : ℝ) 1 | rvs ndtri u m s v t ≤ y} = ENNReal.ofReal (cdf ndtr0 y m s v t) := by
  have hr : cdf ndtr0 y m s v t ∈ Ioo (0 : ℝ) 1 := ndtr0_range _
  have h : {u ∈ Ioo (0 : ℝ) 1 | rvs ndtri u m s v t ≤ y} = Ioc 0 (cdf ndtr0 y m s v t) := by
    ext u
    simp only [mem_setOf_eq, mem_Ioc]
    constructor
    · rintro ⟨hu, h⟩; exact ⟨hu.1, ((C179_rvs hs ht hi hu y).1).1 h⟩
    · rintro ⟨h0, h1⟩
      have hu : u ∈ Ioo (0 : ℝ) 1 := ⟨h0, h1.trans_lt hr.2⟩
      exact ⟨hu, ((C179_rvs hs ht hi hu y).1).2 h1⟩
  rw [h, Real.volume_Ioc, sub_zero]

/-- `median` has probability one half on either side and is `inverse_cdf(1/2)`. -/
theorem C179_median {ndtri : ℝ → ℝ} (hi : IsNdtri ndtri) :
    cdf ndtr0 (median m s v t) m s v t = 1 / 2 ∧
    median m s v t = inverseCdf ndtri (1 / 2) m s v t := by
  have h0 : ndtr0 0 = 1 / 2 := by have := ndtr0_neg 0; simp at this; linarith
  have h1 : median m s v t = ofNormal m s v t 0 := by
    rw [median, ofNormal, Real.arsinh_zero, add_zero, Real.sinh_eq, neg_div]; ring
  have h2 : ndtri (1 / 2) = 0 := by
    refine ndtr0_mono.injective ?_
    rw [hi (1 / 2) ⟨by norm_num, by norm_num⟩, h0]
  refine ⟨?_, by rw [h1, inverse_eq, h2]⟩
  show ndtr0 (toNormal m s v t (median m s v t)) = 1 / 2
  rw [h1, to_of hs ht, h0]

end

/-- The functions of `shashr.py` are a distribution for all real parameters. -/
theorem C179_log_parameters (m s v t : ℝ) : (∀ y, HasDerivAt (fun y => withExp (cdf ndtr0 y) m s v t)
      (withExp (pdf y) m s v t) y) ∧
    ∫ y, withExp (pdf y) m s v t = 1 ∧
    ∀ ndtri, IsNdtri ndtri →
      (∀ p ∈ Ioo (0 : ℝ) 1, withExp (cdf ndtr0 (withExp (inverseCdf ndtri p) m s v t)) m s v t = p) ∧
      withExp median m s v t = withExp (inverseCdf ndtri (1 / 2)) m s v t :=
  ⟨C179_derivative (Real.exp_pos s) (Real.exp_pos t), (C179_total (Real.exp_pos s) (Real.exp_pos t)).2,
    fun _ hi => ⟨fun _ hp => (C179_inverse (Real.exp_pos s) (Real.exp_pos t) hi hp).1,
      (C179_median (Real.exp_pos s) (Real.exp_pos t) hi).2⟩⟩

/-! ### Moments -/

section
variable {kv : ℝ → ℝ → ℝ} (hk : IsKv kv)
include hk

/-- `P` is the expectation of `exp(q arcsinh X)` for a standard normal `X`. -/
theorem C180_P (q : ℝ) : P kv q = ∫ x, Real.exp (q * Real.arsinh x) * phi0 x := (P0_kv hk q).symm

theorem m_eq (v t : ℝ) : m1 kv v t = M1 v t ∧ m2 kv v t = M2 v t ∧ m3 kv v t = M3 v t ∧ m4 kv v t = M4 v t := by
  have h : ∀ q, P kv q = P0 q := fun q => (P0_kv hk q).symm
  simp only [m1, m2, m3, m4, M1, M2, M3, M4, h, and_self]

variable {m s v t : ℝ} (hs : 0 < s) (ht : 0 < t)
include hs ht

/-- `moments` returns the first four raw moments. -/
theorem C180_moments : (∀ k ≤ 4, Integrable fun y => y ^ k * pdf y m s v t) ∧
    moments kv m s v t = [∫ y, y ^ 1 * pdf y m s v t, ∫ y, y ^ 2 * pdf y m s v t,
      ∫ y, y ^ 3 * pdf y m s v t, ∫ y, y ^ 4 * pdf y m s v t] := by
  obtain ⟨e1, e2, e3, e4⟩ := m_eq hk v t
  constructor
  · intro k hk4
    rw [expect_int hs ht fun y => y ^ k]
    interval_cases k
    · refine (poly_int v t 1 0 0 0 0).congr (Filter.Eventually.of_forall fun x => ?_)
      simp only [ofNormal_eq]; ring
    · refine (poly_int v t m s 0 0 0).congr (Filter.Eventually.of_forall fun x => ?_)
      simp only [ofNormal_eq]; ring
    · refine (poly_int v t (m ^ 2) (2 * m * s) (s ^ 2) 0 0).congr (Filter.Eventually.of_forall fun x => ?_)
      simp only [ofNormal_eq]; ring
    · refine (poly_int v t (m ^ 3) (3 * m ^ 2 * s) (3 * m * s ^ 2) (s ^ 3) 0).congr
        (Filter.Eventually.of_forall fun x => ?_)
      simp only [ofNormal_eq]; ring
    · refine (poly_int v t (m ^ 4) (4 * m ^ 3 * s) (6 * m ^ 2 * s ^ 2) (4 * m * s ^ 3) (s ^ 4)).congr
        (Filter.Eventually.of_forall fun x => ?_)
      simp only [ofNormal_eq]; ring
  · have h1 := poly_E v t m s 0 0 0
    have h2 := poly_E v t (m ^ 2) (2 * m * s) (s ^ 2) 0 0
    have h3 := poly_E v t (m ^ 3) (3 * m ^ 2 * s) (3 * m * s ^ 2) (s ^ 3) 0
    have h4 := poly_E v t (m ^ 4) (4 * m ^ 3 * s) (6 * m ^ 2 * s ^ 2) (4 * m * s ^ 3) (s ^ 4)
    simp only [moments, my1, my2, my3, my4, e1, e2, e3, e4]
    rw [expect hs ht fun y => y ^ 1, expect hs ht fun y => y ^ 2, expect hs ht fun y => y ^ 3,
      expect hs ht fun y => y ^ 4]
    simp only [ofNormal_eq]
    congr 1
    · rw [show M1 v t * s = s * M1 v t by ring, show m + s * M1 v t =
        m + s * M1 v t + 0 * M2 v t + 0 * M3 v t + 0 * M4 v t by ring, ← h1]
      congr 1; funext x; ring
    congr 1
    · rw [show M2 v t * s ^ 2 + 2 * M1 v t * m * s + m ^ 2 = m ^ 2 + 2 * m * s * M1 v t +
        s ^ 2 * M2 v t + 0 * M3 v t + 0 * M4 v t by ring, ← h2]
      congr 1; funext x; ring
    congr 1
    · rw [show M3 v t * s ^ 3 + 3 * M2 v t * m * s ^ 2 + 3 * M1 v t * m ^ 2 * s + m ^ 3 =
        m ^ 3 + 3 * m ^ 2 * s * M1 v t + 3 * m * s ^ 2 * M2 v t + s ^ 3 * M3 v t + 0 * M4 v t by ring, ← h3]
      congr 1; funext x; ring
    congr 1
    · rw [show M4 v t * s ^ 4 + 4 * M3 v t * m * s ^ 3 + 6 * M2 v t * m ^ 2 * s ^ 2 +
        4 * M1 v t * m ^ 3 * s + m ^ 4 = m ^ 4 + 4 * m ^ 3 * s * M1 v t + 6 * m ^ 2 * s ^ 2 * M2 v t +
        4 * m * s ^ 3 * M3 v t + s ^ 4 * M4 v t by ring, ← h4]
      congr 1; funext x; ring

/-- `mean` is the mean. -/
theorem C180_mean : mean kv m s v t = ∫ y, y * pdf y m s v t := by
  have h : mean kv m s v t = my1 kv m s v t := by simp only [mean, my1, m1]; ring
  have h2 := (C180_moments (m := m) (v := v) hk hs ht).2
  simp only [moments, List.cons.injEq, pow_one] at h2
  rw [h, h2.1]

theorem mean_M : mean kv m s v t = m + s * M1 v t := by
  rw [mean, ← (m_eq hk v t).1, m1]; ring

theorem variance_M : variance kv m s v t = s ^ 2 * (M2 v t - M1 v t ^ 2) := by
  rw [← (m_eq hk v t).1, ← (m_eq hk v t).2.1]
  simp only [variance, m1, m2]; ring

/-- Central moments. -/
theorem central2 : ∫ y, (y - mean kv m s v t) ^ 2 * pdf y m s v t = s ^ 2 * (M2 v t - M1 v t ^ 2) := by
  rw [expect hs ht fun y => (y - mean kv m s v t) ^ 2, mean_M hk hs ht]
  have h := poly_E v t (s ^ 2 * M1 v t ^ 2) (-2 * s ^ 2 * M1 v t) (s ^ 2) 0 0
  rw [show s ^ 2 * (M2 v t - M1 v t ^ 2) = s ^ 2 * M1 v t ^ 2 + -2 * s ^ 2 * M1 v t * M1 v t +
    s ^ 2 * M2 v t + 0 * M3 v t + 0 * M4 v t by ring, ← h]
  congr 1; funext x; rw [ofNormal_eq]; ring

theorem central3 : ∫ y, (y - mean kv m s v t) ^ 3 * pdf y m s v t =
    s ^ 3 * (M3 v t - 3 * M2 v t * M1 v t + 2 * M1 v t ^ 3) := by
  rw [expect hs ht fun y => (y - mean kv m s v t) ^ 3, mean_M hk hs ht]
  have h := poly_E v t (-s ^ 3 * M1 v t ^ 3) (3 * s ^ 3 * M1 v t ^ 2) (-3 * s ^ 3 * M1 v t) (s ^ 3) 0
  rw [show s ^ 3 * (M3 v t - 3 * M2 v t * M1 v t + 2 * M1 v t ^ 3) = -s ^ 3 * M1 v t ^ 3 +
    3 * s ^ 3 * M1 v t ^ 2 * M1 v t + -3 * s ^ 3 * M1 v t * M2 v t + s ^ 3 * M3 v t + 0 * M4 v t by ring, ← h]
  congr 1; funext x; rw [ofNormal_eq]; ring

theorem central4 : ∫ y, (y - mean kv m s v t) ^ 4 * pdf y m s v t =
    s ^ 4 * (M4 v t - 4 * M3 v t * M1 v t + 6 * M2 v t * M1 v t ^ 2 - 3 * M1 v t ^ 4) := by
  rw [expect hs ht fun y => (y - mean kv m s v t) ^ 4, mean_M hk hs ht]
  have h := poly_E v t (s ^ 4 * M1 v t ^ 4) (-4 * s ^ 4 * M1 v t ^ 3) (6 * s ^ 4 * M1 v t ^ 2)
    (-4 * s ^ 4 * M1 v t) (s ^ 4)
  rw [show s ^ 4 * (M4 v t - 4 * M3 v t * M1 v t + 6 * M2 v t * M1 v t ^ 2 - 3 * M1 v t ^ 4) =
    s ^ 4 * M1 v t ^ 4 + -4 * s ^ 4 * M1 v t ^ 3 * M1 v t + 6 * s ^ 4 * M1 v t ^ 2 * M2 v t +
    -4 * s ^ 4 * M1 v t * M3 v t + s ^ 4 * M4 v t by ring, ← h]
  congr 1; funext x; rw [ofNormal_eq]; ring

/-- `variance` and `_variance` are the variance, which is positive. -/
theorem C180_variance : 0 < variance kv m s v t ∧
    variance kv m s v t = ∫ y, (y - mean kv m s v t) ^ 2 * pdf y m s v t ∧
    variance' kv m s v t = variance kv m s v t := by
  have h : variance kv m s v t = ∫ y, (y - mean kv m s v t) ^ 2 * pdf y m s v t := by
    rw [central2 hk hs ht, variance_M hk hs ht]
  refine ⟨?_, h, by simp only [variance, variance']; ring⟩
  have hi : Integrable fun y => (y - mean kv m s v t) ^ 2 * pdf y m s v t := by
    have hm := (C180_moments (m := m) (v := v) hk hs ht).1
    refine (((hm 2 (by norm_num)).sub ((hm 1 (by norm_num)).const_mul (2 * mean kv m s v t))).add
      ((hm 0 (by norm_num)).const_mul (mean kv m s v t ^ 2))).congr (Filter.Eventually.of_forall fun y => ?_)
    simp only [Pi.add_apply, Pi.sub_apply]; ring
  rw [h, integral_pos_iff_support_of_nonneg
    (fun y => mul_nonneg (sq_nonneg _) (pdf_pos hs ht y).le) hi]
  refine lt_of_lt_of_le ?_ (measure_mono (s := Ioo (mean kv m s v t) (mean kv m s v t + 1)) ?_)
  · rw [Real.volume_Ioo]; simp
  · intro y hy
    rw [Function.mem_support]
    exact mul_ne_zero (pow_ne_zero _ (sub_ne_zero.2 hy.1.ne')) (pdf_pos hs ht y).ne'

/-- The standardised third and fourth central moments. -/
noncomputable def trueSkew (kv : ℝ → ℝ → ℝ) (m s v t : ℝ) : ℝ :=
  (∫ y, (y - mean kv m s v t) ^ 3 * pdf y m s v t) /
    √(∫ y, (y - mean kv m s v t) ^ 2 * pdf y m s v t) ^ 3

noncomputable def trueKurt (kv : ℝ → ℝ → ℝ) (m s v t : ℝ) : ℝ :=
  (∫ y, (y - mean kv m s v t) ^ 4 * pdf y m s v t) /
    √(∫ y, (y - mean kv m s v t) ^ 2 * pdf y m s v t) ^ 4

theorem sigma_sq : my2 kv m s v t - my1 kv m s v t ^ 2 = variance kv m s v t := by
  obtain ⟨e1, e2, _, _⟩ := m_eq hk v t
  rw [variance_M hk hs ht]
  simp only [my1, my2, e1, e2]; ring

/-- `skew` is the skewness. -/
theorem C180_skew : skew kv m s v t = trueSkew kv m s v t := by
  obtain ⟨e1, e2, e3, _⟩ := m_eq hk v t
  have hv := C180_variance (m := m) (v := v) hk hs ht
  rw [trueSkew, central3 hk hs ht, ← hv.2.1]
  simp only [skew]
  rw [sigma_sq hk hs ht, Real.sq_sqrt hv.1.le, variance_M hk hs ht]
  congr 1
  simp only [my1, my3, e1, e2, e3]; ring

/-- `kurt` is the kurtosis. -/
theorem C180_kurt : kurt kv m s v t = trueKurt kv m s v t := by
  obtain ⟨e1, e2, e3, e4⟩ := m_eq hk v t
  have hv := C180_variance (m := m) (v := v) hk hs ht
  rw [trueKurt, central4 hk hs ht, ← hv.2.1]
  simp only [kurt]
  rw [sigma_sq hk hs ht]
  congr 1
  simp only [my1, my2, my3, my4, e1, e2, e3, e4]; ring

theorem M1_zero : M1 v t = 0 ↔ v = 0 := by
  rw [M1, mul_eq_zero, Real.sinh_eq_zero, div_eq_zero_iff]
  simp [ht.ne', (P0_pos t⁻¹).ne']

/-- `skewness` is the skewness only where `v` is zero. -/
theorem C180_skewness_violated : skewness kv m s v t = trueSkew kv m s v t ↔ v = 0 := by
  obtain ⟨e1, e2, e3, _⟩ := m_eq hk v t
  have hv := C180_variance (m := m) (v := v) hk hs ht
  have h1 : skewness kv m s v t =
      s ^ 3 * (M3 v t - 3 * M2 v t * M1 v t - M1 v t ^ 3) / √(variance kv m s v t) ^ 3 := by
    have hp : variance kv m s v t ^ (3 / 2 : ℝ) = √(variance kv m s v t) ^ 3 := by
      rw [Real.sqrt_eq_rpow, ← Real.rpow_natCast, ← Real.rpow_mul hv.1.le]; norm_num
    rw [← e1, ← e2, ← e3, ← hp]
    simp only [skewness, m1, m2, m3]
    congr 1; ring
  have hd : 0 < √(variance kv m s v t) ^ 3 := pow_pos (Real.sqrt_pos.2 hv.1) 3
  rw [h1, trueSkew, central3 hk hs ht, ← hv.2.1, div_left_inj' hd.ne', mul_right_inj' (pow_pos hs 3).ne',
    ← M1_zero hk hs ht (v := v)]
  constructor
  · intro h
    have : M1 v t ^ 3 = 0 := by linear_combination (-1 / 3) * h
    exact pow_eq_zero_iff (by norm_num) |>.1 this
  · intro h; rw [h]; ring

theorem excess_eq : excessKurtosis kv m s v t = s ^ 4 * (M4 v t - 4 * M1 v t ^ 3 +
    6 * M2 v t * M1 v t ^ 2 + 3 * M1 v t ^ 4) / variance kv m s v t ^ 2 - 3 := by
  obtain ⟨e1, e2, _, e4⟩ := m_eq hk v t
  rw [← e1, ← e2, ← e4]
  simp only [excessKurtosis, m1, m2, m4]
  congr 2
  ring

/-- `excess_kurtosis` is right where `v` is zero … -/
theorem C180_excess_partial (h0 : v = 0) : excessKurtosis kv m s v t = trueKurt kv m s v t - 3 := by
  have hv := C180_variance (m := m) (v := v) hk hs ht
  rw [excess_eq hk hs ht, trueKurt, central4 hk hs ht, ← hv.2.1, (M1_zero hk hs ht).2 h0,
    show √(variance kv m s v t) ^ 4 = (√(variance kv m s v t) ^ 2) ^ 2 by ring, Real.sq_sqrt hv.1.le]
  ring

/-- … and wrong for every negative `v`. -/
theorem C180_excess_violated (h0 : v < 0) : excessKurtosis kv m s v t ≠ trueKurt kv m s v t - 3 := by
  have hv := C180_variance (m := m) (v := v) hk hs ht
  rw [excess_eq hk hs ht, trueKurt, central4 hk hs ht, ← hv.2.1,
    show √(variance kv m s v t) ^ 4 = (√(variance kv m s v t) ^ 2) ^ 2 by ring, Real.sq_sqrt hv.1.le]
  intro h
  have hd : 0 < variance kv m s v t ^ 2 := pow_pos hv.1 2
  rw [sub_left_inj, div_left_inj' hd.ne', mul_right_inj' (pow_pos hs 4).ne'] at h
  have hw : v / t < 0 := div_neg_of_neg_of_pos h0 ht
  have hS : Real.sinh (v / t) < 0 := Real.sinh_neg_iff.2 hw
  have hP1 := P0_pos (1 / t)
  have hP3 : P0 (1 / t) ≤ P0 (3 / t) := by
    refine P0_abs_mono ?_
    rw [abs_of_pos (by positivity), abs_of_pos (by positivity)]
    gcongr; norm_num
  have hM1 : M1 v t < 0 := mul_neg_of_neg_of_pos hS hP1
  have hM3 : M3 v t < 0 := by
    rw [M3, show 3 * v / t = 3 * (v / t) by ring, Real.sinh_three_mul]
    have h3 : Real.sinh (v / t) ^ 3 < 0 := Odd.pow_neg (by decide) hS
    have h4 : Real.sinh (v / t) ^ 3 * P0 (3 / t) < 0 := mul_neg_of_neg_of_pos h3 (P0_pos _)
    nlinarith [mul_nonneg_of_nonpos_of_nonpos hS.le (sub_nonpos.2 hP3)]
  have e : 4 * M3 v t * M1 v t - 4 * M1 v t ^ 3 + 6 * M1 v t ^ 4 = 0 := by linear_combination h
  have h5 := mul_pos_of_neg_of_neg hM3 hM1
  have h6 : M1 v t ^ 3 < 0 := Odd.pow_neg (by decide) hM1
  have h7 : 0 ≤ M1 v t ^ 4 := by positivity
  linarith

end

/-- The functions of `shashr.py`. -/
theorem C180_log_parameters {kv : ℝ → ℝ → ℝ} (hk : IsKv kv) (m s v t : ℝ) :
    withExp (mean kv) m s v t = ∫ y, y * withExp (pdf y) m s v t ∧
    withExp (variance kv) m s v t = ∫ y, (y - withExp (mean kv) m s v t) ^ 2 * withExp (pdf y) m s v t ∧
    withExp (moments kv) m s v t = [∫ y, y ^ 1 * withExp (pdf y) m s v t, ∫ y, y ^ 2 * withExp (pdf y) m s v t,
      ∫ y, y ^ 3 * withExp (pdf y) m s v t, ∫ y, y ^ 4 * withExp (pdf y) m s v t] ∧
    withExp (skew kv) m s v t = withExp (trueSkew kv) m s v t ∧
    withExp (kurt kv) m s v t = withExp (trueKurt kv) m s v t :=
  ⟨C180_mean hk (Real.exp_pos s) (Real.exp_pos t),
    (C180_variance hk (Real.exp_pos s) (Real.exp_pos t)).2.1,
    (C180_moments hk (Real.exp_pos s) (Real.exp_pos t)).2, C180_skew hk (Real.exp_pos s) (Real.exp_pos t),
    C180_kurt hk (Real.exp_pos s) (Real.exp_pos t)⟩

/-- The hypotheses can be met. -/
example : ∃ kv ndtri, IsKv kv ∧ IsNdtri ndtri := by
  obtain ⟨n, hn⟩ := exists_ndtri
  exact ⟨_, n, fun _ _ _ => rfl, hn⟩

end Verif.Misc.Shash
