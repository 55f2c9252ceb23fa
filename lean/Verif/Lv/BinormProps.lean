import Verif.Lv.BinormLemmas
import Mathlib.Analysis.SpecialFunctions.Integrals.Basic
import Mathlib.Tactic.NormNum.BigOperators

namespace Verif.Lv
open Real Set MeasureTheory Filter Topology Verif.Glm

/-! ### Density -/

/-- **C159** The density with means and deviations is that of the standardised variables over the product of the deviations; it is
positive, symmetric and of total mass one. -/
theorem C159_density {r : ℝ} (hr : |r| < 1) :
    (∀ x y mx my sx sy : ℝ, 0 < sx → 0 < sy → pdfG x y r mx my sx sy = pdf ((x - mx) / sx) ((y - my) / sy) r / (sx * sy)) ∧
    (∀ x y, 0 < pdf x y r ∧ pdf x y r = pdf y x r) ∧ ∫ x, ∫ y, pdf x y r = 1 := by
  have h1 := s_pos hr
  have h2 := rt_pos hr
  refine ⟨fun x y mx my sx sy hx hy => ?_, fun x y => ⟨?_, pdf_symm x y r⟩, ?_⟩
  · unfold pdf pdfG
    dsimp only
    have e : (-1 / (2 * (1 - r ^ 2))) * ((x - mx) ^ 2 / sx ^ 2 + (y - my) ^ 2 / sy ^ 2 - 2 * r * (x - mx) * (y - my) / (sx * sy)) =
        (-1 / (2 * (1 - r ^ 2))) * (((x - mx) / sx - 0) ^ 2 / 1 ^ 2 + ((y - my) / sy - 0) ^ 2 / 1 ^ 2 - 2 * r * ((x - mx) / sx - 0) * ((y - my) / sy - 0) / (1 * 1)) := by
      field_simp
      ring
    rw [e]
    have := pi_pos
    field_simp
  · rw [pdf_eq hr]
    exact mul_pos (phi0_pos x) (div_pos (phi0_pos _) h2)
  · have e : ∀ x, ∫ y, pdf x y r = phi0 x := fun x => by
      simp only [pdf_eq hr]
      rw [integral_const_mul, integral_div, integral_sub_right_eq_self (fun y => phi0 (y / √(1 - r ^ 2))), Measure.integral_comp_div, phi0_total]
      simp [abs_of_pos h2, h2.ne']
    simp only [e, phi0_total]

/-- **C159** `binorm_dl_jit`, which the quadrature integrates, is the density. -/
theorem C159_dl (h k r : ℝ) : dl h k r = pdf h k r := by
  unfold dl pdf pdfG
  dsimp only
  rw [mul_comm]
  congr 1
  · ring
  · congr 1
    ring

/-! ### Distribution function -/

/-- **C159** With an exact rule for the integral and an exact normal distribution function, `binorm_cdf` is the bivariate normal
distribution function. -/
theorem C159_cdf {quad : (ℝ → ℝ) → ℝ → ℝ} {h k r : ℝ} (hr : |r| < 1) (hq : quad (dl h k) r = ∫ t in (0 : ℝ)..r, dl h k t) :
    cdf quad ndtr0 h k r = Phi2 h k r := by
  rw [cdf, l2, hq, ndtr0_neg, ndtr0_neg, ← Phi2_int hr]
  simp only [C159_dl]
  ring

/-- The exact rule is one, and a correlation of one half is admissible. -/
example : (fun (f : ℝ → ℝ) r => ∫ t in (0 : ℝ)..r, f t) (dl 1 2) (1 / 2) = ∫ t in (0 : ℝ)..(1 / 2), dl 1 2 t ∧ |(1 / 2 : ℝ)| < 1 :=
  ⟨rfl, by norm_num [abs_lt]⟩

/-- **C159** An error of the rule or of the normal distribution function is not amplified much. -/
theorem C159_cdf_error {quad : (ℝ → ℝ) → ℝ → ℝ} {N : ℝ → ℝ} {h k r e d : ℝ} (hr : |r| < 1) (hq : |quad (dl h k) r - ∫ t in (0 : ℝ)..r, dl h k t| ≤ e)
    (hN : ∀ x, |N x - ndtr0 x| ≤ d) : |cdf quad N h k r - Phi2 h k r| ≤ e + 4 * d + d ^ 2 := by
  rw [← C159_cdf (quad := fun f r => ∫ t in (0 : ℝ)..r, f t) hr rfl]
  simp only [cdf, l2]
  have hd : 0 ≤ d := (abs_nonneg _).trans (hN 0)
  have m1 : |N (-h) * N (-k) - ndtr0 (-h) * ndtr0 (-k)| ≤ d * (1 + d) + d := by
    have e1 : N (-h) * N (-k) - ndtr0 (-h) * ndtr0 (-k) = (N (-h) - ndtr0 (-h)) * N (-k) + ndtr0 (-h) * (N (-k) - ndtr0 (-k)) := by ring
    have b1 : |N (-k)| ≤ 1 + d := by
      have := ndtr0_range (-k)
      have h2 := abs_le.1 (hN (-k))
      exact abs_le.2 ⟨by linarith [this.1, h2.1], by linarith [this.2, h2.2]⟩
    have b2 : |ndtr0 (-h)| ≤ 1 := by
      have := ndtr0_range (-h)
      exact abs_le.2 ⟨by linarith [this.1], this.2.le⟩
    rw [e1]
    refine (abs_add_le _ _).trans (add_le_add ?_ ?_)
    · rw [abs_mul]
      exact mul_le_mul (hN _) b1 (abs_nonneg _) hd
    · rw [abs_mul]
      have := mul_le_mul b2 (hN (-k)) (abs_nonneg _) zero_le_one
      linarith
  have a1 := abs_le.1 m1
  have a2 := abs_le.1 hq
  have a3 := abs_le.1 (hN h)
  have a4 := abs_le.1 (hN k)
  exact abs_le.2 ⟨by nlinarith, by nlinarith⟩

/-- **C159** The distribution function differentiated in the correlation is the density. -/
theorem C159_dr {r : ℝ} (hr : |r| < 1) (h k : ℝ) : HasDerivAt (fun r => Phi2 h k r) (pdf h k r) r := Phi2_dr hr h k

/-- **C159** `dbinorm_pdf` is the derivative of the density in the correlation. -/
theorem C159_dr2 {r : ℝ} (hr : |r| < 1) (x y : ℝ) : HasDerivAt (fun r => pdf x y r) (dpdf x y r) r := by
  have h1 := s_pos hr
  have h2 := rt_pos hr
  have h3 : √(1 - r ^ 2) ^ 2 = 1 - r ^ 2 := Real.sq_sqrt h1.le
  have hp := pi_pos
  have hs : HasDerivAt (fun r : ℝ => √(1 - r ^ 2)) (-r / √(1 - r ^ 2)) r := by
    have := (((hasDerivAt_id r).fun_pow 2).const_sub 1).sqrt h1.ne'
    refine this.congr_deriv ?_
    simp
    field_simp
  have hq : HasDerivAt (fun r : ℝ => 1 - r ^ 2) (-(2 * r)) r := by
    simpa using (hasDerivAt_pow 2 r).const_sub 1
  have ha : HasDerivAt (fun r : ℝ => -(x ^ 2 - 2 * r * x * y + y ^ 2) / (2 * (1 - r ^ 2)))
      ((2 * x * y * (2 * (1 - r ^ 2)) - -(x ^ 2 - 2 * r * x * y + y ^ 2) * (2 * -(2 * r))) / (2 * (1 - r ^ 2)) ^ 2) r := by
    have hn : HasDerivAt (fun r : ℝ => -(x ^ 2 - 2 * r * x * y + y ^ 2)) (2 * x * y) r := by
      have := ((((((hasDerivAt_id r).const_mul 2).mul_const x).mul_const y).const_sub (x ^ 2)).add_const (y ^ 2)).fun_neg
      refine this.congr_deriv ?_
      simp
    exact hn.fun_div (hq.const_mul 2) (by positivity)
  have hc : HasDerivAt (fun r : ℝ => 1 / (2 * π * √(1 - r ^ 2))) (-(2 * π * (-r / √(1 - r ^ 2))) / (2 * π * √(1 - r ^ 2)) ^ 2) r := by
    have := (hs.const_mul (2 * π)).fun_inv (by positivity)
    simpa only [one_div] using this
  have := ha.exp.fun_mul hc
  rw [show (fun r => pdf x y r) = fun r => exp (-(x ^ 2 - 2 * r * x * y + y ^ 2) / (2 * (1 - r ^ 2))) * (1 / (2 * π * √(1 - r ^ 2))) from
    funext fun r => (C159_dl x y r).symm]
  refine this.congr_deriv ?_
  unfold dpdf
  dsimp only
  have e1 : -(x ^ 2 / (2 * (1 - r ^ 2))) + r * (x * y) / (1 - r ^ 2) - y ^ 2 / (2 * (1 - r ^ 2)) = -(x ^ 2 - 2 * r * x * y + y ^ 2) / (2 * (1 - r ^ 2)) := by
    field_simp
    ring
  have e2 : √((1 - r ^ 2) ^ 3) = (1 - r ^ 2) * √(1 - r ^ 2) := by
    rw [show (1 - r ^ 2) ^ 3 = (1 - r ^ 2) ^ 2 * (1 - r ^ 2) by ring, Real.sqrt_mul (sq_nonneg _), Real.sqrt_sq h1.le]
  have e3 : 2 * π * (r - 1) * (r + 1) * ((1 - r ^ 2) * √(1 - r ^ 2)) = -(2 * π * (1 - r ^ 2) ^ 2 * √(1 - r ^ 2)) := by ring
  rw [e1, e2, e3]
  generalize exp (-(x ^ 2 - 2 * r * x * y + y ^ 2) / (2 * (1 - r ^ 2))) = E
  generalize √(1 - r ^ 2) = q at *
  rw [← h3] at h1 ⊢
  have hr2 : r ^ 2 = 1 - q ^ 2 := by linarith
  field_simp
  linear_combination (E * x * y + E * r) * h3

/-- The error function that scipy computes. -/
def IsErf (erf : ℝ → ℝ) : Prop := ∀ x, (erf (x / √2) + 1) / 2 = ndtr0 x

variable {erf : ℝ → ℝ}

/-- There is one. -/
theorem erf_exists : ∃ erf, IsErf erf := ⟨fun z => 2 * ndtr0 (z * √2) - 1, fun x => by
  have : √(2 : ℝ) ≠ 0 := by positivity
  beta_reduce
  rw [div_mul_cancel₀ _ this]
  ring⟩

theorem cdfDu_eq (he : IsErf erf) (u v r : ℝ) : cdfDu erf u v r = phi0 u * ndtr0 ((v - r * u) / √(1 - r ^ 2)) := by
  unfold cdfDu normCdf
  dsimp only
  rw [he, mul_comm]
  rfl

/-- **C159** `dbinorm_cdf_du` is the derivative of the distribution function in its first argument, and with the arguments exchanged in its
second. -/
theorem C159_du (he : IsErf erf) {r : ℝ} (hr : |r| < 1) (u v : ℝ) :
    HasDerivAt (fun u => Phi2 u v r) (cdfDu erf u v r) u ∧ HasDerivAt (fun v => Phi2 u v r) (cdfDu erf v u r) v := by
  rw [cdfDu_eq he, cdfDu_eq he]
  exact ⟨Phi2_du hr u v, Phi2_dv hr u v⟩

theorem cdfDuv_eq {r : ℝ} (hr : |r| < 1) (u v : ℝ) : cdfDuv u v r = pdf u v r := by
  have h1 := s_pos hr
  unfold cdfDuv pdf pdfG
  dsimp only
  rw [← Real.exp_add, div_eq_mul_one_div, mul_comm]
  simp only [sub_zero, mul_one, one_pow, div_one]
  congr 2
  field_simp
  ring

/-- **C159** `d2binorm_cdf_duv`, `d2binorm_cdf_du2` and `d2binorm_cdf_dur` are the derivatives of `dbinorm_cdf_du` in the second argument,
the first argument and the correlation. -/
theorem C159_du2 (he : IsErf erf) {r : ℝ} (hr : |r| < 1) (u v : ℝ) :
    HasDerivAt (fun v => cdfDu erf u v r) (cdfDuv u v r) v ∧ HasDerivAt (fun u => cdfDu erf u v r) (cdfDu2 erf u v r) u ∧
      HasDerivAt (fun r => cdfDu erf u v r) (cdfDur u v r) r := by
  have h1 := s_pos hr
  have h2 := rt_pos hr
  have h3 : √(1 - r ^ 2) ^ 2 = 1 - r ^ 2 := Real.sq_sqrt h1.le
  have hp := pi_pos
  simp only [cdfDu_eq he]
  refine ⟨?_, ?_, ?_⟩
  · have a1 : HasDerivAt (fun v => (v - r * u) / √(1 - r ^ 2)) (1 / √(1 - r ^ 2)) v := ((hasDerivAt_id v).sub_const (r * u)).div_const _
    refine (((ndtr0_deriv _).comp v a1).const_mul (phi0 u)).congr_deriv ?_
    rw [cdfDuv_eq hr, pdf_eq hr]
    ring
  · have a1 : HasDerivAt (fun u => (v - r * u) / √(1 - r ^ 2)) (-r / √(1 - r ^ 2)) u := by
      have := (((hasDerivAt_id u).const_mul r).const_sub v).div_const (√(1 - r ^ 2))
      simpa using this
    have a2 := (phi0_deriv u).fun_mul ((ndtr0_deriv ((v - r * u) / √(1 - r ^ 2))).comp u a1)
    refine a2.congr_deriv ?_
    unfold cdfDu2
    dsimp only
    have e1 : √2 * (v - r * u) * (1 / (2 * √(1 - r ^ 2))) = (v - r * u) / √(1 - r ^ 2) / √2 := by
      have : √(2 : ℝ) * √2 = 2 := Real.mul_self_sqrt (by norm_num)
      have h0 : √(2 : ℝ) ≠ 0 := by positivity
      field_simp
      rw [sq, this, mul_comm]
    have e2 := he ((v - r * u) / √(1 - r ^ 2))
    have e3 : erf ((v - r * u) / √(1 - r ^ 2) / √2) / 2 + 1 / 2 = ndtr0 ((v - r * u) / √(1 - r ^ 2)) := by linarith
    rw [e1, e3]
    have e4 : -r * exp (-u ^ 2 / 2) * (1 / (2 * √(1 - r ^ 2))) * exp (-(v - r * u) ^ 2 / (2 * (1 - r ^ 2))) / π = -r * pdf u v r := by
      rw [← cdfDuv_eq hr]
      unfold cdfDuv
      dsimp only
      field_simp
    have e5 : u * √2 * exp (-u ^ 2 / 2) * ndtr0 ((v - r * u) / √(1 - r ^ 2)) / (2 * √π) = u * phi0 u * ndtr0 ((v - r * u) / √(1 - r ^ 2)) := by
      unfold phi0
      have : √(2 : ℝ) * √2 = 2 := Real.mul_self_sqrt (by norm_num)
      have h0 : √(2 : ℝ) ≠ 0 := by positivity
      have h00 : √π ≠ 0 := by positivity
      rw [Real.sqrt_mul (by norm_num)]
      field_simp
      rw [sq, this]
    rw [e4, e5, pdf_eq hr]
    simp only [Function.comp]
    ring
  · refine (((ndtr0_deriv _).comp r (arg_deriv hr u v)).const_mul (phi0 u)).congr_deriv ?_
    have e1 : phi0 u * (phi0 ((v - r * u) / √(1 - r ^ 2)) * ((r * v - u) / ((1 - r ^ 2) * √(1 - r ^ 2)))) = pdf u v r * ((r * v - u) / (1 - r ^ 2)) := by
      rw [pdf_eq hr]
      field_simp
    rw [e1]
    unfold cdfDur pdf pdfG
    dsimp only
    have e2 : (r - 1) * (r + 1) = -(1 - r ^ 2) := by ring
    have e3 : -(1 / -(1 - r ^ 2)) * (2 * r * u * v - u ^ 2 - v ^ 2) / 2 = -1 / (2 * (1 - r ^ 2)) * ((u - 0) ^ 2 / 1 ^ 2 + (v - 0) ^ 2 / 1 ^ 2 - 2 * r * (u - 0) * (v - 0) / (1 * 1)) := by
      field_simp
      ring
    rw [e2, e3]
    field_simp
    ring

/-! ### Rectangles -/

theorem du_int {r : ℝ} (hr : |r| < 1) (l2 u2 x : ℝ) (h : l2 ≤ u2) :
    ∫ y in Ioc l2 u2, pdf x y r = phi0 x * ndtr0 ((u2 - r * x) / √(1 - r ^ 2)) - phi0 x * ndtr0 ((l2 - r * x) / √(1 - r ^ 2)) := by
  have hi : Integrable fun y => pdf x y r := by
    simp only [pdf_eq hr]
    exact (((phi0_int.comp_div (rt_pos hr).ne').comp_sub_right (r * x)).div_const _).const_mul _
  rw [← inner_eq hr, ← inner_eq hr, intervalIntegral.integral_Iic_sub_Iic hi.integrableOn hi.integrableOn, intervalIntegral.integral_of_le h]

/-- **C159** The sum over the four corners is the integral of the density over the rectangle; it is not negative. -/
theorem C159_region {r : ℝ} (hr : |r| < 1) {l1 l2 u1 u2 : ℝ} (h1 : l1 ≤ u1) (h2 : l2 ≤ u2) :
    region Phi2 l1 l2 u1 u2 r = ∫ x in Ioc l1 u1, ∫ y in Ioc l2 u2, pdf x y r ∧ 0 ≤ region Phi2 l1 l2 u1 u2 r := by
  have e : region Phi2 l1 l2 u1 u2 r = ∫ x in Ioc l1 u1, ∫ y in Ioc l2 u2, pdf x y r := by
    simp only [du_int hr l2 u2 _ h2]
    have hu := int_cond u2 r (√(1 - r ^ 2))
    have hl := int_cond l2 r (√(1 - r ^ 2))
    rw [integral_sub hu.integrableOn hl.integrableOn, ← intervalIntegral.integral_of_le h1, ← intervalIntegral.integral_of_le h1,
      ← intervalIntegral.integral_Iic_sub_Iic hu.integrableOn hu.integrableOn, ← intervalIntegral.integral_Iic_sub_Iic hl.integrableOn hl.integrableOn,
      ← Phi2_eq hr, ← Phi2_eq hr, ← Phi2_eq hr, ← Phi2_eq hr, region]
    ring
  refine ⟨e, ?_⟩
  rw [e]
  refine setIntegral_nonneg measurableSet_Ioc fun x _ => setIntegral_nonneg measurableSet_Ioc fun y _ => ?_
  exact (((C159_density hr).2.1 x y).1).le

/-! ### Quadrature -/

/-- The moment of degree `2 m` of a table, scaled to an integer. -/
def momZ (m : ℕ) : List (ℕ × ℕ) → ℤ
  | [] => 0
  | p :: rest => (p.1 : ℤ) * (p.2 : ℤ) ^ (2 * m) + (rest.map fun p => 2 * (p.1 : ℤ) * (p.2 : ℤ) ^ (2 * m)).sum

set_option maxRecDepth 100000 in
theorem momZ_small : ∀ m : ℕ, m < 63 → |(2 * (m : ℤ) + 1) * momZ m (List.zip glW glX) - 2 * 10 ^ (16 * (2 * m + 1))| ≤ 2 * (2 * m + 1) * 10 ^ (16 * (2 * m)) := by
  decide +kernel

/-- The rule applied to powers. -/
noncomputable def mom (k : ℕ) : ℝ := gsum (fun t => (t - 1) ^ k) 1 glTable

theorem zip_head : List.zip glW glX = (494723666239310, 0) :: (List.zip glW glX).tail := by decide +kernel

theorem sum_scale (m : ℕ) (L : List (ℕ × ℕ)) :
    (L.map fun p => (p.1 : ℝ) / 10 ^ 16 * (1 - (p.2 : ℝ) / 10 ^ 16 - 1) ^ (2 * m) + (p.1 : ℝ) / 10 ^ 16 * (1 + (p.2 : ℝ) / 10 ^ 16 - 1) ^ (2 * m)).sum =
      (((L.map fun p => 2 * (p.1 : ℤ) * (p.2 : ℤ) ^ (2 * m)).sum : ℤ) : ℝ) / 10 ^ (16 * (2 * m + 1)) := by
  induction L with
  | nil => simp
  | cons p L ih =>
    rw [List.map_cons, List.sum_cons, ih, List.map_cons, List.sum_cons, Int.cast_add, add_div]
    congr 1
    push_cast
    rw [show (1 - (p.2 : ℝ) / 10 ^ 16 - 1) = -((p.2 : ℝ) / 10 ^ 16) by ring, show (1 + (p.2 : ℝ) / 10 ^ 16 - 1) = (p.2 : ℝ) / 10 ^ 16 by ring,
      Even.neg_pow (even_two_mul m), div_pow, ← pow_mul, mul_add 16 (2 * m) 1, pow_add, mul_one]
    field_simp
    ring

theorem mom_even (m : ℕ) : mom (2 * m) = (momZ m (List.zip glW glX) : ℝ) / 10 ^ (16 * (2 * m + 1)) := by
  unfold mom glTable
  rw [zip_head, List.map_cons, gsum, momZ, List.map_map, Int.cast_add, add_div, ← sum_scale]
  congr 1
  · push_cast
    rw [mul_add 16 (2 * m) 1, pow_add, mul_one, zero_div, add_zero, mul_one, sub_self]
    rcases Nat.eq_zero_or_pos m with h | h
    · subst h; norm_num
    · simp [h.ne']
  · simp only [Function.comp_def, mul_one]

theorem mom_odd {k : ℕ} (hk : Odd k) : mom k = 0 := by
  unfold mom glTable
  rw [zip_head, List.map_cons, gsum, List.map_map]
  have e : ∀ L : List (ℕ × ℕ), (L.map ((fun p : ℝ × ℝ => p.1 * ((1 - p.2) * 1 - 1) ^ k + p.1 * ((1 + p.2) * 1 - 1) ^ k) ∘ fun p : ℕ × ℕ => ((p.1 : ℝ) / 10 ^ 16, (p.2 : ℝ) / 10 ^ 16))).sum = 0 := by
    intro L
    induction L with
    | nil => simp
    | cons p L ih =>
      rw [List.map_cons, List.sum_cons, ih, add_zero]
      simp only [Function.comp, mul_one]
      rw [show (1 - (p.2 : ℝ) / 10 ^ 16 - 1) = -((p.2 : ℝ) / 10 ^ 16) by ring, show (1 + (p.2 : ℝ) / 10 ^ 16 - 1) = (p.2 : ℝ) / 10 ^ 16 by ring, hk.neg_pow]
      ring
  rw [e, add_zero]
  simp [hk.pos.ne']

theorem mom_small {k : ℕ} (hk : k < 126) : |mom k - ∫ u in (-1 : ℝ)..1, u ^ k| ≤ 2 / 10 ^ 16 := by
  rw [integral_pow]
  rcases Nat.even_or_odd' k with ⟨m, rfl | rfl⟩
  · have h := momZ_small m (by omega)
    have h' : |(2 * (m : ℝ) + 1) * (momZ m (List.zip glW glX) : ℝ) - 2 * 10 ^ (16 * (2 * m + 1))| ≤ 2 * (2 * m + 1) * 10 ^ (16 * (2 * m)) := by exact_mod_cast h
    have ho : Odd (2 * m + 1) := ⟨m, rfl⟩
    rw [mom_even, ho.neg_one_pow, one_pow]
    have hm : (0 : ℝ) < 2 * m + 1 := by positivity
    have hD : (0 : ℝ) < 10 ^ (16 * (2 * m)) := by positivity
    rw [mul_add 16 (2 * m) 1, pow_add, mul_one] at h' ⊢
    have e : (momZ m (List.zip glW glX) : ℝ) / (10 ^ (16 * (2 * m)) * 10 ^ 16) - (1 - -1) / (((2 * m : ℕ) : ℝ) + 1) =
        ((2 * (m : ℝ) + 1) * (momZ m (List.zip glW glX) : ℝ) - 2 * (10 ^ (16 * (2 * m)) * 10 ^ 16)) / ((2 * m + 1) * (10 ^ (16 * (2 * m)) * 10 ^ 16)) := by
      push_cast
      field_simp
      ring
    rw [e, abs_div, abs_of_pos (by positivity : (0 : ℝ) < (2 * m + 1) * (10 ^ (16 * (2 * m)) * 10 ^ 16)), div_le_iff₀ (by positivity)]
    refine h'.trans (le_of_eq ?_)
    field_simp
  · rw [mom_odd ⟨m, rfl⟩]
    have he : Even (2 * m + 1 + 1) := ⟨m + 1, by ring⟩
    rw [he.neg_one_pow, one_pow]
    norm_num

/-- **C159** The table is a rule of degree 125: it integrates every polynomial of that degree over `(0, r)` with an error of at most
`10⁻¹⁶` of the length for each unit of its coefficients about the midpoint. -/
theorem C159_quadrature {r : ℝ} (hr : r ≠ 0) (c : ℕ → ℝ) :
    |gl (fun t => ∑ k ∈ Finset.range 126, c k * (2 * t / r - 1) ^ k) r - ∫ t in (0 : ℝ)..r, ∑ k ∈ Finset.range 126, c k * (2 * t / r - 1) ^ k| ≤
      |r| / 10 ^ 16 * ∑ k ∈ Finset.range 126, |c k| := by
  have hgen : ∀ L : List (ℝ × ℝ), gsum (fun t => ∑ k ∈ Finset.range 126, c k * (2 * t / r - 1) ^ k) (r / 2) L =
      ∑ k ∈ Finset.range 126, c k * gsum (fun t => (t - 1) ^ k) 1 L := by
    have hx : ∀ x : ℝ, 2 * (x * (r / 2)) / r - 1 = x * 1 - 1 := fun x => by field_simp
    have hrest : ∀ L : List (ℝ × ℝ), (L.map fun p => p.1 * (∑ k ∈ Finset.range 126, c k * ((1 - p.2) * 1 - 1) ^ k) + p.1 * (∑ k ∈ Finset.range 126, c k * ((1 + p.2) * 1 - 1) ^ k)).sum =
        ∑ k ∈ Finset.range 126, c k * (L.map fun p => p.1 * ((1 - p.2) * 1 - 1) ^ k + p.1 * ((1 + p.2) * 1 - 1) ^ k).sum := by
      intro L
      induction L with
      | nil => simp
      | cons p L ih =>
        rw [List.map_cons, List.sum_cons, ih]
        simp only [List.map_cons, List.sum_cons, mul_add (c _), Finset.sum_add_distrib, Finset.mul_sum]
        congr 2 <;> exact Finset.sum_congr rfl fun k _ => by ring
    intro L
    cases L with
    | nil => simp [gsum]
    | cons p L =>
      obtain ⟨w0, x0⟩ := p
      simp only [gsum, hx]
      rw [hrest]
      simp only [mul_add (c _), Finset.sum_add_distrib, Finset.mul_sum]
      congr 1
      exact Finset.sum_congr rfl fun k _ => by ring
  have hint : ∫ t in (0 : ℝ)..r, ∑ k ∈ Finset.range 126, c k * (2 * t / r - 1) ^ k = r / 2 * ∑ k ∈ Finset.range 126, c k * ∫ u in (-1 : ℝ)..1, u ^ k := by
    have h2 : (2 : ℝ) / r ≠ 0 := div_ne_zero two_ne_zero hr
    have e : (fun t : ℝ => ∑ k ∈ Finset.range 126, c k * (2 * t / r - 1) ^ k) = fun t => (fun u => ∑ k ∈ Finset.range 126, c k * u ^ k) (2 / r * t - 1) := by
      funext t
      exact Finset.sum_congr rfl fun k _ => by rw [div_mul_eq_mul_div]
    rw [e, intervalIntegral.integral_comp_mul_sub (fun u => ∑ k ∈ Finset.range 126, c k * u ^ k) h2 1, smul_eq_mul, inv_div, mul_zero, zero_sub, div_mul_cancel₀ _ hr,
      intervalIntegral.integral_finsetSum fun k _ => Continuous.intervalIntegrable (by fun_prop) _ _]
    norm_num
  unfold gl
  dsimp only
  rw [hgen, hint, ← mul_sub, ← Finset.sum_sub_distrib, abs_mul, abs_div, abs_two]
  have hb : |∑ k ∈ Finset.range 126, (c k * gsum (fun t => (t - 1) ^ k) 1 glTable - c k * ∫ u in (-1 : ℝ)..1, u ^ k)| ≤ 2 / 10 ^ 16 * ∑ k ∈ Finset.range 126, |c k| := by
    refine (Finset.abs_sum_le_sum_abs _ _).trans ?_
    rw [Finset.mul_sum]
    refine Finset.sum_le_sum fun k hk => ?_
    rw [← mul_sub, abs_mul, mul_comm]
    exact mul_le_mul_of_nonneg_right (mom_small (Finset.mem_range.1 hk)) (abs_nonneg _)
  calc |r| / 2 * _ ≤ |r| / 2 * (2 / 10 ^ 16 * ∑ k ∈ Finset.range 126, |c k|) := mul_le_mul_of_nonneg_left hb (by positivity)
    _ = _ := by ring

/-! ### `_norm_cdf` -/

/-- **C159** The rational approximation of the normal distribution function keeps its symmetry and range exactly: one half at zero,
complementary at opposite points, between zero and one. -/
theorem C159_hart (z : ℝ) : hart 0 = 1 / 2 ∧ hart z + hart (-z) = 1 ∧ 0 ≤ hart z ∧ hart z ≤ 1 := by
  have h0 : hart 0 = 1 / 2 := by
    unfold hart hartTail
    norm_num
  have ht : ∀ x : ℝ, 0 ≤ x → 0 ≤ hartTail x ∧ hartTail x ≤ 1 := fun x hx => by
    have hu : exp (-(1 / 2) * x ^ 2) ≤ 1 := Real.exp_le_one_iff.2 (by nlinarith [sq_nonneg x])
    have hu0 := Real.exp_pos (-(1 / 2) * x ^ 2)
    unfold hartTail
    dsimp only
    generalize exp (-(1 / 2) * x ^ 2) = u at *
    split
    · refine ⟨by positivity, ?_⟩
      rw [div_le_one (by positivity)]
      refine (mul_le_of_le_one_left (by positivity) hu).trans ?_
      have : 0 ≤ x ^ 7 := by positivity
      have : 0 ≤ x ^ 6 := by positivity
      have : 0 ≤ x ^ 5 := by positivity
      have : 0 ≤ x ^ 4 := by positivity
      have : 0 ≤ x ^ 3 := by positivity
      have : 0 ≤ x ^ 2 := by positivity
      ring_nf
      linarith
    · rename_i hx7
      push Not at hx7
      refine ⟨by positivity, ?_⟩
      have h1 : (7 : ℝ) ≤ x + 1 / (x + 2 / (x + 3 / (x + 4 / (x + 0.65)))) := by
        have : 0 ≤ 1 / (x + 2 / (x + 3 / (x + 4 / (x + 0.65)))) := by positivity
        linarith
      rw [div_le_one (by linarith)]
      refine le_trans ?_ h1
      rw [div_le_iff₀ (by norm_num)]
      linarith
  refine ⟨h0, ?_, ?_⟩
  · rcases eq_or_ne z 0 with rfl | hz
    · rw [neg_zero, h0]; norm_num
    · unfold hart
      dsimp only
      rw [abs_neg]
      by_cases h : 37 < |z|
      · rw [if_pos h, if_pos h]
        rcases lt_or_gt_of_ne hz with h' | h'
        · rw [if_neg (by linarith), if_pos (by linarith)]; norm_num
        · rw [if_pos h', if_neg (by linarith)]; norm_num
      · rw [if_neg h, if_neg h]
        rcases lt_or_gt_of_ne hz with h' | h'
        · rw [if_pos h', if_neg (by linarith)]; ring
        · rw [if_neg (by linarith), if_pos (by linarith)]; ring
  · have h1 := ht |z| (abs_nonneg z)
    unfold hart
    dsimp only
    split_ifs <;> constructor <;> linarith

/-- **C159** The rational approximation is on the right side of one half. -/
theorem C159_hart_side (z : ℝ) : (z < 0 → hart z < 1 / 2) ∧ (0 < z → 1 / 2 < hart z) := by
  have ht : ∀ x : ℝ, 0 < x → hartTail x < 1 / 2 := fun x hx => by
    have hu : exp (-(1 / 2) * x ^ 2) < 1 := Real.exp_lt_one_iff.2 (by nlinarith [pow_pos hx 2])
    have hu0 := Real.exp_pos (-(1 / 2) * x ^ 2)
    unfold hartTail
    dsimp only
    generalize exp (-(1 / 2) * x ^ 2) = u at *
    split
    · rw [div_lt_iff₀ (by positivity)]
      refine (mul_lt_of_lt_one_left (by positivity) hu).trans_le ?_
      have : 0 ≤ x ^ 7 := by positivity
      have : 0 ≤ x ^ 6 := by positivity
      have : 0 ≤ x ^ 5 := by positivity
      have : 0 ≤ x ^ 4 := by positivity
      have : 0 ≤ x ^ 3 := by positivity
      have : 0 ≤ x ^ 2 := by positivity
      ring_nf
      linarith
    · rename_i hx7
      push Not at hx7
      have h1 : (7 : ℝ) ≤ x + 1 / (x + 2 / (x + 3 / (x + 4 / (x + 0.65)))) := by
        have : 0 ≤ 1 / (x + 2 / (x + 3 / (x + 4 / (x + 0.65)))) := by positivity
        linarith
      rw [div_lt_iff₀ (by linarith), div_lt_iff₀ (by norm_num)]
      linarith
  constructor <;> intro h
  · have h1 := ht |z| (abs_pos.2 h.ne)
    unfold hart
    dsimp only
    rw [if_neg (not_lt.2 h.le), if_pos h]
    split_ifs <;> linarith
  · have h1 := ht |z| (abs_pos.2 h.ne')
    unfold hart
    dsimp only
    rw [if_pos h, if_neg (not_lt.2 h.le)]
    split_ifs <;> linarith

end Verif.Lv
