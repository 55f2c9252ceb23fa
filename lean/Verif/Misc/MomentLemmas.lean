import Verif.Lv.BinormLemmas
import Mathlib.MeasureTheory.Function.JacobianOneDim
import Mathlib.MeasureTheory.Measure.Lebesgue.Integral
import Mathlib.Analysis.SpecialFunctions.Arsinh
import Mathlib.Analysis.SpecialFunctions.Gaussian.GaussianIntegral

/-!
# Integrals against the normal density
-/

namespace Verif.Misc

open Verif.Glm MeasureTheory Set

/-- Change of variables along an increasing bijection of the line. -/
theorem integral_bij {f f' : ℝ → ℝ} (hf : ∀ x, HasDerivAt f (f' x) x) (hp : ∀ x, 0 < f' x)
    (hs : Function.Surjective f) (g : ℝ → ℝ) : ∫ x, g x = ∫ x, f' x * g (f x) := by
  have hm : StrictMono f := strictMono_of_deriv_pos fun x => by rw [(hf x).deriv]; exact hp x
  have h := integral_image_eq_integral_abs_deriv_smul (s := univ) (f := f) (f' := f') MeasurableSet.univ
    (fun x _ => (hf x).hasDerivWithinAt) hm.injective.injOn g
  rw [image_univ, hs.range_eq] at h
  simp only [setIntegral_univ, smul_eq_mul] at h
  rw [h]
  congr 1
  funext x
  rw [abs_of_pos (hp x)]

theorem integrable_bij {f f' : ℝ → ℝ} (hf : ∀ x, HasDerivAt f (f' x) x) (hp : ∀ x, 0 < f' x)
    (hs : Function.Surjective f) (g : ℝ → ℝ) :
    Integrable g ↔ Integrable fun x => f' x * g (f x) := by
  have hm : StrictMono f := strictMono_of_deriv_pos fun x => by rw [(hf x).deriv]; exact hp x
  have h := integrableOn_image_iff_integrableOn_abs_deriv_smul (s := univ) (f := f) (f' := f')
    MeasurableSet.univ (fun x _ => (hf x).hasDerivWithinAt) hm.injective.injOn g
  rw [image_univ, hs.range_eq] at h
  simp only [integrableOn_univ, smul_eq_mul] at h
  rw [h]
  have : (fun x => |f' x| * g (f x)) = fun x => f' x * g (f x) := by
    funext x
    rw [abs_of_pos (hp x)]
  rw [this]

theorem phi0_pos (x : ℝ) : 0 < phi0 x := by
  have := Real.pi_pos
  unfold phi0; positivity

theorem int_exp (a : ℝ) : Integrable fun x => Real.exp (a * x) * phi0 x := by
  have h := ((integrable_exp_neg_mul_sq (b := 1 / 2) (by norm_num)).comp_sub_right a).const_mul
    (Real.exp (a ^ 2 / 2) / √(2 * Real.pi))
  refine h.congr (Filter.Eventually.of_forall fun x => ?_)
  simp only [phi0]
  rw [div_mul_eq_mul_div, mul_div_assoc', ← Real.exp_add, ← Real.exp_add]
  congr 2
  ring

/-- Everything of at most exponential growth is integrable. -/
theorem int_dom {f : ℝ → ℝ} (hf : Continuous f) (c a : ℝ) (h : ∀ x, |f x| ≤ c * Real.exp (a * |x|)) :
    Integrable fun x => f x * phi0 x := by
  have hc : 0 ≤ c := by
    have := (abs_nonneg _).trans (h 0)
    simpa using this
  refine (((int_exp a).add (int_exp (-a))).const_mul c).mono' ?_ ?_
  · exact (hf.mul phi0_cont).aestronglyMeasurable
  · refine Filter.Eventually.of_forall fun x => ?_
    rw [Real.norm_eq_abs, abs_mul, abs_of_pos (phi0_pos x)]
    have h1 : Real.exp (a * |x|) ≤ Real.exp (a * x) + Real.exp (-a * x) := by
      rcases abs_choice x with e | e <;> rw [e]
      · have := Real.exp_pos (-a * x); linarith
      · have := Real.exp_pos (a * x)
        rw [show a * -x = -a * x by ring]; linarith
    have h2 := (phi0_pos x).le
    show |f x| * phi0 x ≤ c * (Real.exp (a * x) * phi0 x + Real.exp (-a * x) * phi0 x)
    calc |f x| * phi0 x ≤ c * Real.exp (a * |x|) * phi0 x := mul_le_mul_of_nonneg_right (h x) h2
      _ ≤ c * (Real.exp (a * x) + Real.exp (-a * x)) * phi0 x :=
        mul_le_mul_of_nonneg_right (mul_le_mul_of_nonneg_left h1 hc) h2
      _ = _ := by ring

theorem abs_arsinh_le (x : ℝ) : |Real.arsinh x| ≤ |x| := by
  have h : ∀ y : ℝ, 0 ≤ y → Real.arsinh y ≤ y := by
    intro y hy
    have := Real.self_le_sinh_iff.2 (Real.arsinh_nonneg_iff.2 hy)
    rwa [Real.sinh_arsinh] at this
  rcases le_total 0 x with hx | hx
  · rw [abs_of_nonneg hx, abs_of_nonneg (Real.arsinh_nonneg_iff.2 hx)]; exact h x hx
  · have h1 := h (-x) (by linarith)
    rw [Real.arsinh_neg] at h1
    rw [abs_of_nonpos hx, abs_of_nonpos (Real.arsinh_nonpos_iff.2 hx)]; exact h1

theorem int_arsinh (q : ℝ) : Integrable fun x => Real.exp (q * Real.arsinh x) * phi0 x := by
  refine int_dom (Real.continuous_exp.comp (continuous_const.mul Real.continuous_arsinh)) 1 |q| fun x => ?_
  rw [abs_of_pos (Real.exp_pos _), one_mul]
  refine Real.exp_le_exp.2 ?_
  calc q * Real.arsinh x ≤ |q * Real.arsinh x| := le_abs_self _
    _ = |q| * |Real.arsinh x| := abs_mul _ _
    _ ≤ |q| * |x| := mul_le_mul_of_nonneg_left (abs_arsinh_le x) (abs_nonneg q)

/-- `E (X + √(1 + X²))^q` for a standard normal `X`. -/
noncomputable def P0 (q : ℝ) : ℝ := ∫ x, Real.exp (q * Real.arsinh x) * phi0 x

theorem phi0_even (x : ℝ) : phi0 (-x) = phi0 x := by simp [phi0]

theorem P0_neg (q : ℝ) : P0 (-q) = P0 q := by
  rw [P0, P0, ← integral_neg_eq_self (fun x => Real.exp (q * Real.arsinh x) * phi0 x)]
  congr 1
  funext x
  rw [Real.arsinh_neg, phi0_even]
  ring_nf

theorem P0_zero : P0 0 = 1 := by
  simp only [P0, zero_mul, Real.exp_zero, one_mul]
  exact phi0_total

theorem P0_pos (q : ℝ) : 0 < P0 q := by
  rw [P0, integral_pos_iff_support_of_nonneg (fun x => by have := phi0_pos x; positivity) (int_arsinh q)]
  have : Function.support (fun x => Real.exp (q * Real.arsinh x) * phi0 x) = univ := by
    ext x
    simp [(phi0_pos x).ne']
  rw [this]; simp

/-- The modified Bessel function of the second kind, by its integral. -/
def IsKv (kv : ℝ → ℝ → ℝ) : Prop :=
  ∀ ν x, 0 < x → kv ν x = ∫ u in Ioi (0 : ℝ), Real.exp (-x * Real.cosh u) * Real.cosh (ν * u)

example : ∃ kv, IsKv kv := ⟨_, fun _ _ _ => rfl⟩

theorem phi0_sinh (u : ℝ) : phi0 (Real.sinh u) =
    Real.exp (1 / 4) / √(2 * Real.pi) * Real.exp (-(1 / 4) * Real.cosh (2 * u)) := by
  rw [phi0, div_mul_eq_mul_div, ← Real.exp_add, Real.cosh_two_mul, Real.cosh_sq]
  congr 2
  ring

/-- The integrand after the substitution `x = sinh u`. -/
theorem int_u (q : ℝ) : Integrable fun u => Real.cosh u * (Real.exp (q * u) * phi0 (Real.sinh u)) := by
  have h := (integrable_bij Real.hasDerivAt_sinh Real.cosh_pos Real.sinh_surjective _).1 (int_arsinh q)
  simpa only [Real.arsinh_sinh] using h

theorem P0_u (q : ℝ) : P0 q = ∫ u, Real.cosh u * (Real.exp (q * u) * phi0 (Real.sinh u)) := by
  rw [P0, integral_bij Real.hasDerivAt_sinh Real.cosh_pos Real.sinh_surjective]
  simp only [Real.arsinh_sinh]

theorem P0_cosh (q : ℝ) :
    P0 q = ∫ u, Real.cosh u * (Real.cosh (q * u) * phi0 (Real.sinh u)) := by
  have h : P0 q = (P0 q + P0 (-q)) / 2 := by rw [P0_neg]; ring
  rw [h, P0_u, P0_u, ← integral_add (int_u q) (int_u (-q)), ← integral_div]
  congr 1
  funext u
  rw [Real.cosh_eq (q * u)]
  ring_nf

theorem int_cosh (ν : ℝ) : Integrable fun u => Real.exp (-(1 / 4) * Real.cosh u) * Real.cosh (ν * u) := by
  have h1 : Integrable fun u => Real.cosh u * (Real.cosh (2 * ν * u) * phi0 (Real.sinh u)) := by
    refine (((int_u (2 * ν)).add (int_u (-(2 * ν)))).div_const 2).congr
      (Filter.Eventually.of_forall fun u => ?_)
    simp only [Pi.add_apply]
    rw [Real.cosh_eq (2 * ν * u)]
    ring_nf
  have h2 : Integrable fun u => Real.exp (-(1 / 4) * Real.cosh (2 * u)) * Real.cosh (ν * (2 * u)) := by
    refine (h1.const_mul (Real.exp (1 / 4) / √(2 * Real.pi))⁻¹).mono' ?_ ?_
    · exact (by fun_prop : Continuous fun u : ℝ => Real.exp (-(1 / 4) * Real.cosh (2 * u)) * Real.cosh (ν * (2 * u))).aestronglyMeasurable
    · refine Filter.Eventually.of_forall fun u => ?_
      have hk : 0 < Real.exp (1 / 4) / √(2 * Real.pi) := by have := Real.pi_pos; positivity
      rw [phi0_sinh, Real.norm_eq_abs, abs_of_pos (by have := Real.cosh_pos (ν * (2 * u)); positivity)]
      generalize Real.exp (1 / 4) / √(2 * Real.pi) = k at hk
      have e : k⁻¹ * (Real.cosh u * (Real.cosh (2 * ν * u) *
          (k * Real.exp (-(1 / 4) * Real.cosh (2 * u))))) =
          Real.cosh u * (Real.exp (-(1 / 4) * Real.cosh (2 * u)) * Real.cosh (ν * (2 * u))) := by
        rw [show 2 * ν * u = ν * (2 * u) by ring]
        field_simp
      rw [e]
      have hp : 0 < Real.exp (-(1 / 4) * Real.cosh (2 * u)) * Real.cosh (ν * (2 * u)) := by
        have := Real.cosh_pos (ν * (2 * u)); positivity
      nlinarith [Real.one_le_cosh u]
  have h3 := h2.comp_mul_left' (R := 1 / 2) (by norm_num)
  refine h3.congr (Filter.Eventually.of_forall fun u => ?_)
  simp only
  rw [show 2 * (1 / 2 * u) = u by ring]

theorem kv_eq {kv : ℝ → ℝ → ℝ} (hk : IsKv kv) (ν : ℝ) :
    2 * kv ν (1 / 4) = ∫ u, Real.exp (-(1 / 4) * Real.cosh u) * Real.cosh (ν * u) := by
  rw [hk ν (1 / 4) (by norm_num),
    ← integral_comp_abs (f := fun u => Real.exp (-(1 / 4) * Real.cosh u) * Real.cosh (ν * u))]
  congr 1
  funext u
  rcases abs_choice u with e | e <;> rw [e]
  rw [Real.cosh_neg, mul_neg, Real.cosh_neg]

/-- The closed form in the code is the expectation. -/
theorem P0_kv {kv : ℝ → ℝ → ℝ} (hk : IsKv kv) (q : ℝ) :
    P0 q = Real.exp (1 / 4) / √(8 * Real.pi) *
      (kv ((q + 1) / 2) (1 / 4) + kv ((q - 1) / 2) (1 / 4)) := by
  have h8 : √(8 * Real.pi) = 2 * √(2 * Real.pi) := by
    rw [show 8 * Real.pi = 2 ^ 2 * (2 * Real.pi) by ring, Real.sqrt_mul (by positivity),
      Real.sqrt_sq (by norm_num)]
  have h1 : P0 q = ∫ u, Real.exp (1 / 4) / √(2 * Real.pi) * (1 / 2) *
      ((fun w => Real.exp (-(1 / 4) * Real.cosh w) * Real.cosh ((q + 1) / 2 * w) +
        Real.exp (-(1 / 4) * Real.cosh w) * Real.cosh ((q - 1) / 2 * w)) (2 * u)) := by
    rw [P0_cosh]
    congr 1
    funext u
    simp only
    rw [phi0_sinh, show (q + 1) / 2 * (2 * u) = q * u + u by ring,
      show (q - 1) / 2 * (2 * u) = q * u - u by ring, Real.cosh_add, Real.cosh_sub]
    ring
  rw [h1, integral_const_mul, Measure.integral_comp_mul_left (fun w =>
      Real.exp (-(1 / 4) * Real.cosh w) * Real.cosh ((q + 1) / 2 * w) +
        Real.exp (-(1 / 4) * Real.cosh w) * Real.cosh ((q - 1) / 2 * w)), integral_add (int_cosh _) (int_cosh _),
    ← kv_eq hk, ← kv_eq hk, h8]
  have : (0 : ℝ) < √(2 * Real.pi) := by have := Real.pi_pos; positivity
  simp only [smul_eq_mul, abs_inv, abs_two]
  field_simp

end Verif.Misc
