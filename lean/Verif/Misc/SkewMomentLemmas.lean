import Verif.Misc.MomentLemmas
import Verif.Misc.SkewProps
import Mathlib.MeasureTheory.Integral.IntegralEqImproper
import Mathlib.MeasureTheory.Integral.Prod

/-!
# Integrals of powers against the skew normal density
-/

namespace Verif.Misc.SkewNorm

open Verif.Glm Verif.Misc MeasureTheory Set Filter Topology

theorem pow_le_exp (k : ℕ) (x : ℝ) : |x| ^ k ≤ k.factorial * Real.exp (1 * |x|) := by
  have h := Real.pow_div_factorial_le_exp |x| (abs_nonneg x) k
  rw [div_le_iff₀ (by positivity)] at h
  rw [one_mul]; linarith

theorem int_pow (k : ℕ) : Integrable fun x => x ^ k * phi0 x :=
  int_dom (by fun_prop) k.factorial 1 fun x => by rw [abs_pow]; exact pow_le_exp k x

theorem ndtr0_cont : Continuous ndtr0 :=
  continuous_iff_continuousAt.2 fun x => (ndtr0_deriv x).continuousAt

theorem int_pow_ndtr (k : ℕ) (v : ℝ) : Integrable fun x => x ^ k * ndtr0 (v * x) * phi0 x := by
  refine int_dom (by have := ndtr0_cont; fun_prop) k.factorial 1 fun x => ?_
  have h := ndtr0_range (v * x)
  rw [abs_mul, abs_pow, abs_of_pos h.1]
  exact (mul_le_of_le_one_right (by positivity) h.2.le).trans (pow_le_exp k x)

theorem int_pow_phi (k : ℕ) (v : ℝ) : Integrable fun x => x ^ k * phi0 (v * x) * phi0 x := by
  refine int_dom (by have := phi0_cont; fun_prop) k.factorial 1 fun x => ?_
  have h := Verif.Lv.phi0_le (v * x)
  rw [abs_mul, abs_pow, abs_of_pos (phi0_pos _)]
  exact (mul_le_of_le_one_right (by positivity) h).trans (pow_le_exp k x)

theorem E_sq : ∫ x, x ^ 2 * phi0 x = 1 := by
  have h := integral_mul_deriv_eq_deriv_mul_of_integrable (u := fun x : ℝ => x) (u' := fun _ => 1)
    (v := phi0) (v' := fun x => -x * phi0 x) (fun x _ => hasDerivAt_id x)
    (fun x _ => Verif.Lv.phi0_deriv x)
    ((int_pow 2).neg.congr (Eventually.of_forall fun x => by simp only [Pi.neg_apply, Pi.mul_apply]; ring))
    (phi0_int.congr (Eventually.of_forall fun x => by simp))
    ((int_pow 1).congr (Eventually.of_forall fun x => by simp))
  simp only [one_mul, phi0_total] at h
  have h2 : (fun x => x * (-x * phi0 x)) = fun x => -(x ^ 2 * phi0 x) := by funext x; ring
  rw [h2, integral_neg] at h
  linarith

/-- The raw moments of the standard skew normal distribution. -/
noncomputable def A (v : ℝ) (k : ℕ) : ℝ := 2 * ∫ x, x ^ k * ndtr0 (v * x) * phi0 x

/-- Even moments are those of the normal distribution. -/
theorem A_even (v : ℝ) (k : ℕ) (hk : Even k) : A v k = ∫ x, x ^ k * phi0 x := by
  have h1 : (∫ x, x ^ k * ndtr0 (v * x) * phi0 x) = ∫ x, (x ^ k * phi0 x - x ^ k * ndtr0 (v * x) * phi0 x) := by
    rw [← integral_neg_eq_self (fun x => x ^ k * ndtr0 (v * x) * phi0 x)]
    congr 1
    funext x
    rw [hk.neg_pow, phi0_even, mul_neg, Verif.Lv.ndtr0_neg]
    ring
  rw [integral_sub (int_pow k) (int_pow_ndtr k v)] at h1
  rw [A]; linarith

theorem A0 (v : ℝ) : A v 0 = 1 := by
  rw [A_even v 0 (by decide)]; simp [phi0_total]

theorem A2 (v : ℝ) : A v 2 = 1 := by
  rw [A_even v 2 (by decide), E_sq]

theorem c_pos (v : ℝ) : 0 < √(1 + v ^ 2) := by positivity

theorem phi_phi (v x : ℝ) : phi0 (v * x) * phi0 x = phi0 (√(1 + v ^ 2) * x) / √(2 * Real.pi) := by
  have hp := Real.pi_pos
  rw [phi0, phi0, phi0, mul_pow (√(1 + v ^ 2)), Real.sq_sqrt (by positivity), div_mul_div_comm, ← Real.exp_add,
    div_div]
  congr 2
  ring

theorem E_phi_phi (v : ℝ) : ∫ x, phi0 (v * x) * phi0 x = 1 / (√(1 + v ^ 2) * √(2 * Real.pi)) := by
  have hc := c_pos v
  simp only [phi_phi]
  rw [integral_div, Measure.integral_comp_mul_left (fun x => phi0 x), phi0_total, abs_inv, abs_of_pos hc]
  simp [div_eq_mul_inv, mul_comm]

theorem E_sq_phi_phi (v : ℝ) :
    ∫ x, x ^ 2 * phi0 (v * x) * phi0 x = 1 / (√(1 + v ^ 2) ^ 3 * √(2 * Real.pi)) := by
  have hc := c_pos v
  have h : (fun x => x ^ 2 * phi0 (v * x) * phi0 x) = fun x =>
      (1 / (√(1 + v ^ 2) ^ 2 * √(2 * Real.pi))) * ((fun w => w ^ 2 * phi0 w) (√(1 + v ^ 2) * x)) := by
    funext x
    simp only
    rw [mul_assoc, phi_phi]
    field_simp
  rw [h, integral_const_mul, Measure.integral_comp_mul_left (fun w => w ^ 2 * phi0 w), E_sq, abs_inv, abs_of_pos hc]
  simp only [smul_eq_mul, mul_one]
  field_simp

theorem ndtr_v (v x : ℝ) : HasDerivAt (fun x => ndtr0 (v * x)) (v * phi0 (v * x)) x := by
  have h := HasDerivAt.comp x (ndtr0_deriv (v * x)) ((hasDerivAt_id x).const_mul v)
  refine h.congr_deriv ?_
  ring

theorem A1 (v : ℝ) : A v 1 = 2 * v / (√(1 + v ^ 2) * √(2 * Real.pi)) := by
  have h := integral_mul_deriv_eq_deriv_mul_of_integrable (u := fun x => ndtr0 (v * x))
    (u' := fun x => v * phi0 (v * x)) (v := phi0) (v' := fun x => -x * phi0 x)
    (fun x _ => ndtr_v v x) (fun x _ => Verif.Lv.phi0_deriv x)
    ((int_pow_ndtr 1 v).neg.congr (Eventually.of_forall fun x => by
      simp only [Pi.neg_apply, Pi.mul_apply]; ring))
    (((int_pow_phi 0 v).const_mul v).congr (Eventually.of_forall fun x => by
      simp only [Pi.mul_apply]; ring))
    ((int_pow_ndtr 0 v).congr (Eventually.of_forall fun x => by simp))
  have e1 : (fun x => ndtr0 (v * x) * (-x * phi0 x)) = fun x => -(x ^ 1 * ndtr0 (v * x) * phi0 x) := by
    funext x; ring
  have e2 : (fun x => v * phi0 (v * x) * phi0 x) = fun x => v * (phi0 (v * x) * phi0 x) := by
    funext x; ring
  rw [e1, e2, integral_neg, integral_const_mul, E_phi_phi] at h
  rw [A, neg_injective h]
  ring

theorem A3 (v : ℝ) : A v 3 = 2 * A v 1 + 2 * v / (√(1 + v ^ 2) ^ 3 * √(2 * Real.pi)) := by
  have hd : ∀ x, HasDerivAt (fun x => x ^ 2 * ndtr0 (v * x))
      (2 * x * ndtr0 (v * x) + x ^ 2 * (v * phi0 (v * x))) x := fun x => by
    have h := ((hasDerivAt_id x).fun_pow 2).fun_mul (ndtr_v v x)
    refine h.congr_deriv ?_
    simp
  have i1 : Integrable fun x => 2 * (x ^ 1 * ndtr0 (v * x) * phi0 x) := (int_pow_ndtr 1 v).const_mul 2
  have i2 : Integrable fun x => v * (x ^ 2 * phi0 (v * x) * phi0 x) := (int_pow_phi 2 v).const_mul v
  have e2 : (fun x => (2 * x * ndtr0 (v * x) + x ^ 2 * (v * phi0 (v * x))) * phi0 x) = fun x =>
      2 * (x ^ 1 * ndtr0 (v * x) * phi0 x) + v * (x ^ 2 * phi0 (v * x) * phi0 x) := by
    funext x; ring
  have h := integral_mul_deriv_eq_deriv_mul_of_integrable (u := fun x => x ^ 2 * ndtr0 (v * x))
    (u' := fun x => 2 * x * ndtr0 (v * x) + x ^ 2 * (v * phi0 (v * x)))
    (v := phi0) (v' := fun x => -x * phi0 x)
    (fun x _ => hd x) (fun x _ => Verif.Lv.phi0_deriv x)
    ((int_pow_ndtr 3 v).neg.congr (Eventually.of_forall fun x => by
      simp only [Pi.neg_apply, Pi.mul_apply]; ring))
    ((i1.add i2).congr (Eventually.of_forall fun x => by
      simp only [Pi.add_apply, Pi.mul_apply]; ring))
    (int_pow_ndtr 2 v)
  have e1 : (fun x => x ^ 2 * ndtr0 (v * x) * (-x * phi0 x)) = fun x => -(x ^ 3 * ndtr0 (v * x) * phi0 x) := by
    funext x; ring
  rw [e1, e2, integral_neg, integral_add i1 i2, integral_const_mul, integral_const_mul, E_sq_phi_phi] at h
  rw [A, neg_injective h, A]
  ring

/-! ### Expectations of functions of the observation -/

section
variable {m s v : ℝ} (hs : 0 < s)
include hs

theorem affine (x : ℝ) : HasDerivAt (fun x => m + s * x) s x := by
  simpa using ((hasDerivAt_id x).const_mul s).const_add m

theorem affine_surj : Function.Surjective fun x => m + s * x := fun y =>
  ⟨(y - m) / s, by beta_reduce; field_simp; ring⟩

theorem dens_affine (x : ℝ) : s * dens (m + s * x) m s v = 2 * (ndtr0 (v * x) * phi0 x) := by
  rw [dens, show (m + s * x - m) / s = x by field_simp; ring]
  field_simp

theorem expect (f : ℝ → ℝ) :
    ∫ y, f y * dens y m s v = 2 * ∫ x, f (m + s * x) * ndtr0 (v * x) * phi0 x := by
  rw [integral_bij (affine (m := m) hs) (fun _ => hs) (affine_surj hs), ← integral_const_mul]
  congr 1
  funext x
  linear_combination f (m + s * x) * dens_affine hs (m := m) (v := v) x

theorem expect_int (f : ℝ → ℝ) : Integrable (fun y => f y * dens y m s v) ↔
    Integrable fun x => f (m + s * x) * ndtr0 (v * x) * phi0 x := by
  rw [integrable_bij (affine (m := m) hs) (fun _ => hs) (affine_surj hs)]
  have : (fun x => s * (f (m + s * x) * dens (m + s * x) m s v)) =
      fun x => 2 * (f (m + s * x) * ndtr0 (v * x) * phi0 x) := by
    funext x
    linear_combination f (m + s * x) * dens_affine hs (m := m) (v := v) x
  rw [this]
  constructor
  · intro h
    refine (h.const_mul (1 / 2)).congr (Eventually.of_forall fun x => ?_)
    simp only; ring
  · exact fun h => h.const_mul 2

omit hs in
theorem poly_int (v c0 c1 c2 c3 : ℝ) : Integrable fun x =>
    (c0 + c1 * x + c2 * x ^ 2 + c3 * x ^ 3) * ndtr0 (v * x) * phi0 x := by
  refine (((int_pow_ndtr 0 v).const_mul c0).add (((int_pow_ndtr 1 v).const_mul c1).add
    (((int_pow_ndtr 2 v).const_mul c2).add ((int_pow_ndtr 3 v).const_mul c3)))).congr
    (Eventually.of_forall fun x => ?_)
  simp only [Pi.add_apply]; ring

omit hs in
theorem poly_E (v c0 c1 c2 c3 : ℝ) :
    2 * ∫ x, (c0 + c1 * x + c2 * x ^ 2 + c3 * x ^ 3) * ndtr0 (v * x) * phi0 x =
      c0 + c1 * A v 1 + c2 + c3 * A v 3 := by
  have i0 := (int_pow_ndtr 0 v).const_mul c0
  have i1 := (int_pow_ndtr 1 v).const_mul c1
  have i2 := (int_pow_ndtr 2 v).const_mul c2
  have i3 := (int_pow_ndtr 3 v).const_mul c3
  have e : (fun x => (c0 + c1 * x + c2 * x ^ 2 + c3 * x ^ 3) * ndtr0 (v * x) * phi0 x) = fun x =>
      c0 * (x ^ 0 * ndtr0 (v * x) * phi0 x) + (c1 * (x ^ 1 * ndtr0 (v * x) * phi0 x) +
        (c2 * (x ^ 2 * ndtr0 (v * x) * phi0 x) + c3 * (x ^ 3 * ndtr0 (v * x) * phi0 x))) := by
    funext x; ring
  have a0 := A0 v
  have a2 := A2 v
  simp only [A] at a0 a2 ⊢
  rw [e, integral_add i0 (i1.fun_add (i2.fun_add i3)), integral_add i1 (i2.fun_add i3), integral_add i2 i3,
    integral_const_mul, integral_const_mul, integral_const_mul, integral_const_mul]
  linear_combination c0 * a0 + c2 * a2

end

end Verif.Misc.SkewNorm
