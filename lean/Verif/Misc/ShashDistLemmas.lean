import Verif.Misc.ShashDist
import Verif.Misc.MomentLemmas
import Verif.Lv.SampleProps

/-!
# The sinh-arcsinh distribution as the law of a function of a normal variable
-/

namespace Verif.Misc.Shash

open Verif.Glm Verif.Misc MeasureTheory Set

/-- The normal variable in terms of the observation. -/
noncomputable def toNormal (m s v t y : ℝ) : ℝ := Real.sinh (t * Real.arsinh ((y - m) / s) - v)

/-- The observation in terms of the normal variable. -/
noncomputable def ofNormal (m s v t x : ℝ) : ℝ := m + s * Real.sinh ((v + Real.arsinh x) / t)

section
variable {m s v t : ℝ} (hs : 0 < s) (ht : 0 < t)
include hs ht

theorem of_to (y : ℝ) : ofNormal m s v t (toNormal m s v t y) = y := by
  have h1 : (v + (t * Real.arsinh ((y - m) / s) - v)) / t = Real.arsinh ((y - m) / s) := by
    field_simp; ring
  rw [ofNormal, toNormal, Real.arsinh_sinh, h1, Real.sinh_arsinh]
  field_simp
  ring

theorem to_of (x : ℝ) : toNormal m s v t (ofNormal m s v t x) = x := by
  have h1 : (m + s * Real.sinh ((v + Real.arsinh x) / t) - m) / s =
      Real.sinh ((v + Real.arsinh x) / t) := by field_simp; ring
  rw [ofNormal, toNormal, h1, Real.arsinh_sinh]
  have h2 : t * ((v + Real.arsinh x) / t) - v = Real.arsinh x := by field_simp; ring
  rw [h2, Real.sinh_arsinh]

theorem toNormal_deriv (y : ℝ) : HasDerivAt (toNormal m s v t)
    (Real.cosh (t * Real.arsinh ((y - m) / s) - v) * (t * ((√(1 + ((y - m) / s) ^ 2))⁻¹ * (1 / s)))) y := by
  have h0 : HasDerivAt (fun y : ℝ => (y - m) / s) (1 / s) y :=
    ((hasDerivAt_id y).sub_const m).div_const s
  have h1 : HasDerivAt (fun y : ℝ => Real.arsinh ((y - m) / s))
      ((√(1 + ((y - m) / s) ^ 2))⁻¹ * (1 / s)) y :=
    HasDerivAt.arsinh h0 |>.congr_deriv (by simp)
  have h2 := (h1.const_mul t).sub_const v
  exact h2.sinh

theorem jac_pos (y : ℝ) : 0 < Real.cosh (t * Real.arsinh ((y - m) / s) - v) *
    (t * ((√(1 + ((y - m) / s) ^ 2))⁻¹ * (1 / s))) := by
  have := Real.cosh_pos (t * Real.arsinh ((y - m) / s) - v)
  positivity

theorem toNormal_surj : Function.Surjective (toNormal m s v t) := fun x => ⟨_, to_of hs ht x⟩

theorem toNormal_mono : StrictMono (toNormal m s v t) :=
  strictMono_of_deriv_pos fun y => by rw [(toNormal_deriv hs ht y).deriv]; exact jac_pos hs ht y

/-- The density is the normal density of `toNormal` times its derivative. -/
theorem pdf_eq (y : ℝ) : pdf y m s v t = Real.cosh (t * Real.arsinh ((y - m) / s) - v) *
    (t * ((√(1 + ((y - m) / s) ^ 2))⁻¹ * (1 / s))) * phi0 (toNormal m s v t y) := by
  have hp := Real.pi_pos
  simp only [pdf, phi0, toNormal]
  rw [Real.sqrt_mul (x := 2 * Real.pi) (by positivity)]
  have h1 : 0 < √(2 * Real.pi) := by positivity
  have h2 : 0 < √(1 + ((y - m) / s) ^ 2) := by positivity
  field_simp

theorem pdf_pos (y : ℝ) : 0 < pdf y m s v t := by
  rw [pdf_eq hs ht]
  exact mul_pos (jac_pos hs ht y) (phi0_pos _)

/-- Expectations of functions of the observation. -/
theorem expect (f : ℝ → ℝ) : ∫ y, f y * pdf y m s v t = ∫ x, f (ofNormal m s v t x) * phi0 x := by
  rw [integral_bij (toNormal_deriv hs ht) (jac_pos hs ht) (toNormal_surj hs ht)
    (fun x => f (ofNormal m s v t x) * phi0 x)]
  congr 1
  funext y
  rw [pdf_eq hs ht, of_to hs ht]
  ring

theorem expect_int (f : ℝ → ℝ) : Integrable (fun y => f y * pdf y m s v t) ↔
    Integrable fun x => f (ofNormal m s v t x) * phi0 x := by
  rw [integrable_bij (toNormal_deriv hs ht) (jac_pos hs ht) (toNormal_surj hs ht)
    (fun x => f (ofNormal m s v t x) * phi0 x)]
  have : (fun y => f y * pdf y m s v t) = fun y => Real.cosh (t * Real.arsinh ((y - m) / s) - v) *
    (t * ((√(1 + ((y - m) / s) ^ 2))⁻¹ * (1 / s))) *
      (f (ofNormal m s v t (toNormal m s v t y)) * phi0 (toNormal m s v t y)) := by
    funext y
    rw [pdf_eq hs ht, of_to hs ht]
    ring
  rw [this]

end

/-! ### Hyperbolic moments -/

/-- The variable `Z = sinh ((v + arcsinh X) / t)`. -/
noncomputable def Z (v t x : ℝ) : ℝ := Real.sinh ((v + Real.arsinh x) / t)

theorem ofNormal_eq (m s v t x : ℝ) : ofNormal m s v t x = m + s * Z v t x := rfl

theorem int_sinh (q v : ℝ) : Integrable fun x => Real.sinh (q * (v + Real.arsinh x)) * phi0 x := by
  refine ((((int_arsinh q).const_mul (Real.exp (q * v))).sub
    ((int_arsinh (-q)).const_mul (Real.exp (-(q * v))))).div_const 2).congr
    (Filter.Eventually.of_forall fun x => ?_)
  simp only [Pi.sub_apply]
  rw [Real.sinh_eq, ← mul_assoc, ← mul_assoc, ← Real.exp_add, ← Real.exp_add]
  ring_nf

theorem int_cosh' (q v : ℝ) : Integrable fun x => Real.cosh (q * (v + Real.arsinh x)) * phi0 x := by
  refine ((((int_arsinh q).const_mul (Real.exp (q * v))).add
    ((int_arsinh (-q)).const_mul (Real.exp (-(q * v))))).div_const 2).congr
    (Filter.Eventually.of_forall fun x => ?_)
  simp only [Pi.add_apply]
  rw [Real.cosh_eq, ← mul_assoc, ← mul_assoc, ← Real.exp_add, ← Real.exp_add]
  ring_nf

theorem E_sinh (q v : ℝ) : ∫ x, Real.sinh (q * (v + Real.arsinh x)) * phi0 x = Real.sinh (q * v) * P0 q := by
  have h : (fun x => Real.sinh (q * (v + Real.arsinh x)) * phi0 x) = fun x =>
      (Real.exp (q * v) * (Real.exp (q * Real.arsinh x) * phi0 x) -
        Real.exp (-(q * v)) * (Real.exp (-q * Real.arsinh x) * phi0 x)) / 2 := by
    funext x
    rw [Real.sinh_eq, ← mul_assoc, ← mul_assoc, ← Real.exp_add, ← Real.exp_add]
    ring_nf
  rw [h, integral_div, integral_sub ((int_arsinh q).const_mul _) ((int_arsinh (-q)).const_mul _),
    integral_const_mul, integral_const_mul, ← P0, ← P0, P0_neg, Real.sinh_eq]
  ring

theorem E_cosh (q v : ℝ) : ∫ x, Real.cosh (q * (v + Real.arsinh x)) * phi0 x = Real.cosh (q * v) * P0 q := by
  have h : (fun x => Real.cosh (q * (v + Real.arsinh x)) * phi0 x) = fun x =>
      (Real.exp (q * v) * (Real.exp (q * Real.arsinh x) * phi0 x) +
        Real.exp (-(q * v)) * (Real.exp (-q * Real.arsinh x) * phi0 x)) / 2 := by
    funext x
    rw [Real.cosh_eq, ← mul_assoc, ← mul_assoc, ← Real.exp_add, ← Real.exp_add]
    ring_nf
  rw [h, integral_div, integral_add ((int_arsinh q).const_mul _) ((int_arsinh (-q)).const_mul _),
    integral_const_mul, integral_const_mul, ← P0, ← P0, P0_neg, Real.cosh_eq]
  ring

theorem sinh_sq' (x : ℝ) : Real.sinh x ^ 2 = (Real.cosh (2 * x) - 1) / 2 := by
  rw [Real.cosh_two_mul, Real.cosh_sq]; ring

theorem sinh_cube (x : ℝ) : Real.sinh x ^ 3 = (Real.sinh (3 * x) - 3 * Real.sinh x) / 4 := by
  rw [Real.sinh_three_mul]; ring

theorem sinh_four (x : ℝ) :
    Real.sinh x ^ 4 = (Real.cosh (4 * x) - 4 * Real.cosh (2 * x) + 3) / 8 := by
  rw [show 4 * x = 2 * (2 * x) by ring, Real.cosh_two_mul (2 * x), Real.sinh_two_mul,
    Real.cosh_two_mul, mul_pow, mul_pow, Real.cosh_sq]
  ring

theorem P0_abs_mono {a b : ℝ} (h : |a| ≤ |b|) : P0 a ≤ P0 b := by
  have h1 : ∀ q, P0 q = ∫ x, Real.cosh (q * (0 + Real.arsinh x)) * phi0 x := by
    intro q; rw [E_cosh]; simp
  rw [h1, h1]
  refine integral_mono (int_cosh' a 0) (int_cosh' b 0) fun x => ?_
  refine mul_le_mul_of_nonneg_right (Real.cosh_le_cosh.2 ?_) (phi0_pos x).le
  rw [abs_mul, abs_mul]
  exact mul_le_mul_of_nonneg_right h (abs_nonneg _)

section
variable (v t : ℝ)

/-- The first four moments of `Z`. -/
noncomputable def M1 : ℝ := Real.sinh (v / t) * P0 (1 / t)
noncomputable def M2 : ℝ := (Real.cosh (2 * v / t) * P0 (2 / t) - 1) / 2
noncomputable def M3 : ℝ := (Real.sinh (3 * v / t) * P0 (3 / t) - 3 * Real.sinh (v / t) * P0 (1 / t)) / 4
noncomputable def M4 : ℝ :=
  (Real.cosh (4 * v / t) * P0 (4 / t) - 4 * Real.cosh (2 * v / t) * P0 (2 / t) + 3) / 8

theorem hZ1 (x : ℝ) : Z v t x = Real.sinh (1 / t * (v + Real.arsinh x)) := by
  rw [Z]; ring_nf

theorem hZ2 (x : ℝ) : Z v t x ^ 2 = (Real.cosh (2 / t * (v + Real.arsinh x)) - 1) / 2 := by
  rw [Z, sinh_sq']; ring_nf

theorem hZ3 (x : ℝ) : Z v t x ^ 3 = (Real.sinh (3 / t * (v + Real.arsinh x)) -
    3 * Real.sinh (1 / t * (v + Real.arsinh x))) / 4 := by
  rw [Z, sinh_cube]; ring_nf

theorem hZ4 (x : ℝ) : Z v t x ^ 4 = (Real.cosh (4 / t * (v + Real.arsinh x)) -
    4 * Real.cosh (2 / t * (v + Real.arsinh x)) + 3) / 8 := by
  rw [Z, sinh_four]; ring_nf

/-- A polynomial in `Z`, written in hyperbolic functions. -/
theorem poly_eq (c0 c1 c2 c3 c4 x : ℝ) :
    (c0 + c1 * Z v t x + c2 * Z v t x ^ 2 + c3 * Z v t x ^ 3 + c4 * Z v t x ^ 4) * phi0 x =
    (c0 - c2 / 2 + c4 * 3 / 8) * phi0 x +
    ((c1 - c3 * 3 / 4) * (Real.sinh (1 / t * (v + Real.arsinh x)) * phi0 x) +
    ((c2 / 2 - c4 / 2) * (Real.cosh (2 / t * (v + Real.arsinh x)) * phi0 x) +
    (c3 / 4 * (Real.sinh (3 / t * (v + Real.arsinh x)) * phi0 x) +
    c4 / 8 * (Real.cosh (4 / t * (v + Real.arsinh x)) * phi0 x)))) := by
  rw [hZ4, hZ3, hZ2, hZ1]; ring

theorem poly_int (c0 c1 c2 c3 c4 : ℝ) : Integrable fun x =>
    (c0 + c1 * Z v t x + c2 * Z v t x ^ 2 + c3 * Z v t x ^ 3 + c4 * Z v t x ^ 4) * phi0 x := by
  simp only [poly_eq]
  exact (phi0_int.const_mul _).add (((int_sinh _ _).const_mul _).add (((int_cosh' _ _).const_mul _).add
    (((int_sinh _ _).const_mul _).add ((int_cosh' _ _).const_mul _))))

theorem poly_E (c0 c1 c2 c3 c4 : ℝ) :
    ∫ x, (c0 + c1 * Z v t x + c2 * Z v t x ^ 2 + c3 * Z v t x ^ 3 + c4 * Z v t x ^ 4) * phi0 x =
    c0 + c1 * M1 v t + c2 * M2 v t + c3 * M3 v t + c4 * M4 v t := by
  simp only [poly_eq]
  have i0 := phi0_int.const_mul (c0 - c2 / 2 + c4 * 3 / 8)
  have i1 := (int_sinh (1 / t) v).const_mul (c1 - c3 * 3 / 4)
  have i2 := (int_cosh' (2 / t) v).const_mul (c2 / 2 - c4 / 2)
  have i3 := (int_sinh (3 / t) v).const_mul (c3 / 4)
  have i4 := (int_cosh' (4 / t) v).const_mul (c4 / 8)
  rw [integral_add i0 (i1.fun_add (i2.fun_add (i3.fun_add i4))), integral_add i1 (i2.fun_add (i3.fun_add i4)),
    integral_add i2 (i3.fun_add i4), integral_add i3 i4, integral_const_mul, integral_const_mul,
    integral_const_mul, integral_const_mul, integral_const_mul, E_sinh, E_cosh, E_sinh, E_cosh, phi0_total]
  simp only [M1, M2, M3, M4]
  ring_nf

end

end Verif.Misc.Shash
