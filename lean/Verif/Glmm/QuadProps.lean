import Verif.Glmm.Model
import Verif.Misc.MomentLemmas
import Mathlib.MeasureTheory.Integral.IntegralEqImproper
/-!
# C198: the quadrature of `GLMM_AGQ`
-/
namespace Verif.Glmm
open Verif.Glm MeasureTheory
variable {n q : ℕ}

/-- The rule of Gauss and Hermite for an integrand without weight: the weight is divided out. -/
noncomputable def adaptSum (rule : List (ℝ × ℝ)) (f : ℝ → ℝ) : ℝ := (rule.map fun zw => f zw.1 * zw.2 * Real.exp (zw.1 ^ 2 / 2)).sum

theorem int_pow (k : ℕ) : Integrable fun x => x ^ k * phi0 x :=
  Verif.Misc.int_dom (by fun_prop) k.factorial 1 fun x => by
    rw [abs_pow]
    have h := Real.pow_div_factorial_le_exp |x| (abs_nonneg x) k
    rw [div_le_iff₀ (by positivity)] at h
    rw [one_mul]; linarith

/-- The moments of the normal distribution. -/
noncomputable def mom (k : ℕ) : ℝ := ∫ x, x ^ k * phi0 x

theorem mom_zero : mom 0 = 1 := by simpa [mom] using phi0_total

theorem mom_succ (k : ℕ) : mom (k + 1) = k * mom (k - 1) := by
  have h := integral_mul_deriv_eq_deriv_mul_of_integrable (u := fun x : ℝ => x ^ k) (u' := fun x => k * x ^ (k - 1))
    (v := phi0) (v' := fun x => -x * phi0 x) (fun x _ => hasDerivAt_pow k x)
    (fun x _ => Verif.Lv.phi0_deriv x)
    ((int_pow (k + 1)).neg.congr (Filter.Eventually.of_forall fun x => by simp only [Pi.neg_apply, Pi.mul_apply]; ring))
    (((int_pow (k - 1)).const_mul (k : ℝ)).congr (Filter.Eventually.of_forall fun x => by simp only [Pi.mul_apply]; ring))
    ((int_pow k).congr (Filter.Eventually.of_forall fun x => by simp))
  have h1 : (fun x => x ^ k * (-x * phi0 x)) = fun x => -(x ^ (k + 1) * phi0 x) := by funext x; ring
  have h2 : (fun x => (k : ℝ) * x ^ (k - 1) * phi0 x) = fun x => (k : ℝ) * (x ^ (k - 1) * phi0 x) := by funext x; ring
  rw [h1, h2, integral_neg, integral_const_mul, neg_inj] at h
  exact h

theorem exp_phi (x : ℝ) : Real.exp (-(x ^ 2 / 2)) = Real.sqrt (2 * Real.pi) * phi0 x := by
  rw [phi0, mul_div_cancel₀ _ (by positivity), neg_div]

theorem sq3 : Real.sqrt 3 ^ 2 = 3 := Real.sq_sqrt (by norm_num)

theorem exp_cancel (x : ℝ) : Real.exp (-x) * Real.exp x = 1 := by rw [← Real.exp_add]; simp

/-- With three nodes the rule is exact for the quadratic expansion times a polynomial of degree five. -/
theorem C198_three_exact (a : ℕ → ℝ) : ∃ r, ghRule 3 = some r ∧
    adaptSum r (fun z => (∑ k ∈ Finset.range 6, a k * z ^ k) * Real.exp (-(z ^ 2 / 2))) =
      ∫ z : ℝ, (∑ k ∈ Finset.range 6, a k * z ^ k) * Real.exp (-(z ^ 2 / 2)) := by
  refine ⟨_, rfl, ?_⟩
  have hi : ∫ z : ℝ, (∑ k ∈ Finset.range 6, a k * z ^ k) * Real.exp (-(z ^ 2 / 2)) =
      Real.sqrt (2 * Real.pi) * ∑ k ∈ Finset.range 6, a k * mom k := by
    have : (fun z : ℝ => (∑ k ∈ Finset.range 6, a k * z ^ k) * Real.exp (-(z ^ 2 / 2))) =
        fun z => Real.sqrt (2 * Real.pi) * ∑ k ∈ Finset.range 6, a k * (z ^ k * phi0 z) := by
      funext z
      rw [exp_phi, Finset.sum_mul, Finset.mul_sum]
      exact Finset.sum_congr rfl fun k _ => by ring
    rw [this, integral_const_mul, integral_finsetSum _ fun k _ => (int_pow k).const_mul (a k)]
    congr 1
    exact Finset.sum_congr rfl fun k _ => by rw [integral_const_mul, mom]
  rw [hi]
  have m1 : mom 1 = 0 := by simpa using mom_succ 0
  have m2 : mom 2 = 1 := by have := mom_succ 1; simpa [mom_zero] using this
  have m3 : mom 3 = 0 := by have := mom_succ 2; simpa [m1] using this
  have m4 : mom 4 = 3 := by have := mom_succ 3; norm_num [m2] at this; exact this
  have m5 : mom 5 = 0 := by have := mom_succ 4; norm_num [m3] at this; exact this
  set s := Real.sqrt (2 * Real.pi) with hs
  set t := Real.sqrt 3 with ht
  have t2 : t ^ 2 = 3 := sq3
  have t3 : t ^ 3 = 3 * t := by rw [pow_succ, t2]
  have t4 : t ^ 4 = 9 := by rw [show (4 : ℕ) = 2 * 2 from rfl, pow_mul, t2]; norm_num
  have t5 : t ^ 5 = 9 * t := by rw [pow_succ, t4]
  have e3 := exp_cancel (3 / 2)
  simp only [adaptSum, List.map_cons, List.map_nil, List.sum_cons, List.sum_nil, neg_sq, t2, Finset.sum_range_succ, Finset.sum_range_zero,
    mom_zero, m1, m2, m3, m4, m5, t3, t4, t5]
  have n3 : (-t) ^ 3 = -(3 * t) := by rw [Odd.neg_pow (by decide), t3]
  have n4 : (-t) ^ 4 = 9 := by rw [Even.neg_pow (by decide), t4]
  have n5 : (-t) ^ 5 = -(9 * t) := by rw [Odd.neg_pow (by decide), t5]
  rw [n3, n4, n5]
  simp only [pow_zero, ne_eq, OfNat.ofNat_ne_zero, not_false_eq_true, zero_pow, zero_div, neg_zero, Real.exp_zero, pow_one]
  linear_combination (s / 3 * (a 0 + 3 * a 2 + 9 * a 4)) * e3

/-- The code leaves out the division by the weight: with three nodes no constant factor makes it exact, not even for quadratic
polynomials times the quadratic expansion. -/
theorem C198_rule_violated : ∃ r, ghRule 3 = some r ∧ ¬ ∃ c : ℝ, ∀ a b : ℝ,
    ruleSum r (fun z => (a + b * z ^ 2) * Real.exp (-(z ^ 2 / 2))) = c * ∫ z : ℝ, (a + b * z ^ 2) * Real.exp (-(z ^ 2 / 2)) := by
  refine ⟨_, rfl, fun ⟨c, h⟩ => ?_⟩
  have m2 : mom 2 = 1 := by have := mom_succ 1; simpa [mom_zero] using this
  have i0 : ∫ z : ℝ, ((1 : ℝ) + 0 * z ^ 2) * Real.exp (-(z ^ 2 / 2)) = Real.sqrt (2 * Real.pi) := by
    have : (fun z : ℝ => ((1 : ℝ) + 0 * z ^ 2) * Real.exp (-(z ^ 2 / 2))) = fun z => Real.sqrt (2 * Real.pi) * phi0 z := by
      funext z; rw [exp_phi]; ring
    rw [this, integral_const_mul, phi0_total, mul_one]
  have i2 : ∫ z : ℝ, ((0 : ℝ) + 1 * z ^ 2) * Real.exp (-(z ^ 2 / 2)) = Real.sqrt (2 * Real.pi) := by
    have : (fun z : ℝ => ((0 : ℝ) + 1 * z ^ 2) * Real.exp (-(z ^ 2 / 2))) = fun z => Real.sqrt (2 * Real.pi) * (z ^ 2 * phi0 z) := by
      funext z; rw [exp_phi]; ring
    rw [this, integral_const_mul, show ∫ z, z ^ 2 * phi0 z = 1 from m2, mul_one]
  have h0 := h 1 0
  have h2 := h 0 1
  rw [i0] at h0
  rw [i2, ← h0] at h2
  have h2' : Real.sqrt 2 ≠ 0 := by positivity
  have hs : Real.sqrt (2 * Real.pi) ≠ 0 := by positivity
  simp only [ruleSum, List.map_cons, List.map_nil, List.sum_cons, List.sum_nil, neg_sq, sq3] at h2
  have h3 := mul_right_cancel₀ h2' h2
  have h4 : Real.exp (-(3 / 2)) = 2 / 3 + Real.exp (-(3 / 2)) / 3 := by
    have : Real.sqrt (2 * Real.pi) * Real.exp (-(3 / 2)) = Real.sqrt (2 * Real.pi) * (2 / 3 + Real.exp (-(3 / 2)) / 3) := by
      simp only [ne_eq, OfNat.ofNat_ne_zero, not_false_eq_true, zero_pow, zero_div, neg_zero, Real.exp_zero] at h3
      linear_combination h3
    exact mul_left_cancel₀ hs this
  have : Real.exp (-(3 / 2)) < 1 := (Real.exp_lt_exp.2 (by norm_num)).trans_eq Real.exp_zero
  linarith

/-- The factor `√2` of the code belongs to the quadratic expansion with the weight left in. -/
theorem C198_factor : ∫ z : ℝ, Real.sqrt 2 * (Real.exp (-(z ^ 2 / 2)) * Real.exp (-(z ^ 2 / 2))) = ∫ z : ℝ, Real.exp (-(z ^ 2 / 2)) := by
  have h : ∫ z : ℝ, Real.exp (-(z ^ 2 / 2)) = Real.sqrt (2 * Real.pi) := by
    simp only [exp_phi]; rw [integral_const_mul, phi0_total, mul_one]
  rw [integral_const_mul, h]
  have : (fun z : ℝ => Real.exp (-(z ^ 2 / 2)) * Real.exp (-(z ^ 2 / 2))) = fun z => Real.exp (-1 * z ^ 2) := by
    funext z; rw [← Real.exp_add]; congr 1; ring
  rw [this, integral_gaussian, div_one, ← Real.sqrt_mul (by norm_num)]

/-- With one and with two nodes the code is a constant multiple of the rule. -/
theorem C198_few_partial (f : ℝ → ℝ) :
    (∃ r, ghRule 1 = some r ∧ ruleSum r f = Real.sqrt 2 * adaptSum r f) ∧
      (∃ r, ghRule 2 = some r ∧ ruleSum r f = Real.sqrt 2 * Real.exp (-(1 / 2)) * adaptSum r f) := by
  refine ⟨⟨_, rfl, ?_⟩, ⟨_, rfl, ?_⟩⟩
  · simp [ruleSum, adaptSum]; ring
  · simp only [ruleSum, adaptSum, List.map_cons, List.map_nil, List.sum_cons, List.sum_nil, neg_sq, one_pow]
    linear_combination (-(Real.sqrt 2) * (f (-1) * (Real.sqrt (2 * Real.pi) / 2) + f 1 * (Real.sqrt (2 * Real.pi) / 2))) * exp_cancel (1 / 2)

/-- The change of variables of the code. -/
theorem C198_substitution (g : ℝ → ℝ) {Q : ℝ} (hQ : 0 < Q) (u : ℝ) : ∫ z : ℝ, g (1 / Q * z + u) = Q * ∫ v, g v := by
  have := Measure.integral_comp_mul_left (fun z => g (z + u)) (1 / Q)
  rw [this, integral_add_right_eq_self, one_div, inv_inv, abs_of_pos hQ, smul_eq_mul]

/-- With sums that equal the integrals the objective is minus the log of the marginal likelihood of the groups, up to constants. -/
theorem C198_objective (F : Fam) (d : One n q) (rule : List (ℝ × ℝ)) (u : Fin q → ℝ) (hD : 0 < d.D) (hQ : ∀ j, 0 < qOne F d u j)
    (hI : ∀ j, ∫ v, Real.exp (hOne F d j v) ≠ 0)
    (hr : ∀ j, ruleSum rule (fun z => Real.exp (hOne F d j (1 / qOne F d u j * z + u j))) =
      ∫ z, Real.exp (hOne F d j (1 / qOne F d u j * z + u j))) :
    agqAt F d rule u = -∑ j, Real.log (d.D * ∫ v, Real.exp (hOne F d j v)) := by
  simp only [agqAt, hr]
  have hq : (q : ℝ) * Real.log d.D = ∑ _j : Fin q, Real.log d.D := by simp
  rw [neg_inj, hq, ← Finset.sum_sub_distrib, ← Finset.sum_add_distrib]
  refine Finset.sum_congr rfl fun j _ => ?_
  rw [C198_substitution (fun v => Real.exp (hOne F d j v)) (hQ j), Real.log_mul (hQ j).ne' (hI j), Real.log_mul hD.ne' (hI j)]
  ring

/-- Normal responses: at the mode the integrand is the quadratic expansion. -/
theorem gauss_expand (d : One n q) (u : Fin q → ℝ) (j : Fin q) (hQ : 0 < qOne gaussian d u j)
    (hm : ∑ i, (if d.grp i = j then (d.y i - (d.z i * u j + d.Xb i)) * d.z i else 0) = d.D ^ 2 * u j) (z : ℝ) :
    hOne gaussian d j (1 / qOne gaussian d u j * z + u j) = hOne gaussian d j (u j) - z ^ 2 / 2 := by
  set Q := qOne gaussian d u j with hq
  have hQ2 : Q ^ 2 = ∑ i, (if d.grp i = j then d.z i ^ 2 else 0) + d.D ^ 2 := by
    rw [hq, qOne, Real.sq_sqrt]
    · simp [gaussian]
    · refine add_nonneg (Finset.sum_nonneg fun i _ => ?_) (sq_nonneg _)
      split_ifs
      · simp only [gaussian]; positivity
      · exact le_rfl
  set w := 1 / Q * z with hw
  have hwz : w ^ 2 * Q ^ 2 = z ^ 2 := by rw [hw]; field_simp
  have e : ∑ i, (if d.grp i = j then d.y i * gaussian.canon (gaussian.invLink (d.z i * (w + u j) + d.Xb i)) -
      gaussian.cumulant (gaussian.canon (gaussian.invLink (d.z i * (w + u j) + d.Xb i))) else 0) =
      ∑ i, (if d.grp i = j then d.y i * gaussian.canon (gaussian.invLink (d.z i * u j + d.Xb i)) -
      gaussian.cumulant (gaussian.canon (gaussian.invLink (d.z i * u j + d.Xb i))) else 0) +
      w * ∑ i, (if d.grp i = j then (d.y i - (d.z i * u j + d.Xb i)) * d.z i else 0) -
      w ^ 2 / 2 * ∑ i, (if d.grp i = j then d.z i ^ 2 else 0) := by
    rw [Finset.mul_sum, Finset.mul_sum, ← Finset.sum_add_distrib, ← Finset.sum_sub_distrib]
    refine Finset.sum_congr rfl fun i _ => ?_
    split_ifs
    · simp only [gaussian, id]; ring
    · ring
  simp only [hOne]
  rw [e, hm]
  linear_combination (-(w ^ 2) / 2) * hQ2 - hwz / 2 + w ^ 2 * hQ2

/-- For normal responses every rule gives the marginal likelihood up to a constant that depends on the rule only. -/
theorem C198_gaussian_partial (d : One n q) (rule : List (ℝ × ℝ)) (u : Fin q → ℝ) (hD : 0 < d.D) (hQ : ∀ j, 0 < qOne gaussian d u j)
    (hm : ∀ j, ∑ i, (if d.grp i = j then (d.y i - (d.z i * u j + d.Xb i)) * d.z i else 0) = d.D ^ 2 * u j)
    (hr : 0 < ruleSum rule fun z => Real.exp (-(z ^ 2 / 2))) :
    agqAt gaussian d rule u = -∑ j, Real.log (d.D * ∫ v, Real.exp (hOne gaussian d j v)) +
      q * (Real.log (Real.sqrt (2 * Real.pi)) - Real.log (ruleSum rule fun z => Real.exp (-(z ^ 2 / 2)))) := by
  have hf : ∀ j, (fun z => Real.exp (hOne gaussian d j (1 / qOne gaussian d u j * z + u j))) =
      fun z => Real.exp (hOne gaussian d j (u j)) * Real.exp (-(z ^ 2 / 2)) := fun j => by
    funext z
    rw [gauss_expand d u j (hQ j) (hm j), sub_eq_add_neg, Real.exp_add]
  have hs : ∀ c : ℝ, ruleSum rule (fun z => c * Real.exp (-(z ^ 2 / 2))) = c * ruleSum rule fun z => Real.exp (-(z ^ 2 / 2)) := fun c => by
    simp only [ruleSum]
    rw [← mul_assoc, ← List.sum_map_mul_left]
    congr 2
    exact List.map_congr_left fun a _ => by ring
  have hi : ∀ j, ∫ v, Real.exp (hOne gaussian d j v) = Real.exp (hOne gaussian d j (u j)) * Real.sqrt (2 * Real.pi) / qOne gaussian d u j := fun j => by
    have := C198_substitution (fun v => Real.exp (hOne gaussian d j v)) (hQ j) (u j)
    rw [hf j] at this
    simp only [exp_phi] at this
    rw [integral_const_mul, integral_const_mul, phi0_total, mul_one] at this
    rw [this, mul_div_cancel_left₀ _ (hQ j).ne']
  simp only [agqAt]
  have h2 : (0 : ℝ) < Real.sqrt (2 * Real.pi) := by positivity
  have hl : ∀ j, Real.log (d.D * ∫ v, Real.exp (hOne gaussian d j v)) =
      hOne gaussian d j (u j) + Real.log d.D - Real.log (qOne gaussian d u j) + Real.log (Real.sqrt (2 * Real.pi)) := fun j => by
    rw [hi, Real.log_mul hD.ne' (by have := hQ j; positivity), Real.log_div (by positivity) (hQ j).ne',
      Real.log_mul (Real.exp_pos _).ne' h2.ne', Real.log_exp]
    ring
  simp only [hl, hf, hs, Real.log_mul (Real.exp_pos _).ne' hr.ne', Real.log_exp, Finset.sum_add_distrib, Finset.sum_sub_distrib,
    Finset.sum_const, Finset.card_univ, Fintype.card_fin, nsmul_eq_mul]
  ring

/-- One random effect per group: the arrays match. -/
theorem C198_shape_partial (g : ℕ) : shapeOk g 1 = true := by simp [shapeOk]

/-- More than one random effect in more than one group: the penalty has one entry per effect, the likelihood one per group; the
subtraction raises. -/
theorem C198_shape_violated (g k : ℕ) (hg : 1 < g) (hk : 1 < k) : shapeOk g k = false := by
  have h1 : g ≠ g * k := by nlinarith
  have h2 : g * k ≠ 1 := by nlinarith
  simp only [shapeOk, Bool.or_eq_false_iff, beq_eq_false_iff_ne]
  exact ⟨⟨h1, by omega⟩, h2⟩

/-- The hypotheses are satisfiable. -/
example : ∃ (d : One 1 1) (u : Fin 1 → ℝ), 0 < d.D ∧ (∀ j, 0 < qOne gaussian d u j) ∧
    ∀ j, ∑ i, (if d.grp i = j then (d.y i - (d.z i * u j + d.Xb i)) * d.z i else 0) = d.D ^ 2 * u j :=
  ⟨⟨fun _ => 2, fun _ => 0, fun _ => 0, fun _ => 1, 1⟩, fun _ => 1, one_pos, fun j => by
    rw [Subsingleton.elim j 0]; simp only [qOne, gaussian]; apply Real.sqrt_pos.2; simp, fun j => by
    rw [Subsingleton.elim j 0]; norm_num⟩

end Verif.Glmm
