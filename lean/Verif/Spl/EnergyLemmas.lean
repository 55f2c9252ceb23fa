import Verif.Spl.PieceLemmas
/-!
# The integrated squared second derivative
-/
namespace Verif.Spl
open Finset Filter Topology MeasureTheory

variable {n : ℕ} {k b g : ℕ → ℝ}

/-- `∫ piece2 ^ 2` over its interval. -/
theorem piece2_energy (hk : Inc n k) {j : ℕ} (hj : j + 1 < n) : ∫ x in k j..k (j + 1), piece2 k g j x ^ 2 =
    dif k j / 3 * (g j ^ 2 + g j * g (j + 1) + g (j + 1) ^ 2) := by
  have h := (gap_pos hk hj).ne'
  have e : k (j + 1) - k j = dif k j := rfl
  have key : ∀ x ∈ Set.uIcc (k j) (k (j + 1)), HasDerivAt (fun x => ((x - k j) ^ 3 / 3 * g (j + 1) ^ 2 -
      (k (j + 1) - x) ^ 3 / 3 * g j ^ 2 + 2 * g j * g (j + 1) * (dif k j * (x - k j) ^ 2 / 2 - (x - k j) ^ 3 / 3)) / dif k j ^ 2)
      (piece2 k g j x ^ 2) x := by
    intro x _
    have h1 : HasDerivAt (fun x => x - k j) 1 x := (hasDerivAt_id x).sub_const _
    have h2 : HasDerivAt (fun x => k (j + 1) - x) (-1) x := (hasDerivAt_id x).const_sub _
    refine ((((((h1.pow 3).div_const 3).mul_const (g (j + 1) ^ 2)).sub (((h2.pow 3).div_const 3).mul_const (g j ^ 2))).add
      (((((h1.pow 2).const_mul (dif k j)).div_const 2).sub ((h1.pow 3).div_const 3)).const_mul
        (2 * g j * g (j + 1)))).div_const (dif k j ^ 2)).congr_deriv ?_
    unfold piece2
    rw [← e] at h ⊢
    push_cast
    field_simp
    ring
  rw [intervalIntegral.integral_eq_sub_of_hasDerivAt key]
  · rw [e]; field_simp; ring
  · refine ContinuousOn.intervalIntegrable fun x _ => ?_
    exact ((piece2_deriv k g j x).continuousAt.pow 2).continuousWithinAt

/-- The energy of the spline. -/
theorem spl_energy (hn : 2 ≤ n) (hk : Inc n k) : ∫ x in k 0..k (n - 1), spl2 n k g x ^ 2 =
    ∑ j ∈ range (n - 1), dif k j / 3 * (g j ^ 2 + g j * g (j + 1) + g (j + 1) ^ 2) := by
  have hc : Continuous fun x => spl2 n k g x ^ 2 := (spl2_continuous hn hk).pow 2
  rw [← intervalIntegral.sum_integral_adjacent_intervals fun j _ => hc.intervalIntegrable _ _]
  refine sum_congr rfl fun j hj => ?_
  have hj' : j + 1 < n := by have := mem_range.1 hj; omega
  rw [← piece2_energy hk hj']
  refine intervalIntegral.integral_congr fun x hx => ?_
  rw [Set.uIcc_of_le (hk j hj').le] at hx
  simp only [spl2_on hn hk hj' hx.1 hx.2]

/-- Integration by parts twice on one interval: `u` vanishes at the knots. -/
theorem parts_piece (hk : Inc n k) {j : ℕ} (hj : j + 1 < n) (u u' u'' : ℝ → ℝ) (hu : ∀ x, HasDerivAt u (u' x) x)
    (hu' : ∀ x, HasDerivAt u' (u'' x) x) (hc : Continuous u'') (h0 : u (k j) = 0) (h1 : u (k (j + 1)) = 0) :
    ∫ x in k j..k (j + 1), piece2 k g j x * u'' x = g (j + 1) * u' (k (j + 1)) - g j * u' (k j) := by
  have hu'c : Continuous u' := continuous_iff_continuousAt.2 fun x => (hu' x).continuousAt
  rw [intervalIntegral.integral_mul_deriv_eq_deriv_mul (fun x _ => piece2_deriv k g j x) (fun x _ => hu' x)
    intervalIntegrable_const (hc.intervalIntegrable _ _), intervalIntegral.integral_const_mul,
    intervalIntegral.integral_eq_sub_of_hasDerivAt (fun x _ => hu x) (hu'c.intervalIntegrable _ _), h0, h1,
    piece2_left hk hj, piece2_right hk hj]
  ring

theorem parts_spl (hn : 2 ≤ n) (hk : Inc n k) (u u' u'' : ℝ → ℝ) (hu : ∀ x, HasDerivAt u (u' x) x)
    (hu' : ∀ x, HasDerivAt u' (u'' x) x) (hc : Continuous u'') (h0 : ∀ i < n, u (k i) = 0) :
    ∫ x in k 0..k (n - 1), spl2 n k g x * u'' x = g (n - 1) * u' (k (n - 1)) - g 0 * u' (k 0) := by
  have hcc : Continuous fun x => spl2 n k g x * u'' x := (spl2_continuous hn hk).mul hc
  rw [← intervalIntegral.sum_integral_adjacent_intervals fun j _ => hcc.intervalIntegrable _ _,
    ← Finset.sum_range_sub (fun j => g j * u' (k j)) (n - 1)]
  refine sum_congr rfl fun j hj => ?_
  have hj' : j + 1 < n := by have := mem_range.1 hj; omega
  rw [← parts_piece hk hj' u u' u'' hu hu' hc (h0 j (by omega)) (h0 (j + 1) hj')]
  refine intervalIntegral.integral_congr fun x hx => ?_
  rw [Set.uIcc_of_le (hk j hj').le] at hx
  simp only [spl2_on hn hk hj' hx.1 hx.2]

/-- The spline has the least energy among the functions through the same points, if the boundary terms cancel. -/
theorem spl_least (hn : 2 ≤ n) (hk : Inc n k) (hj : ∀ i, i + 2 < n → Join k b g i) (f f' f'' : ℝ → ℝ)
    (hf : ∀ x, HasDerivAt f (f' x) x) (hf' : ∀ x, HasDerivAt f' (f'' x) x) (hc : Continuous f'') (h0 : ∀ i < n, f (k i) = b i)
    (hb : g (n - 1) * (f' (k (n - 1)) - spl1 n k b g (k (n - 1))) = g 0 * (f' (k 0) - spl1 n k b g (k 0))) :
    ∫ x in k 0..k (n - 1), f'' x ^ 2 =
      (∫ x in k 0..k (n - 1), spl2 n k g x ^ 2) + ∫ x in k 0..k (n - 1), (f'' x - spl2 n k g x) ^ 2 := by
  have h2 := spl2_continuous (g := g) hn hk
  have key := parts_spl (g := g) hn hk (fun x => f x - spl n k b g x) (fun x => f' x - spl1 n k b g x) (fun x => f'' x - spl2 n k g x)
    (fun x => (hf x).sub (spl_deriv hn hk hj x)) (fun x => (hf' x).sub (spl1_deriv hn hk hj x)) (hc.sub h2)
    (fun i hi => by simp only [h0 i hi, spl_knot hn hk hi, sub_self])
  simp only [hb, sub_self] at key
  have e : ∀ x, f'' x ^ 2 = spl2 n k g x ^ 2 + (f'' x - spl2 n k g x) ^ 2 + 2 * (spl2 n k g x * (f'' x - spl2 n k g x)) := fun x => by ring
  simp only [e]
  rw [intervalIntegral.integral_add, intervalIntegral.integral_add, intervalIntegral.integral_const_mul, key, mul_zero, add_zero]
  · exact (h2.pow 2).intervalIntegrable _ _
  · exact ((hc.sub h2).pow 2).intervalIntegrable _ _
  · exact ((h2.pow 2).add ((hc.sub h2).pow 2)).intervalIntegrable _ _
  · exact ((h2.mul (hc.sub h2)).const_mul 2).intervalIntegrable _ _

theorem energy_le (hn : 2 ≤ n) (hk : Inc n k) (f'' : ℝ → ℝ) : 0 ≤ ∫ x in k 0..k (n - 1), (f'' x - spl2 n k g x) ^ 2 :=
  intervalIntegral.integral_nonneg (hk.le (Nat.zero_le _) (by omega)) fun _ _ => sq_nonneg _

/-- The form of the energy is definite. -/
theorem form_nonneg (hk : Inc n k) (g : ℕ → ℝ) : 0 ≤ ∑ j ∈ range (n - 1), dif k j / 3 * (g j ^ 2 + g j * g (j + 1) + g (j + 1) ^ 2) := by
  refine sum_nonneg fun j hj => ?_
  have := gap_pos hk (i := j) (by have := mem_range.1 hj; omega)
  have : 0 ≤ g j ^ 2 + g j * g (j + 1) + g (j + 1) ^ 2 := by nlinarith [sq_nonneg (g j + g (j + 1)), sq_nonneg (g j), sq_nonneg (g (j + 1))]
  positivity

theorem form_zero (hn : 2 ≤ n) (hk : Inc n k) (g : ℕ → ℝ)
    (h : ∑ j ∈ range (n - 1), dif k j / 3 * (g j ^ 2 + g j * g (j + 1) + g (j + 1) ^ 2) = 0) : ∀ i < n, g i = 0 := by
  have hq : ∀ j, 0 ≤ g j ^ 2 + g j * g (j + 1) + g (j + 1) ^ 2 := fun j => by
    nlinarith [sq_nonneg (g j + g (j + 1)), sq_nonneg (g j), sq_nonneg (g (j + 1))]
  rw [sum_eq_zero_iff_of_nonneg] at h
  · have hz : ∀ j, j + 1 < n → g j = 0 ∧ g (j + 1) = 0 := by
      intro j hj
      have h1 := h j (mem_range.2 (by omega))
      have h2 := gap_pos hk hj
      have h3 : g j ^ 2 + g j * g (j + 1) + g (j + 1) ^ 2 = 0 := by
        rcases mul_eq_zero.1 h1 with h4 | h4
        · linarith
        · exact h4
      constructor
      · have : g j ^ 2 ≤ 0 := by nlinarith [sq_nonneg (g j + 2 * g (j + 1))]
        exact pow_eq_zero_iff two_ne_zero |>.1 (le_antisymm this (sq_nonneg _))
      · have : g (j + 1) ^ 2 ≤ 0 := by nlinarith [sq_nonneg (2 * g j + g (j + 1))]
        exact pow_eq_zero_iff two_ne_zero |>.1 (le_antisymm this (sq_nonneg _))
    intro i hi
    rcases Nat.eq_zero_or_pos i with h0 | h0
    · rw [h0]; exact (hz 0 (by omega)).1
    · have := (hz (i - 1) (by omega)).2
      rwa [show i - 1 + 1 = i by omega] at this
  · intro j hj
    have := gap_pos hk (i := j) (by have := mem_range.1 hj; omega)
    exact mul_nonneg (by positivity) (hq j)

end Verif.Spl
