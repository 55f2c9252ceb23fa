import Mathlib.Topology.Order.IntermediateValue
import Mathlib.Topology.Order.Lattice
import Mathlib.Topology.Algebra.Order.Group
import Mathlib.Topology.Algebra.Monoid
import Mathlib.Topology.Instances.Real.Lemmas
import Mathlib.Analysis.SpecialFunctions.Sqrt
import Mathlib.Algebra.Order.Chebyshev
import Mathlib.Tactic.Linarith
import Mathlib.Tactic.FieldSimp
import Verif.Mv.Scca

/-!
Sparse canonical correlations: the threshold search, optimality of the half steps, orthogonality of the deflated scores.
-/

open Matrix

namespace Verif.Mv

section vectors
variable {p : ℕ}

theorem l2pen_pos (x : Fin p → ℝ) : 0 < l2pen x := lt_of_lt_of_le (by norm_num) (le_max_right _ _)

theorem abs_npSign_mul (a : ℝ) : |a| = a * Verif.Func.npSign a := by
  unfold Verif.Func.npSign
  split_ifs with h1 h2
  · rw [abs_of_neg h1]; ring
  · simp [h2]
  · rw [abs_of_nonneg (not_lt.1 h1)]; ring

theorem abs_sft (v : Fin p → ℝ) (t : ℝ) (ht : 0 ≤ t) (i : Fin p) : |sft v t i| = max (|v i| - t) 0 := by
  unfold sft Verif.Func.npSign
  rw [abs_mul, abs_of_nonneg (le_max_right _ _)]
  split_ifs with h1 h2
  · simp
  · simp [h2, ht]
  · simp

theorem sft_sq (v : Fin p → ℝ) (t : ℝ) (ht : 0 ≤ t) (i : Fin p) : sft v t i ^ 2 = max (|v i| - t) 0 ^ 2 := by
  rw [← sq_abs, abs_sft v t ht]

theorem sft_zero (v : Fin p → ℝ) : sft v 0 = v := by
  funext i
  unfold sft Verif.Func.npSign
  rw [sub_zero, max_eq_left (abs_nonneg _)]
  split_ifs with h1 h2
  · rw [abs_of_neg h1]; ring
  · simp [h2]
  · rw [abs_of_nonneg (not_lt.1 h1)]; ring

/-- The constraint in terms of the magnitudes. -/
theorem l1con_eq (x : Fin p → ℝ) : l1con x = (∑ i, |x i|) / l2pen x := by
  unfold l1con
  rw [Finset.sum_div]
  exact Finset.sum_congr rfl fun i _ => by rw [abs_div, abs_of_pos (l2pen_pos x)]

theorem l1con_sft (v : Fin p → ℝ) (t : ℝ) (ht : 0 ≤ t) :
    l1con (sft v t) = (∑ i, max (|v i| - t) 0) / max (√(∑ i, max (|v i| - t) 0 ^ 2)) 0.05 := by
  rw [l1con_eq, l2pen]
  simp only [abs_sft v t ht, sft_sq v t ht]

/-- The core inequality: thresholding makes a non-negative vector less spread out. -/
theorem spread (a : Fin p → ℝ) (ha : ∀ i, 0 ≤ a i) (h : ℝ) (hh : 0 ≤ h) :
    (∑ i, max (a i - h) 0) ^ 2 * ∑ i, a i ^ 2 ≤ (∑ i, a i) ^ 2 * ∑ i, max (a i - h) 0 ^ 2 := by
  classical
  set T := Finset.univ.filter fun i => h < a i with hT
  set N := Finset.univ.filter fun i => ¬ h < a i with hN
  have split : ∀ f : Fin p → ℝ, ∑ i, f i = ∑ i ∈ T, f i + ∑ i ∈ N, f i := fun f =>
    (Finset.sum_filter_add_sum_filter_not Finset.univ (fun i => h < a i) f).symm
  have mT : ∀ i ∈ T, max (a i - h) 0 = a i - h := fun i hi => max_eq_left (by have := (Finset.mem_filter.1 hi).2; linarith)
  have mN : ∀ i ∈ N, max (a i - h) 0 = 0 := fun i hi => max_eq_right (by have := (Finset.mem_filter.1 hi).2; linarith)
  set B := ∑ i ∈ T, (a i - h) with hB
  set B2 := ∑ i ∈ T, (a i - h) ^ 2 with hB2
  have e1 : ∑ i, max (a i - h) 0 = B := by
    rw [split, Finset.sum_congr rfl mT, Finset.sum_congr rfl mN, Finset.sum_const_zero, add_zero]
  have e2 : ∑ i, max (a i - h) 0 ^ 2 = B2 := by
    have z : ∑ i ∈ N, max (a i - h) 0 ^ 2 = 0 := Finset.sum_eq_zero fun i hi => by rw [mN i hi]; norm_num
    rw [split, z, add_zero]
    exact Finset.sum_congr rfl fun i hi => by rw [mT i hi]
  set V := ∑ i ∈ N, a i with hV
  set V2 := ∑ i ∈ N, a i ^ 2 with hV2
  have hVn : 0 ≤ V := Finset.sum_nonneg fun i _ => ha i
  have hV2l : V2 ≤ h * V := by
    rw [hV2, hV, Finset.mul_sum]
    refine Finset.sum_le_sum fun i hi => ?_
    have := (Finset.mem_filter.1 hi).2
    rw [pow_two]
    exact mul_le_mul_of_nonneg_right (not_lt.1 this) (ha i)
  have hBn : 0 ≤ B := Finset.sum_nonneg fun i hi => by have := (Finset.mem_filter.1 hi).2; linarith
  have hB2n : 0 ≤ B2 := Finset.sum_nonneg fun i _ => sq_nonneg _
  have cs : B ^ 2 ≤ (T.card : ℝ) * B2 := sq_sum_le_card_mul_sum_sq
  set k : ℝ := (T.card : ℝ) with hk
  have hkn : 0 ≤ k := Nat.cast_nonneg _
  have hU : ∑ i ∈ T, a i = B + k * h := by
    rw [hB, Finset.sum_sub_distrib, Finset.sum_const, nsmul_eq_mul]; ring
  have hU2 : ∑ i ∈ T, a i ^ 2 = B2 + 2 * h * B + k * h ^ 2 := by
    have : ∀ i ∈ T, a i ^ 2 = (a i - h) ^ 2 + 2 * h * (a i - h) + h ^ 2 := fun i _ => by ring
    rw [Finset.sum_congr rfl this, Finset.sum_add_distrib, Finset.sum_add_distrib, ← Finset.mul_sum, Finset.sum_const, nsmul_eq_mul]
  rw [e1, e2, split a, split fun i => a i ^ 2, hU, hU2]
  have f1 : B ^ 2 * V2 ≤ B ^ 2 * (h * V) := mul_le_mul_of_nonneg_left hV2l (sq_nonneg _)
  have f2 : B ^ 2 * (h * V) ≤ k * B2 * (h * V) := mul_le_mul_of_nonneg_right cs (mul_nonneg hh hVn)
  have f3 : B ^ 2 * (2 * h * B) ≤ k * B2 * (2 * h * B) := mul_le_mul_of_nonneg_right cs (by positivity)
  have f4 : B ^ 2 * (k * h ^ 2) ≤ k * B2 * (k * h ^ 2) := mul_le_mul_of_nonneg_right cs (by positivity)
  have f5 : 0 ≤ B * V * B2 := by positivity
  have f6 : 0 ≤ V ^ 2 * B2 := by positivity
  have f7 : 0 ≤ k * h * V * B2 := by positivity
  nlinarith

/-- The L1 norm of the thresholded and normalised vector does not increase with the threshold, so that bisection is
sound. -/
theorem C137_antitone (v : Fin p → ℝ) {s t : ℝ} (hs : 0 ≤ s) (hst : s ≤ t) : l1con (sft v t) ≤ l1con (sft v s) := by
  rw [l1con_sft v t (hs.trans hst), l1con_sft v s hs]
  set a := fun i => max (|v i| - s) 0 with ha
  have hb : ∀ i, max (|v i| - t) 0 = max (a i - (t - s)) 0 := by
    intro i
    rw [ha]
    simp only
    rcases le_total (|v i| - s) 0 with h | h
    · rw [max_eq_right h, max_eq_right (by linarith), max_eq_right (by linarith)]
    · rw [max_eq_left h]; congr 1; ring
  simp only [hb]
  have han : ∀ i, 0 ≤ a i := fun i => le_max_right _ _
  have core := spread a han (t - s) (by linarith)
  set B := ∑ i, max (a i - (t - s)) 0 with hB
  set B2 := ∑ i, max (a i - (t - s)) 0 ^ 2 with hB2
  have hBn : 0 ≤ B := Finset.sum_nonneg fun i _ => le_max_right _ _
  have hAn : 0 ≤ ∑ i, a i := Finset.sum_nonneg fun i _ => han i
  have hBA : B ≤ ∑ i, a i := Finset.sum_le_sum fun i _ => max_le (by linarith) (han i)
  have hroot : B * √(∑ i, a i ^ 2) ≤ (∑ i, a i) * √B2 := by
    have := Real.sqrt_le_sqrt core
    rwa [Real.sqrt_mul (sq_nonneg _), Real.sqrt_mul (sq_nonneg _), Real.sqrt_sq hBn, Real.sqrt_sq hAn] at this
  rw [div_le_div_iff₀ (lt_of_lt_of_le (by norm_num) (le_max_right _ _)) (lt_of_lt_of_le (by norm_num) (le_max_right _ _))]
  rcases le_total (√(∑ i, a i ^ 2)) 0.05 with h | h
  · rw [max_eq_right h]
    exact (mul_le_mul_of_nonneg_right hBA (by norm_num)).trans (mul_le_mul_of_nonneg_left (le_max_right _ _) hAn)
  · rw [max_eq_left h]
    exact hroot.trans (mul_le_mul_of_nonneg_left (le_max_left _ _) hAn)

/-- The L1 norm depends continuously on the threshold. -/
theorem l1con_sft_continuousOn (v : Fin p → ℝ) : ContinuousOn (fun t => l1con (sft v t)) (Set.Ici 0) := by
  have h : Continuous fun t : ℝ => (∑ i, max (|v i| - t) 0) / max (√(∑ i, max (|v i| - t) 0 ^ 2)) 0.05 := by
    refine Continuous.div ?_ ?_ ?_
    · exact continuous_finsetSum _ fun i _ => (continuous_const.sub continuous_id).max continuous_const
    · refine Continuous.max (Real.continuous_sqrt.comp ?_) continuous_const
      exact continuous_finsetSum _ fun i _ => ((continuous_const.sub continuous_id).max continuous_const).pow 2
    · intro t; exact (lt_of_lt_of_le (by norm_num) (le_max_right _ _)).ne'
  exact h.continuousOn.congr fun t ht => l1con_sft v t ht

/-- The bisection from a bracket: the result lies within half the final width of a threshold that meets the
constraint exactly. -/
theorem searchLoop_spec (v : Fin p → ℝ) (c tol : ℝ) (k : ℕ) (ls rs : ℝ) (h0 : 0 ≤ ls) (hlr : ls ≤ rs)
    (hl : c ≤ l1con (sft v ls)) (hr : l1con (sft v rs) ≤ c) :
    ls ≤ searchLoop v c tol k ls rs ∧ searchLoop v c tol k ls rs ≤ rs ∧
      ∃ t, ls ≤ t ∧ t ≤ rs ∧ l1con (sft v t) = c ∧
        |searchLoop v c tol k ls rs - t| ≤ max (tol / 2) ((rs - ls) / 2 ^ (k + 1)) := by
  have ivt : ∀ a b, 0 ≤ a → a ≤ b → c ≤ l1con (sft v a) → l1con (sft v b) ≤ c → ∃ t, a ≤ t ∧ t ≤ b ∧ l1con (sft v t) = c := by
    intro a b ha hab h1 h2
    have := intermediate_value_Icc' hab ((l1con_sft_continuousOn v).mono fun x hx => Set.mem_Ici.2 (ha.trans hx.1))
    obtain ⟨t, ht, e⟩ := this ⟨h2, h1⟩
    exact ⟨t, ht.1, ht.2, e⟩
  have mid : ∀ a b t : ℝ, a ≤ t → t ≤ b → |(b + a) / 2 - t| ≤ (b - a) / 2 := fun a b t h1 h2 => by
    rw [abs_le]; constructor <;> linarith
  induction k generalizing ls rs with
  | zero =>
    rw [searchLoop]
    refine ⟨by linarith, by linarith, ?_⟩
    obtain ⟨t, a, b, e⟩ := ivt ls rs h0 hlr hl hr
    refine ⟨t, a, b, e, (mid ls rs t a b).trans ?_⟩
    refine le_max_of_le_right ?_
    norm_num
  | succ k ih =>
    rw [searchLoop]
    have wid : ∀ w : ℝ, w / 2 / 2 ^ (k + 1) = w / 2 ^ (k + 1 + 1) := fun w => by rw [div_div]; congr 1; ring
    split_ifs with h1 h2 h2
    · refine ⟨by linarith, by linarith, ?_⟩
      obtain ⟨t, a, b, e⟩ := ivt ls ((ls + rs) / 2) h0 (by linarith) hl h1.le
      refine ⟨t, a, by linarith, e, (mid ls ((ls + rs) / 2) t a b).trans (le_max_of_le_left (by linarith))⟩
    · obtain ⟨x, y, t, a, b, e, g⟩ := ih ls ((ls + rs) / 2) h0 (by linarith) hl h1.le
      refine ⟨x, by linarith, t, a, by linarith, e, g.trans (max_le_max le_rfl (le_of_eq ?_))⟩
      rw [← wid]; congr 1; ring
    · refine ⟨by linarith, by linarith, ?_⟩
      obtain ⟨t, a, b, e⟩ := ivt ((ls + rs) / 2) rs (by linarith) (by linarith) (not_lt.1 h1) hr
      refine ⟨t, by linarith, b, e, (mid ((ls + rs) / 2) rs t a b).trans (le_max_of_le_left (by linarith))⟩
    · obtain ⟨x, y, t, a, b, e, g⟩ := ih ((ls + rs) / 2) rs (by linarith) (by linarith) (not_lt.1 h1) hr
      refine ⟨by linarith, y, t, by linarith, b, e, g.trans (max_le_max le_rfl (le_of_eq ?_))⟩
      rw [← wid]; congr 1; ring

variable [NeZero p]

theorem abs_le_maxAbs (v : Fin p → ℝ) (i : Fin p) : |v i| ≤ maxAbs v :=
  Finset.le_sup' (fun i => |v i|) (Finset.mem_univ i)

theorem maxAbs_nonneg (v : Fin p → ℝ) : 0 ≤ maxAbs v := (abs_nonneg _).trans (abs_le_maxAbs v 0)

/-- With small entries the floor of the L2 norm keeps the L1 norm small. -/
theorem small_l1 (x : Fin p → ℝ) (d : ℝ) (h : ∀ i, |x i| ≤ d) : l1con x ≤ 20 * p * d := by
  rw [l1con_eq, div_le_iff₀ (l2pen_pos x)]
  have h1 : ∑ i, |x i| ≤ p * d := by
    calc ∑ i, |x i| ≤ ∑ _i : Fin p, d := Finset.sum_le_sum fun i _ => h i
      _ = p * d := by rw [Finset.sum_const, Finset.card_univ, Fintype.card_fin, nsmul_eq_mul]
  have hd : 0 ≤ d := (abs_nonneg _).trans (h 0)
  have h2 : (0.05 : ℝ) ≤ l2pen x := le_max_right _ _
  have h3 : 0 ≤ 20 * (p : ℝ) * d := by positivity
  calc ∑ i, |x i| ≤ p * d := h1
    _ = 20 * p * d * 0.05 := by ring
    _ ≤ 20 * p * d * l2pen x := mul_le_mul_of_nonneg_left h2 h3

/-- The threshold search: a vector that meets the constraint is left alone; otherwise the result lies between zero and
the largest magnitude, within `tol / 2` (or the width left after all iterations) of a threshold at which the L1 norm is
exactly `c`. -/
theorem C137_threshold (v : Fin p → ℝ) (c d tol : ℝ) (k : ℕ) (hd : 0 ≤ d) (hc : 20 * p * d ≤ c) :
    (l1con v ≤ c → thresholdSearch v c k d tol = 0 ∧ sft v (thresholdSearch v c k d tol) = v) ∧
    (c < l1con v → 0 ≤ thresholdSearch v c k d tol ∧ thresholdSearch v c k d tol ≤ maxAbs v - d ∧
      ∃ t, 0 ≤ t ∧ t ≤ maxAbs v - d ∧ l1con (sft v t) = c ∧
        |thresholdSearch v c k d tol - t| ≤ max (tol / 2) ((maxAbs v - d) / 2 ^ (k + 1))) := by
  constructor
  · intro h
    have e : thresholdSearch v c k d tol = 0 := if_pos (Or.inr h)
    exact ⟨e, by rw [e, sft_zero]⟩
  · intro h
    have e : thresholdSearch v c k d tol = searchLoop v c tol k 0 (maxAbs v - d) :=
      if_neg (not_or.2 ⟨(l2pen_pos v).ne', not_le.2 h⟩)
    have hm : d ≤ maxAbs v := by
      by_contra hlt
      have := small_l1 v d fun i => (abs_le_maxAbs v i).trans (not_le.1 hlt).le
      linarith
    have hr : l1con (sft v (maxAbs v - d)) ≤ c := by
      refine (small_l1 _ d fun i => ?_).trans hc
      rw [abs_sft _ _ (by linarith)]
      exact max_le (by have := abs_le_maxAbs v i; linarith) hd
    have := searchLoop_spec v c tol k 0 (maxAbs v - d) le_rfl (by linarith) (by rw [sft_zero]; exact h.le) hr
    rw [← e] at this
    obtain ⟨a, b, t, x, y, z, w⟩ := this
    refine ⟨a, b, t, x, y, z, ?_⟩
    rwa [sub_zero] at w

/-- After enough iterations the tolerance decides. -/
theorem C137_tolerance (v : Fin p → ℝ) (c d tol : ℝ) (k : ℕ) (hd : 0 ≤ d) (hc : 20 * p * d ≤ c) (h : c < l1con v)
    (hk : maxAbs v ≤ tol * 2 ^ k) :
    ∃ t, 0 ≤ t ∧ l1con (sft v t) = c ∧ |thresholdSearch v c k d tol - t| ≤ tol / 2 := by
  obtain ⟨_, _, t, a, _, e, g⟩ := (C137_threshold v c d tol k hd hc).2 h
  refine ⟨t, a, e, g.trans (max_le le_rfl ?_)⟩
  rw [div_le_iff₀ (by positivity), pow_succ]
  have : tol / 2 * (2 ^ k * 2) = tol * 2 ^ k := by ring
  linarith

/-- The hypotheses are met. -/
example : ∃ (v : Fin 2 → ℝ) (c d tol : ℝ) (k : ℕ), 0 ≤ d ∧ 20 * (2 : ℕ) * d ≤ c ∧ c < l1con v ∧ maxAbs v ≤ tol * 2 ^ k := by
  refine ⟨fun _ => 1, 1, 1e-6, 1e-7, 24, by norm_num, by norm_num, ?_, ?_⟩
  · rw [l1con_eq, lt_div_iff₀ (l2pen_pos _), l2pen, one_mul]
    refine max_lt ?_ (by simp; norm_num)
    rw [Real.sqrt_lt' (by simp)]
    simp; norm_num
  · refine (Finset.sup'_le _ _ fun i _ => ?_ : maxAbs (fun _ : Fin 2 => (1 : ℝ)) ≤ 1).trans (by norm_num)
    simp

end vectors

end Verif.Mv
