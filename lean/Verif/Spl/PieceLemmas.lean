import Verif.Spl.Cubic
import Mathlib.Analysis.Calculus.Deriv.Pow
import Mathlib.Analysis.Calculus.Deriv.Mul
import Mathlib.Analysis.Calculus.Deriv.Add
import Mathlib.MeasureTheory.Integral.IntervalIntegral.FundThmCalculus
import Mathlib.MeasureTheory.Integral.IntervalIntegral.IntegrationByParts
import Mathlib.Tactic.FieldSimp
import Mathlib.Tactic.Linarith
/-!
# Piecewise cubics through given values and second derivatives at the knots
-/
namespace Verif.Spl
open Finset Filter Topology

/-- The knots increase. -/
def Inc (n : ℕ) (k : ℕ → ℝ) : Prop := ∀ i, i + 1 < n → k i < k (i + 1)

/-- The cubic with values `b j`, `b (j + 1)` and second derivatives `g j`, `g (j + 1)` at the ends of interval `j`. -/
noncomputable def piece (k b g : ℕ → ℝ) (j : ℕ) (x : ℝ) : ℝ :=
  (x - k j) / dif k j * b (j + 1) + (k (j + 1) - x) / dif k j * b j +
    ((x - k j) ^ 3 / dif k j - dif k j * (x - k j)) / 6 * g (j + 1) +
    ((k (j + 1) - x) ^ 3 / dif k j - dif k j * (k (j + 1) - x)) / 6 * g j

/-- Its derivative. -/
noncomputable def piece1 (k b g : ℕ → ℝ) (j : ℕ) (x : ℝ) : ℝ :=
  (b (j + 1) - b j) / dif k j + (3 * (x - k j) ^ 2 / dif k j - dif k j) / 6 * g (j + 1) -
    (3 * (k (j + 1) - x) ^ 2 / dif k j - dif k j) / 6 * g j

/-- Its second derivative. -/
noncomputable def piece2 (k g : ℕ → ℝ) (j : ℕ) (x : ℝ) : ℝ := (x - k j) / dif k j * g (j + 1) + (k (j + 1) - x) / dif k j * g j

variable {n : ℕ} {k b g : ℕ → ℝ}

theorem piece_deriv (k b g : ℕ → ℝ) (j : ℕ) (x : ℝ) : HasDerivAt (piece k b g j) (piece1 k b g j x) x := by
  have h1 : HasDerivAt (fun x => x - k j) 1 x := (hasDerivAt_id x).sub_const _
  have h2 : HasDerivAt (fun x => k (j + 1) - x) (-1) x := (hasDerivAt_id x).const_sub _
  have h := ((((h1.div_const (dif k j)).mul_const (b (j + 1))).add ((h2.div_const (dif k j)).mul_const (b j))).add
    (((((h1.pow 3).div_const (dif k j)).sub (h1.const_mul (dif k j))).div_const 6).mul_const (g (j + 1)))).add
    (((((h2.pow 3).div_const (dif k j)).sub (h2.const_mul (dif k j))).div_const 6).mul_const (g j))
  refine (h.congr_deriv ?_)
  unfold piece1
  push_cast
  ring

theorem piece1_deriv (k b g : ℕ → ℝ) (j : ℕ) (x : ℝ) : HasDerivAt (piece1 k b g j) (piece2 k g j x) x := by
  have h1 : HasDerivAt (fun x => x - k j) 1 x := (hasDerivAt_id x).sub_const _
  have h2 : HasDerivAt (fun x => k (j + 1) - x) (-1) x := (hasDerivAt_id x).const_sub _
  have h := ((hasDerivAt_const x ((b (j + 1) - b j) / dif k j)).add
    ((((((h1.pow 2).const_mul 3).div_const (dif k j)).sub_const (dif k j)).div_const 6).mul_const (g (j + 1)))).sub
    ((((((h2.pow 2).const_mul 3).div_const (dif k j)).sub_const (dif k j)).div_const 6).mul_const (g j))
  refine (h.congr_deriv ?_)
  unfold piece2
  push_cast
  ring

theorem gap_pos (hk : Inc n k) {i : ℕ} (hi : i + 1 < n) : 0 < dif k i := sub_pos.2 (hk i hi)

theorem Inc.lt (hk : Inc n k) {i j : ℕ} (hij : i < j) (hj : j < n) : k i < k j := by
  induction j with
  | zero => omega
  | succ j ih =>
    rcases Nat.lt_succ_iff_lt_or_eq.1 hij with h | h
    · exact (ih h (by omega)).trans (hk j hj)
    · rw [h]; exact hk j hj

theorem Inc.le (hk : Inc n k) {i j : ℕ} (hij : i ≤ j) (hj : j < n) : k i ≤ k j := by
  rcases hij.lt_or_eq with h | h
  · exact (hk.lt h hj).le
  · rw [h]

theorem piece_left (hk : Inc n k) {j : ℕ} (hj : j + 1 < n) : piece k b g j (k j) = b j := by
  have h := (gap_pos hk hj).ne'
  have e : k (j + 1) - k j = dif k j := rfl
  unfold piece
  rw [e]
  field_simp
  ring

theorem piece_right (hk : Inc n k) {j : ℕ} (hj : j + 1 < n) : piece k b g j (k (j + 1)) = b (j + 1) := by
  have h := (gap_pos hk hj).ne'
  have e : k (j + 1) - k j = dif k j := rfl
  unfold piece
  rw [e]
  field_simp
  ring

theorem piece1_left (hk : Inc n k) {j : ℕ} (hj : j + 1 < n) :
    piece1 k b g j (k j) = (b (j + 1) - b j) / dif k j - dif k j / 6 * g (j + 1) - dif k j / 3 * g j := by
  have h := (gap_pos hk hj).ne'
  have e : k (j + 1) - k j = dif k j := rfl
  unfold piece1
  rw [e]
  field_simp
  ring

theorem piece1_right (hk : Inc n k) {j : ℕ} (hj : j + 1 < n) :
    piece1 k b g j (k (j + 1)) = (b (j + 1) - b j) / dif k j + dif k j / 3 * g (j + 1) + dif k j / 6 * g j := by
  have h := (gap_pos hk hj).ne'
  have e : k (j + 1) - k j = dif k j := rfl
  unfold piece1
  rw [e]
  field_simp
  ring

theorem piece2_left (hk : Inc n k) {j : ℕ} (hj : j + 1 < n) : piece2 k g j (k j) = g j := by
  have h := (gap_pos hk hj).ne'
  have e : k (j + 1) - k j = dif k j := rfl
  unfold piece2
  rw [e]
  field_simp
  ring

theorem piece2_right (hk : Inc n k) {j : ℕ} (hj : j + 1 < n) : piece2 k g j (k (j + 1)) = g (j + 1) := by
  have h := (gap_pos hk hj).ne'
  have e : k (j + 1) - k j = dif k j := rfl
  unfold piece2
  rw [e]
  field_simp
  ring

/-- The equation of the second derivatives at knot `i + 1`. -/
def Join (k b g : ℕ → ℝ) (i : ℕ) : Prop :=
  dif k i / 6 * g i + (dif k i + dif k (i + 1)) / 3 * g (i + 1) + dif k (i + 1) / 6 * g (i + 2) =
    (b (i + 2) - b (i + 1)) / dif k (i + 1) - (b (i + 1) - b i) / dif k i

/-- It says that the first derivatives agree there. -/
theorem join_iff (hk : Inc n k) {i : ℕ} (hi : i + 2 < n) :
    Join k b g i ↔ piece1 k b g i (k (i + 1)) = piece1 k b g (i + 1) (k (i + 1)) := by
  rw [piece1_right hk (by omega), piece1_left hk hi, Join]
  constructor <;> intro h <;> linarith

/-! ## The interval of a point -/

theorem ss_eq (hk : Inc n k) {x : ℝ} {s : ℕ} (hs : s ≤ n) (h1 : ∀ i, i < s → k i < x) (h2 : ∀ i, s ≤ i → i < n → x ≤ k i) :
    searchsorted n k x = s := by
  unfold searchsorted
  have : (range n).filter (fun i => k i < x) = range s := by
    ext i
    simp only [mem_filter, mem_range]
    constructor
    · rintro ⟨a, c⟩
      by_contra hc
      exact absurd c (not_lt.2 (h2 i (by omega) a))
    · intro a; exact ⟨by omega, h1 i a⟩
  rw [this, card_range]

/-- Left of the second knot. -/
theorem idx_first (hn : 2 ≤ n) (hk : Inc n k) {x : ℝ} (hx : x ≤ k 1) : crIdx n k x = 0 := by
  unfold crIdx
  rcases le_or_gt x (k 0) with h | h
  · rw [ss_eq hk (s := 0) (by omega) (by omega) fun i _ hi => h.trans (hk.le (Nat.zero_le i) hi)]; simp
  · rw [ss_eq hk (s := 1) (by omega) (fun i hi => by rw [Nat.lt_one_iff.1 hi]; exact h)
      fun i hi hi' => hx.trans (hk.le hi hi')]
    simp only [one_ne_zero, if_false]
    split_ifs <;> omega

/-- Right of the last but one. -/
theorem idx_last (hn : 2 ≤ n) (hk : Inc n k) {x : ℝ} (hx : k (n - 2) < x) : crIdx n k x = n - 2 := by
  unfold crIdx
  rcases le_or_gt x (k (n - 1)) with h | h
  · rw [ss_eq hk (s := n - 1) (by omega) (fun i hi => (hk.le (by omega) (by omega)).trans_lt hx) fun i hi hi' => by
      rw [show i = n - 1 by omega]; exact h]
    simp only []
    split_ifs <;> omega
  · rw [ss_eq hk (s := n) (by omega) (fun i hi => (hk.le (by omega) (by omega)).trans_lt h) fun i hi hi' => by omega]
    simp only []
    split_ifs <;> omega

/-- In between. -/
theorem idx_mid (hk : Inc n k) {x : ℝ} {j : ℕ} (hj : j + 1 < n) (h1 : k j < x) (h2 : x ≤ k (j + 1)) : crIdx n k x = j := by
  unfold crIdx
  rw [ss_eq hk (s := j + 1) (by omega) (fun i hi => (hk.le (by omega) (by omega)).trans_lt h1)
    fun i hi hi' => h2.trans (hk.le hi hi')]
  simp only [Nat.succ_ne_zero, if_false]
  split_ifs <;> omega

/-- Every point: the index and how it is found. -/
theorem idx_cases (hn : 2 ≤ n) (hk : Inc n k) (x : ℝ) : ∃ j, j + 1 < n ∧ crIdx n k x = j ∧ (j = 0 ∨ k j < x) ∧ (j + 2 = n ∨ x ≤ k (j + 1)) := by
  rcases le_or_gt x (k 1) with h | h
  · exact ⟨0, by omega, idx_first hn hk h, Or.inl rfl, Or.inr h⟩
  rcases lt_or_ge (k (n - 2)) x with h' | h'
  · refine ⟨n - 2, by omega, idx_last hn hk h', Or.inr h', Or.inl (by omega)⟩
  have key : ∀ m, m + 1 < n → x ≤ k (m + 1) → k 1 < x → ∃ j, j + 1 < n ∧ k j < x ∧ x ≤ k (j + 1) := by
    intro m
    induction m with
    | zero => intro _ h1 h2; exact absurd h1 (not_le.2 h2)
    | succ m ih =>
      intro hm h1 h2
      rcases le_or_gt x (k (m + 1)) with h3 | h3
      · exact ih (by omega) h3 h2
      · exact ⟨m + 1, hm, h3, h1⟩
  have hn3 : 3 ≤ n := by
    by_contra hc
    have : n = 2 := by omega
    rw [this] at h'
    have := hk 0 (by omega)
    simp at h' this
    linarith
  obtain ⟨j, hj, h1, h2⟩ := key (n - 3) (by omega) (by rw [show n - 3 + 1 = n - 2 by omega]; exact h') h
  exact ⟨j, hj, idx_mid hk hj h1 h2, Or.inr h1, Or.inr h2⟩

/-- The index to the left and to the right of a point. -/
theorem idx_near (hn : 2 ≤ n) (hk : Inc n k) (x : ℝ) : ∃ j, j + 1 < n ∧ (∀ᶠ y in 𝓝[≤] x, crIdx n k y = j) ∧
    ((∀ᶠ y in 𝓝[>] x, crIdx n k y = j) ∨ (j + 2 < n ∧ x = k (j + 1) ∧ ∀ᶠ y in 𝓝[>] x, crIdx n k y = j + 1)) := by
  obtain ⟨j, hj, he, h1, h2⟩ := idx_cases hn hk x
  have low : ∀ᶠ y in 𝓝 x, j = 0 ∨ k j < y := by
    rcases h1 with h1 | h1
    · exact Eventually.of_forall fun _ => Or.inl h1
    · filter_upwards [eventually_gt_nhds h1] with y hy using Or.inr hy
  have pick : ∀ y, (j = 0 ∨ k j < y) → (j + 2 = n ∨ y ≤ k (j + 1)) → crIdx n k y = j := by
    intro y a c
    rcases c with c | c
    · rcases a with a | a
      · rcases le_or_gt y (k 1) with d | d
        · rw [idx_first hn hk d, a]
        · rw [idx_last hn hk ((hk.lt (by omega) (by omega)).trans d)]; omega
      · rw [idx_last hn hk (by rw [show n - 2 = j by omega]; exact a)]; omega
    · rcases a with a | a
      · rw [idx_first hn hk (by rw [a] at c; exact c), a]
      · exact idx_mid hk hj a c
  refine ⟨j, hj, ?_, ?_⟩
  · filter_upwards [low.filter_mono nhdsWithin_le_nhds, self_mem_nhdsWithin] with y a c
    exact pick y a (h2.imp id fun h => le_trans c h)
  · rcases h2 with h2 | h2
    · left
      filter_upwards [low.filter_mono nhdsWithin_le_nhds] with y a using pick y a (Or.inl h2)
    · rcases h2.lt_or_eq with h3 | h3
      · left
        filter_upwards [low.filter_mono nhdsWithin_le_nhds, (eventually_lt_nhds h3).filter_mono nhdsWithin_le_nhds] with y a c
        exact pick y a (Or.inr c.le)
      · by_cases h4 : j + 2 = n
        · left
          filter_upwards [low.filter_mono nhdsWithin_le_nhds] with y a using pick y a (Or.inl h4)
        · right
          refine ⟨by omega, h3, ?_⟩
          have h5 : x < k (j + 2) := by rw [h3]; exact hk _ (by omega)
          filter_upwards [self_mem_nhdsWithin, (eventually_lt_nhds h5).filter_mono nhdsWithin_le_nhds] with y a c
          exact idx_mid hk (by omega) (by rw [← h3]; exact a) c.le

/-! ## Gluing the pieces -/

/-- The spline. -/
noncomputable def spl (n : ℕ) (k b g : ℕ → ℝ) (x : ℝ) : ℝ := piece k b g (crIdx n k x) x
/-- Its first derivative. -/
noncomputable def spl1 (n : ℕ) (k b g : ℕ → ℝ) (x : ℝ) : ℝ := piece1 k b g (crIdx n k x) x
/-- Its second derivative. -/
noncomputable def spl2 (n : ℕ) (k g : ℕ → ℝ) (x : ℝ) : ℝ := piece2 k g (crIdx n k x) x

theorem glue {P : ℕ → ℝ → ℝ} {P' : ℕ → ℝ → ℝ} (hn : 2 ≤ n) (hk : Inc n k) (hP : ∀ j x, HasDerivAt (P j) (P' j x) x)
    (h0 : ∀ j, j + 2 < n → P j (k (j + 1)) = P (j + 1) (k (j + 1)))
    (h1 : ∀ j, j + 2 < n → P' j (k (j + 1)) = P' (j + 1) (k (j + 1))) (x : ℝ) :
    HasDerivAt (fun y => P (crIdx n k y) y) (P' (crIdx n k x) x) x := by
  obtain ⟨j, hj, hl, hr⟩ := idx_near hn hk x
  have hx : crIdx n k x = j := hl.self_of_nhdsWithin (Set.mem_Iic.2 le_rfl)
  have left : HasDerivWithinAt (fun y => P (crIdx n k y) y) (P' j x) (Set.Iic x) x := by
    refine (hP j x).hasDerivWithinAt.congr_of_eventuallyEq ?_ (by rw [hx])
    filter_upwards [hl] with y hy; rw [hy]
  have right : HasDerivWithinAt (fun y => P (crIdx n k y) y) (P' j x) (Set.Ioi x) x := by
    rcases hr with hr | ⟨h2, h3, hr⟩
    · refine (hP j x).hasDerivWithinAt.congr_of_eventuallyEq ?_ (by rw [hx])
      filter_upwards [hr] with y hy; rw [hy]
    · have := (hP (j + 1) x).hasDerivWithinAt (s := Set.Ioi x)
      rw [h3, ← h1 j h2, ← h3] at this
      refine this.congr_of_eventuallyEq ?_ (by rw [hx, h3, h0 j h2])
      filter_upwards [hr] with y hy; rw [hy]
  rw [hx]
  have := left.union right
  rwa [Set.Iic_union_Ioi, hasDerivWithinAt_univ] at this

theorem spl_deriv (hn : 2 ≤ n) (hk : Inc n k) (hj : ∀ i, i + 2 < n → Join k b g i) (x : ℝ) :
    HasDerivAt (spl n k b g) (spl1 n k b g x) x :=
  glue hn hk (piece_deriv k b g) (fun j h => by rw [piece_right hk (by omega), piece_left hk h])
    (fun j h => (join_iff hk h).1 (hj j h)) x

theorem spl1_deriv (hn : 2 ≤ n) (hk : Inc n k) (hj : ∀ i, i + 2 < n → Join k b g i) (x : ℝ) :
    HasDerivAt (spl1 n k b g) (spl2 n k g x) x :=
  glue hn hk (piece1_deriv k b g) (fun j h => (join_iff hk h).1 (hj j h))
    (fun j h => by rw [piece2_right hk (by omega), piece2_left hk h]) x

/-- The derivative of `piece2`, a constant. -/
noncomputable def piece3 (k g : ℕ → ℝ) (j : ℕ) : ℝ := (g (j + 1) - g j) / dif k j

theorem piece2_deriv (k g : ℕ → ℝ) (j : ℕ) (x : ℝ) : HasDerivAt (piece2 k g j) (piece3 k g j) x := by
  have h1 : HasDerivAt (fun x => x - k j) 1 x := (hasDerivAt_id x).sub_const _
  have h2 : HasDerivAt (fun x => k (j + 1) - x) (-1) x := (hasDerivAt_id x).const_sub _
  refine (((h1.div_const (dif k j)).mul_const (g (j + 1))).add ((h2.div_const (dif k j)).mul_const (g j))).congr_deriv ?_
  unfold piece3
  ring

theorem spl2_continuous (hn : 2 ≤ n) (hk : Inc n k) : Continuous (spl2 n k g) := by
  rw [continuous_iff_continuousAt]
  intro x
  obtain ⟨j, hj, hl, hr⟩ := idx_near hn hk x
  have hx : crIdx n k x = j := hl.self_of_nhdsWithin (Set.mem_Iic.2 le_rfl)
  have hc : ∀ j, ContinuousAt (piece2 k g j) x := fun j => (piece2_deriv k g j x).continuousAt
  rw [continuousAt_iff_continuous_left'_right']
  constructor
  · refine (hc j).continuousWithinAt.congr_of_eventuallyEq ?_ (by rw [spl2, hx])
    filter_upwards [hl.filter_mono (nhdsWithin_mono x Set.Iio_subset_Iic_self)] with y hy; rw [spl2, hy]
  · rcases hr with hr | ⟨h2, h3, hr⟩
    · refine (hc j).continuousWithinAt.congr_of_eventuallyEq ?_ (by rw [spl2, hx])
      filter_upwards [hr] with y hy; rw [spl2, hy]
    · refine (hc (j + 1)).continuousWithinAt.congr_of_eventuallyEq ?_
        (by rw [spl2, hx, h3, piece2_right hk (by omega), piece2_left hk h2])
      filter_upwards [hr] with y hy; rw [spl2, hy]

/-- The values at the knots. -/
theorem spl_knot (hn : 2 ≤ n) (hk : Inc n k) {i : ℕ} (hi : i < n) : spl n k b g (k i) = b i := by
  unfold spl
  rcases Nat.eq_zero_or_pos i with h | h
  · subst h
    rw [idx_first hn hk (hk 0 (by omega)).le, piece_left hk (by omega)]
  · obtain ⟨j, rfl⟩ : ∃ j, i = j + 1 := ⟨i - 1, by omega⟩
    rw [idx_mid hk hi (hk j hi) le_rfl, piece_right hk hi]

theorem spl2_knot (hn : 2 ≤ n) (hk : Inc n k) {i : ℕ} (hi : i < n) : spl2 n k g (k i) = g i := by
  unfold spl2
  rcases Nat.eq_zero_or_pos i with h | h
  · subst h
    rw [idx_first hn hk (hk 0 (by omega)).le, piece2_left hk (by omega)]
  · obtain ⟨j, rfl⟩ : ∃ j, i = j + 1 := ⟨i - 1, by omega⟩
    rw [idx_mid hk hi (hk j hi) le_rfl, piece2_right hk hi]

/-- On a closed interval the spline is its cubic. -/
theorem spl_on (hn : 2 ≤ n) (hk : Inc n k) {j : ℕ} (hj : j + 1 < n) {x : ℝ} (h1 : k j ≤ x) (h2 : x ≤ k (j + 1)) :
    spl n k b g x = piece k b g j x := by
  rcases h1.lt_or_eq with h | h
  · rw [spl, idx_mid hk hj h h2]
  · rw [← h, spl_knot hn hk (by omega), piece_left hk hj]

theorem spl2_on (hn : 2 ≤ n) (hk : Inc n k) {j : ℕ} (hj : j + 1 < n) {x : ℝ} (h1 : k j ≤ x) (h2 : x ≤ k (j + 1)) :
    spl2 n k g x = piece2 k g j x := by
  rcases h1.lt_or_eq with h | h
  · rw [spl2, idx_mid hk hj h h2]
  · rw [← h, spl2_knot hn hk (by omega), piece2_left hk hj]

end Verif.Spl
