import Verif.Func.Model
import Mathlib.Data.List.GetD
import Mathlib.Algebra.BigOperators.Group.Finset.Basic
import Mathlib.Algebra.BigOperators.Group.List.Basic
import Mathlib.Algebra.Order.BigOperators.Group.List
import Mathlib.Algebra.BigOperators.Intervals
import Mathlib.Algebra.BigOperators.Ring.List
import Mathlib.Tactic.Linarith
import Mathlib.Tactic.Ring
import Mathlib.Tactic.LinearCombination
import Mathlib.Tactic.NormNum
import Mathlib.Tactic.Push
/-!
# Lemmas on `sum_preserving_round`, `sum_preserving_min`, slices
-/
set_option linter.unusedSectionVars false

namespace Verif.Func

variable {α : Type*} [Field α] [LinearOrder α]

/-- Contract of `np.argsort`: a permutation of the positions along which the array is
non-decreasing (the order of ties is left open). -/
def IsArgsort (a : List α) (s : List ℕ) : Prop :=
  s.Perm (List.range a.length) ∧ s.Pairwise (fun i j => a.getD i 0 ≤ a.getD j 0)

theorem sum_mapIdx {β : Type*} (g : ℕ → β → ℤ) (d : β) (l : List β) :
    (l.mapIdx g).sum = ∑ i ∈ Finset.range l.length, g i (l.getD i d) := by
  induction l using List.reverseRecOn with
  | nil => simp
  | append_singleton l a ih =>
    rw [List.mapIdx_concat, List.sum_append, List.length_append, List.length_singleton,
      Finset.sum_range_succ, ih]
    congr 1
    · apply Finset.sum_congr rfl
      intro i hi
      rw [List.getD_append _ _ _ _ (by simpa using hi)]
    · simp [List.getD_eq_getElem?_getD]

theorem sum_eq_range (l : List ℤ) : l.sum = ∑ i ∈ Finset.range l.length, l.getD i 0 := by
  have := sum_mapIdx (fun _ x => x) 0 l
  rwa [show List.mapIdx (fun _ x => x) l = l from List.ext_getElem (by simp) (by simp)] at this

/-- Incrementing the distinct valid positions `ind` adds their number to the sum. -/
theorem sum_incr (l : List ℤ) (ind : List ℕ) (hnd : ind.Nodup) (hr : ∀ i ∈ ind, i < l.length) :
    (l.mapIdx fun i f => if i ∈ ind then f + 1 else f).sum = l.sum + ind.length := by
  rw [sum_mapIdx _ 0, sum_eq_range l]
  have h : ∀ i ∈ Finset.range l.length,
      (if i ∈ ind then l.getD i 0 + 1 else l.getD i 0) =
        l.getD i 0 + if i ∈ ind.toFinset then (1 : ℤ) else 0 := by
    intro i _
    simp only [List.mem_toFinset]
    split_ifs <;> ring
  rw [Finset.sum_congr rfl h, Finset.sum_add_distrib, Finset.sum_ite_mem]
  have h2 : Finset.range l.length ∩ ind.toFinset = ind.toFinset := by
    apply Finset.inter_eq_right.2
    intro i hi
    simpa using hr i (by simpa using hi)
  rw [h2]
  simp [List.toFinset_card_of_nodup hnd]

section ordered
variable [IsStrictOrderedRing α] [FloorRing α]

theorem npRound_eq (x : α) (z : ℤ) (h : |x - z| < 1 / 2) : npRound x = z := by
  rw [abs_lt] at h
  unfold npRound
  by_cases hx : (z : α) ≤ x
  · have : ⌊x⌋ = z := Int.floor_eq_iff.2 ⟨hx, by linarith⟩
    rw [this, if_pos (by linarith)]
  · push Not at hx
    have : ⌊x⌋ = z - 1 := by
      rw [Int.floor_eq_iff]; push_cast; constructor <;> linarith
    rw [this, if_neg (by push_cast; linarith), if_pos (by push_cast; linarith)]
    ring

theorem cast_sum (l : List ℤ) : ((l.sum : ℤ) : α) = (l.map (fun z : ℤ => (z : α))).sum := by
  induction l with
  | nil => simp
  | cons a l ih => simp [ih]

theorem floor_sum_le (arr : List α) :
    (((arr.map fun x => ⌊x⌋).sum : ℤ) : α) ≤ arr.sum := by
  induction arr with
  | nil => simp
  | cons a l ih =>
    simp only [List.map_cons, List.sum_cons, Int.cast_add]
    have := Int.floor_le a
    linarith

theorem sum_le_floor (arr : List α) :
    arr.sum ≤ (((arr.map fun x => ⌊x⌋).sum : ℤ) : α) + arr.length := by
  induction arr with
  | nil => simp
  | cons a l ih =>
    simp only [List.map_cons, List.sum_cons, Int.cast_add, List.length_cons, Nat.cast_succ]
    have := (Int.lt_floor_add_one a).le
    linarith

theorem lastSlice_pos {β : Type*} (a : List β) (k : ℤ) (hk : 0 < k) (hl : k ≤ a.length) :
    ((lastSlice a k).length : ℤ) = k := by
  rw [lastSlice, if_pos hk, List.length_drop]
  omega

theorem lastSlice_suffix {β : Type*} (a : List β) (k : ℤ) : lastSlice a k <:+ a := by
  unfold lastSlice; split_ifs <;> exact List.drop_suffix _ _

theorem IsArgsort.nodup {a : List α} {s : List ℕ} (h : IsArgsort a s) : s.Nodup :=
  h.1.nodup_iff.2 List.nodup_range

theorem IsArgsort.lt {a : List α} {s : List ℕ} (h : IsArgsort a s) {i : ℕ} (hi : i ∈ s) :
    i < a.length := by simpa using h.1.mem_iff.1 hi

theorem IsArgsort.length {a : List α} {s : List ℕ} (h : IsArgsort a s) : s.length = a.length := by
  simpa using h.1.length_eq

/-- The total after rounding, when the total is within ½ of `N` and `N` is not the sum of the
floors. -/
theorem round_total (s : List ℕ) (arr : List α) (N : ℤ)
    (hs : IsArgsort (arr.map fun x : α => x - ⌊x⌋) s) (hN : |arr.sum - N| < 1 / 2)
    (hne : N ≠ (arr.map fun x => ⌊x⌋).sum) :
    (sumPreservingRound s arr).sum = N := by
  have hr : npRound (arr.sum - (((arr.map fun x => ⌊x⌋).sum : ℤ) : α))
      = N - (arr.map fun x => ⌊x⌋).sum := by
    apply npRound_eq
    push_cast
    rw [show arr.sum - (((arr.map fun x => ⌊x⌋).sum : ℤ) : α)
      - (N - (((arr.map fun x => ⌊x⌋).sum : ℤ) : α)) = arr.sum - N by ring]
    exact hN
  rw [abs_lt] at hN
  have h1 := floor_sum_le arr
  have h2 := sum_le_floor arr
  set F := (arr.map fun x => ⌊x⌋).sum with hF
  have hpos : 0 < N - F := by
    have : (F : α) < N + 1 := by linarith
    have : F < N + 1 := by exact_mod_cast this
    omega
  have hle : N - F ≤ s.length := by
    have h3 : (N : α) < F + arr.length + 1 := by linarith
    have h4 : N < F + arr.length + 1 := by exact_mod_cast h3
    rw [hs.length, List.length_map]; omega
  unfold sumPreservingRound
  dsimp only
  rw [← hF, hr, sum_incr]
  · rw [lastSlice_pos _ _ hpos hle]; omega
  · exact (hs.nodup).sublist (lastSlice_suffix _ _).sublist
  · intro i hi
    have := hs.lt ((lastSlice_suffix _ _).subset hi)
    simpa using this

theorem round_length (s : List ℕ) (arr : List α) :
    (sumPreservingRound s arr).length = arr.length := by simp [sumPreservingRound]

theorem round_get (s : List ℕ) (arr : List α) (i : ℕ) (hi : i < arr.length) :
    (sumPreservingRound s arr)[i]'(by simpa [round_length] using hi) =
      if i ∈ lastSlice s (npRound (arr.sum - (((arr.map fun x => ⌊x⌋).sum : ℤ) : α)))
      then ⌊arr[i]⌋ + 1 else ⌊arr[i]⌋ := by
  simp [sumPreservingRound]

/-! ## sum_preserving_min -/

theorem sum_set (a : List α) (i : ℕ) (v : α) (hi : i < a.length) :
    (a.set i v).sum = a.sum - a.getD i 0 + v := by
  rw [List.sum_set', dif_pos hi, List.getD_eq_getElem _ _ hi]
  ring

theorem addAt_aux (arr : List α) : ∀ (iv : List (ℕ × α)) (a : List α), a.length = arr.length →
    (iv.map Prod.fst).Nodup → (∀ p ∈ iv, p.1 < arr.length) →
    (∀ p ∈ iv, a.getD p.1 0 = arr.getD p.1 0) →
    (iv.foldl (fun a iv => a.set iv.1 (arr.getD iv.1 0 + iv.2)) a).sum
        = a.sum + (iv.map Prod.snd).sum := by
  intro iv
  induction iv with
  | nil => intro a _ _ _ _; simp
  | cons p iv ih =>
    intro a hl hnd hr he
    rw [List.foldl_cons, ih]
    · rw [sum_set _ _ _ (by rw [hl]; exact hr p (by simp)), he p (by simp)]
      simp only [List.map_cons, List.sum_cons]; ring
    · simpa using hl
    · exact (List.nodup_cons.1 hnd).2
    · exact fun q hq => hr q (by simp [hq])
    · intro q hq
      rw [← he q (by simp [hq])]
      have hne : p.1 ≠ q.1 := by
        intro h
        exact (List.nodup_cons.1 hnd).1 (by
          show p.1 ∈ _
          rw [h]
          exact List.mem_map_of_mem hq)
      simp [List.getD_eq_getElem?_getD, List.getElem?_set_ne hne]

/-- Every element after `addAt` is an original element or one plus an added value. -/
theorem addAt_mem (arr : List α) : ∀ (iv : List (ℕ × α)) (a : List α),
    (∀ p ∈ iv, p.1 < arr.length) → ∀ x ∈
    (iv.foldl (fun a iv => a.set iv.1 (arr.getD iv.1 0 + iv.2)) a),
      x ∈ a ∨ ∃ y ∈ arr, ∃ p ∈ iv, x = y + p.2 := by
  intro iv
  induction iv with
  | nil => intro a _ x hx; exact Or.inl hx
  | cons p iv ih =>
    intro a hr x hx
    rcases ih _ (fun q hq => hr q (by simp [hq])) x hx with h | ⟨y, hy, q, hq, rfl⟩
    · rcases List.mem_or_eq_of_mem_set h with h | rfl
      · exact Or.inl h
      · refine Or.inr ⟨_, ?_, p, by simp, rfl⟩
        rw [List.getD_eq_getElem _ _ (hr p (by simp))]
        exact List.getElem_mem _
    · exact Or.inr ⟨y, hy, q, by simp [hq], rfl⟩

theorem addAt_length (arr : List α) (iv : List (ℕ × α)) : ∀ (a : List α),
    (iv.foldl (fun a iv => a.set iv.1 (arr.getD iv.1 0 + iv.2)) a).length = a.length := by
  induction iv with
  | nil => intro a; rfl
  | cons p iv ih => intro a; rw [List.foldl_cons, ih]; simp

theorem min_sum_aux (m : α) (arr : List α) :
    (arr.map fun x => if x < m then x - (x - m) else x).sum
      + ((arr.filter fun x => decide (x < m)).map fun x => x - m).sum = arr.sum := by
  induction arr with
  | nil => simp
  | cons a l ih =>
    by_cases h : a < m
    · simp only [List.map_cons, List.sum_cons, h, if_true, List.filter_cons, decide_true]
      linear_combination ih
    · simp only [List.map_cons, List.sum_cons, h, if_false, List.filter_cons, decide_false,
        Bool.false_eq_true]
      linear_combination ih

theorem min_sum (s : List ℕ) (arr : List α) (m : α) (hs : IsArgsort arr s) :
    (sumPreservingMin s arr m).sum = arr.sum := by
  unfold sumPreservingMin
  dsimp only
  split_ifs with h
  · set diffs := (arr.filter fun x => decide (x < m)).map fun x => x - m with hd
    have hlen : diffs.length ≤ s.length := by
      rw [hs.length, hd, List.length_map]; exact List.length_filter_le _ _
    have hl : (lastSlice s (diffs.length : ℤ)).length = diffs.length := by
      have := lastSlice_pos s (diffs.length : ℤ) (by omega) (by omega)
      omega
    rw [addAt, addAt_aux]
    · rw [List.map_snd_zip (by omega), hd, min_sum_aux]
    · rfl
    · rw [List.map_fst_zip (by omega)]
      exact (hs.nodup).sublist (lastSlice_suffix _ _).sublist
    · intro p hp
      have := hs.lt ((lastSlice_suffix _ _).subset (List.of_mem_zip hp).1)
      simpa using this
    · intros; rfl
  · rfl

theorem min_length (s : List ℕ) (arr : List α) (m : α) :
    (sumPreservingMin s arr m).length = arr.length := by
  unfold sumPreservingMin
  dsimp only
  split_ifs with h
  · rw [addAt, addAt_length]; simp
  · rfl

theorem min_nonneg (s : List ℕ) (arr : List α) (m : α) (hs : IsArgsort arr s) (hm : 0 ≤ m)
    (h0 : ∀ x ∈ arr, 0 ≤ x) : ∀ x ∈ sumPreservingMin s arr m, 0 ≤ x := by
  unfold sumPreservingMin
  dsimp only
  have hge : ∀ x ∈ arr.map (fun x => if x < m then x - (x - m) else x), m ≤ x := by
    intro x hx
    obtain ⟨y, hy, rfl⟩ := List.mem_map.1 hx
    split_ifs with hlt
    · linarith
    · exact not_lt.1 hlt
  split_ifs with h
  · intro x hx
    rw [addAt] at hx
    rcases addAt_mem _ _ _ (fun p hp => by
      have := hs.lt ((lastSlice_suffix _ _).subset (List.of_mem_zip hp).1)
      simpa using this) x hx with h | ⟨y, hy, p, hp, rfl⟩
    · exact hm.trans (hge x h)
    · have h1 := hge y hy
      have h2 := (List.of_mem_zip hp).2
      obtain ⟨z, hz, hpz⟩ := List.mem_map.1 h2
      have := h0 z (List.mem_filter.1 hz).1
      linarith
  · exact h0

end ordered

/-! ## Slices -/

theorem scanl_getElem (l : List ℤ) : ∀ (b : ℤ) (i : ℕ) (hi : i < (l.scanl (· + ·) b).length),
    (l.scanl (· + ·) b)[i] = b + (l.take i).sum := by
  induction l with
  | nil => intro b i hi; simp at hi; simp [hi]
  | cons a l ih =>
    intro b i hi
    cases i with
    | zero => simp
    | succ i => simp only [List.scanl_cons, List.getElem_cons_succ, ih, List.take_succ_cons,
        List.sum_cons]; ring

theorem slice_length (l : List ℤ) : (sizesToSliceVals l).length = l.length := by
  simp [sizesToSliceVals, sizesToInds, List.length_scanl]

theorem slice_get (l : List ℤ) (i : ℕ) (hi : i < l.length) :
    (sizesToSliceVals l)[i]'(by rw [slice_length]; exact hi) =
      ((l.take i).sum, (l.take (i + 1)).sum) := by
  simp only [sizesToSliceVals, sizesToInds, List.getElem_zip, List.getElem_dropLast,
    List.getElem_tail, scanl_getElem, zero_add]

end Verif.Func
