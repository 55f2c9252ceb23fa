import Verif.Func.PartLemmas
import Verif.Func.RoundLemmas
import Verif.Func.Lemmas
import Mathlib.Data.Rat.Floor
import Mathlib.Tactic.NormNum.Basic
/-!
# Properties C18 - C22, C53 - C55
-/
set_option linter.unusedSectionVars false

namespace Verif.Func

/-! ## C18: sum_preserving_round -/

section round
variable {α : Type*} [Field α] [LinearOrder α] [IsStrictOrderedRing α] [FloorRing α]

/-- Total preserved, provided the entries are not all integers already (`N ≠ Σ⌊x⌋`). -/
theorem C18_sum_preserving_round_total_partial (s : List ℕ) (arr : List α) (N : ℤ)
    (hs : IsArgsort (arr.map fun x : α => x - ⌊x⌋) s) (hN : arr.sum = N)
    (hne : (arr.map fun x => ⌊x⌋).sum ≠ N) :
    (sumPreservingRound s arr).sum = N :=
  round_total s arr N hs (by rw [hN]; norm_num) (Ne.symm hne)

/-- Every entry is the floor or the floor plus one (no hypothesis). -/
theorem C18_sum_preserving_round_entries (s : List ℕ) (arr : List α) :
    (sumPreservingRound s arr).length = arr.length ∧
    ∀ i (hi : i < arr.length) (hi' : i < (sumPreservingRound s arr).length),
      (sumPreservingRound s arr)[i] = ⌊arr[i]⌋ ∨ (sumPreservingRound s arr)[i] = ⌊arr[i]⌋ + 1 := by
  refine ⟨round_length s arr, fun i hi hi' => ?_⟩
  rw [round_get s arr i hi]
  split_ifs <;> simp

/-- The entries rounded up have the largest fractional parts. -/
theorem C18_sum_preserving_round_largest (s : List ℕ) (arr : List α)
    (hs : IsArgsort (arr.map fun x : α => x - ⌊x⌋) s) (i j : ℕ) (hi : i < arr.length)
    (hj : j < arr.length) (hi' : i < (sumPreservingRound s arr).length)
    (hj' : j < (sumPreservingRound s arr).length)
    (hup : (sumPreservingRound s arr)[i] = ⌊arr[i]⌋ + 1)
    (hdown : (sumPreservingRound s arr)[j] = ⌊arr[j]⌋) :
    arr[j] - ⌊arr[j]⌋ ≤ arr[i] - ⌊arr[i]⌋ := by
  rw [round_get s arr i hi] at hup
  rw [round_get s arr j hj] at hdown
  set D := npRound (arr.sum - (((arr.map fun x => ⌊x⌋).sum : ℤ) : α))
  have h1 : i ∈ lastSlice s D := by
    by_contra h; rw [if_neg h] at hup; omega
  have h2 : j ∉ lastSlice s D := by
    intro h; rw [if_pos h] at hdown; omega
  obtain ⟨t, ht⟩ := lastSlice_suffix s D
  have hjt : j ∈ t := by
    have : j ∈ s := hs.1.mem_iff.2 (by simpa using hj)
    rw [← ht, List.mem_append] at this
    exact this.resolve_right h2
  have hp := hs.2
  rw [← ht, List.pairwise_append] at hp
  have := hp.2.2 j hjt i h1
  rw [List.getD_eq_getElem _ _ (by simpa using hj), List.getD_eq_getElem _ _ (by simpa using hi)]
    at this
  simpa using this

/-- On a vector of integers the code adds one to every entry (`a[-0:]` is the whole array). -/
theorem C18_sum_preserving_round_integers (s : List ℕ) (arr : List ℤ)
    (hs : IsArgsort (arr.map fun x : ℤ => (x : α) - ⌊(x : α)⌋) s) :
    sumPreservingRound s (arr.map fun z : ℤ => (z : α)) = arr.map (· + 1) := by
  have hfl : ((arr.map fun z : ℤ => (z : α)).map fun x => ⌊x⌋) = arr := by
    rw [List.map_map]
    conv_rhs => rw [← List.map_id arr]
    exact List.map_congr_left (fun z _ => by simp)
  apply List.ext_getElem
  · simp [round_length]
  · intro i h1 h2
    have hi : i < arr.length := by simpa using h2
    rw [round_get s _ i (by simpa using hi), hfl, ← cast_sum, sub_self]
    rw [npRound_eq (0 : α) 0 (by simp), lastSlice, if_neg (lt_irrefl (0 : ℤ))]
    rw [if_pos (by simpa using hs.1.mem_iff.2 (by simpa using hi))]
    simp

/-- The total is not preserved in general: two integers, any admissible `argsort`. -/
theorem C18_sum_preserving_round_violated :
    ∃ arr : List ℚ, arr.sum = 3 ∧
      ∀ s, IsArgsort (arr.map fun x => x - (⌊x⌋ : ℚ)) s → (sumPreservingRound s arr).sum = 5 := by
  refine ⟨[1, 2], by norm_num, fun s hs => ?_⟩
  have := C18_sum_preserving_round_integers (α := ℚ) s [1, 2] (by simpa using hs)
  have h2 : sumPreservingRound s ([1, 2] : List ℚ) = [2, 3] := by simpa using this
  rw [h2]; rfl

example : IsArgsort (([1/2, 5/4, 5/4] : List ℚ).map fun x => x - (⌊x⌋ : ℚ)) [1, 2, 0] ∧
    (([1/2, 5/4, 5/4] : List ℚ).map fun x => ⌊x⌋).sum ≠ 3 ∧
    sumPreservingRound [1, 2, 0] ([1/2, 5/4, 5/4] : List ℚ) = [1, 1, 1] := by
  refine ⟨⟨by decide, by decide +kernel⟩, by decide +kernel, by decide +kernel⟩

/-! ## C19: allocate_from_proportions -/

/-- Exactly `n` are allocated, and every share is non-negative, whenever the adjusted shares are
not all integers; the proportions need only pass the code's tolerance test. -/
theorem C19_allocate_total_partial (tol : α) (sort1 sort2 : List α → List ℕ) (n : ℕ)
    (props : List α) (hsort1 : ∀ l, IsArgsort l (sort1 l)) (hsort2 : ∀ l, IsArgsort l (sort2 l))
    (hp : |1 - props.sum| ≤ tol) (htol : n * tol < 1 / 2)
    (hne : ((sumPreservingMin (sort1 (props.map (· * (n : α)))) (props.map (· * (n : α))) 1).map
      fun x => ⌊x⌋).sum ≠ n) :
    ∃ k sl, allocateFromProportions tol sort1 sort2 n props = some (k, sl) ∧ k.sum = n := by
  refine ⟨_, _, by rw [allocateFromProportions, if_neg (not_lt.2 hp)], ?_⟩
  refine round_total _ _ n (hsort2 _) ?_ (Ne.symm hne)
  rw [min_sum _ _ _ (hsort1 _), List.sum_map_mul_right]
  have hn : (0 : α) ≤ n := Nat.cast_nonneg n
  rw [List.map_id', show props.sum * (n : α) - ((n : ℤ) : α) = -(n * (1 - props.sum)) by
    push_cast; ring, abs_neg, abs_mul, abs_of_nonneg hn]
  exact lt_of_le_of_lt (mul_le_mul_of_nonneg_left hp hn) htol

/-- Shares are non-negative, one per proportion, in every case (also the violating one). -/
theorem C19_allocate_nonneg (tol : α) (sort1 sort2 : List α → List ℕ) (n : ℕ)
    (props : List α) (hsort1 : ∀ l, IsArgsort l (sort1 l))
    (h0 : ∀ p ∈ props, 0 ≤ p) (k : List ℤ) (sl : List (ℤ × ℤ))
    (h : allocateFromProportions tol sort1 sort2 n props = some (k, sl)) :
    k.length = props.length ∧ ∀ x ∈ k, 0 ≤ x := by
  unfold allocateFromProportions at h
  split_ifs at h
  simp only [Option.some.injEq, Prod.mk.injEq] at h
  obtain ⟨rfl, -⟩ := h
  refine ⟨by rw [round_length, min_length, List.length_map], ?_⟩
  intro x hx
  obtain ⟨i, hi, rfl⟩ := List.getElem_of_mem hx
  rw [round_length] at hi
  rw [round_get _ _ i hi]
  have := min_nonneg (sort1 (props.map (· * (n : α)))) (props.map (· * (n : α))) 1 (hsort1 _)
    zero_le_one (by
      intro y hy
      obtain ⟨p, hp, rfl⟩ := List.mem_map.1 hy
      exact mul_nonneg (h0 p hp) (Nat.cast_nonneg n)) _ (List.getElem_mem hi)
  have := Int.floor_nonneg.2 this
  split_ifs <;> omega

/-- The error branch is taken exactly when the proportions fail the tolerance test. -/
theorem C19_allocate_error (tol : α) (sort1 sort2 : List α → List ℕ) (n : ℕ) (props : List α) :
    allocateFromProportions tol sort1 sort2 n props = none ↔ tol < |1 - props.sum| := by
  unfold allocateFromProportions
  split_ifs with h <;> simp [h]

/-- Halves of ten: the code hands out twelve. -/
theorem C19_allocate_violated :
    ∀ sort1 sort2 : List ℚ → List ℕ, (∀ l, IsArgsort l (sort2 l)) →
      allocateFromProportions (1 / 10 ^ 12) sort1 sort2 10 [1 / 2, 1 / 2] =
        some ([6, 6], [(0, 6), (6, 12)]) := by
  intro sort1 sort2 hsort2
  have hk : sumPreservingMin (sort1 ([1 / 2, 1 / 2].map (· * ((10 : ℕ) : ℚ))))
      ([1 / 2, 1 / 2].map (· * ((10 : ℕ) : ℚ))) 1 = [5, 5] := by
    unfold sumPreservingMin
    norm_num
  have hr := C18_sum_preserving_round_integers (α := ℚ)
    (sort2 (([5, 5] : List ℚ).map fun x => x - (⌊x⌋ : ℚ))) [5, 5]
    (by simpa using hsort2 (([5, 5] : List ℚ).map fun x => x - (⌊x⌋ : ℚ)))
  unfold allocateFromProportions
  rw [if_neg (by norm_num)]
  dsimp only
  rw [hk]
  have h2 : sumPreservingRound (sort2 (([5, 5] : List ℚ).map fun x => x - (⌊x⌋ : ℚ)))
      ([5, 5] : List ℚ) = [6, 6] := by simpa using hr
  rw [h2]
  decide

example : (|1 - ([1/3, 2/3] : List ℚ).sum| ≤ 1 / 10 ^ 12) ∧ ((10 : ℕ) : ℚ) * (1 / 10 ^ 12) < 1 / 2 ∧
    ((sumPreservingMin [0, 1] (([1/3, 2/3] : List ℚ).map (· * ((10 : ℕ) : ℚ))) 1).map
      fun x => ⌊x⌋).sum ≠ 10 := by
  refine ⟨by norm_num, by norm_num, by decide +kernel⟩

/-! ## C53: sum_preserving_min -/

/-- The total is preserved whatever the ties, and the length too. -/
theorem C53_sum_preserving_min_total (s : List ℕ) (arr : List α) (m : α)
    (hs : IsArgsort arr s) :
    (sumPreservingMin s arr m).sum = arr.sum ∧ (sumPreservingMin s arr m).length = arr.length :=
  ⟨min_sum s arr m hs, min_length s arr m⟩

/-- Non-negative input stays non-negative. -/
theorem C53_sum_preserving_min_nonneg (s : List ℕ) (arr : List α) (m : α) (hs : IsArgsort arr s)
    (hm : 0 ≤ m) (h0 : ∀ x ∈ arr, 0 ≤ x) : ∀ x ∈ sumPreservingMin s arr m, 0 ≤ x :=
  min_nonneg s arr m hs hm h0

/-- Nothing below the minimum: the array is returned unchanged. -/
theorem C53_sum_preserving_min_id (s : List ℕ) (arr : List α) (m : α) (h : ∀ x ∈ arr, m ≤ x) :
    sumPreservingMin s arr m = arr := by
  have : (arr.filter fun x => decide (x < m)) = [] := by
    rw [List.filter_eq_nil_iff]
    intro x hx
    simpa using h x hx
  simp [sumPreservingMin, this]

/-- With a single entry below the minimum and a largest entry that can afford the transfer,
every entry ends at or above the minimum. -/
theorem C53_sum_preserving_min_floor_partial (s : List ℕ) (arr : List α) (m d : α)
    (hs : IsArgsort arr s)
    (hf : (arr.filter fun x => decide (x < m)) = [m - d])
    (hbig : ∀ i ∈ lastSlice s 1, m + d ≤ arr.getD i 0) :
    ∀ x ∈ sumPreservingMin s arr m, m ≤ x := by
  have hd : 0 < d := by
    have : m - d ∈ arr.filter fun x => decide (x < m) := by rw [hf]; simp
    have := (List.mem_filter.1 this).2
    simp only [decide_eq_true_eq] at this
    linarith
  have hge : ∀ x ∈ arr.map (fun x => if x < m then x - (x - m) else x), m ≤ x := by
    intro x hx
    obtain ⟨y, hy, rfl⟩ := List.mem_map.1 hx
    split_ifs with hlt
    · linarith
    · exact not_lt.1 hlt
  intro x hx
  unfold sumPreservingMin at hx
  rw [hf] at hx
  simp only [List.map_cons, List.map_nil, List.length_singleton, Nat.cast_one] at hx
  rw [if_pos (by omega)] at hx
  have hlen := lastSlice_pos s 1 (by omega) (by
    have h1 := List.length_filter_le (fun x => decide (x < m)) arr
    rw [hf] at h1
    rw [hs.length]
    simpa using h1)
  obtain ⟨i, hi⟩ : ∃ i, lastSlice s 1 = [i] := List.length_eq_one_iff.1 (by omega)
  rw [hi, addAt] at hx
  simp only [List.zip_cons_cons, List.zip_nil_right, List.foldl_cons, List.foldl_nil] at hx
  have hil : i < arr.length := hs.lt ((lastSlice_suffix s 1).subset (by rw [hi]; simp))
  rcases List.mem_or_eq_of_mem_set hx with h | rfl
  · exact hge x h
  · have hb := hbig i (by rw [hi]; simp)
    rw [List.getD_eq_getElem _ _ hil] at hb
    rw [List.getD_eq_getElem _ _ (by simpa using hil), List.getElem_map, if_neg (by linarith)]
    linarith

/-- Two short entries and one large one: an entry is left below the minimum although the total
would allow the minimum everywhere. -/
theorem C53_sum_preserving_min_violated :
    IsArgsort ([0, 0, 3] : List ℚ) [0, 1, 2] ∧
      sumPreservingMin [0, 1, 2] ([0, 0, 3] : List ℚ) 1 = [1, 0, 2] := by
  refine ⟨⟨by decide, by decide +kernel⟩, by decide +kernel⟩

example : IsArgsort ([1/2, 3, 2] : List ℚ) [0, 2, 1] ∧
    (([1/2, 3, 2] : List ℚ).filter fun x => decide (x < 1)) = [1 - 1/2] ∧
    (∀ i ∈ lastSlice [0, 2, 1] 1, (1 : ℚ) + 1/2 ≤ ([1/2, 3, 2] : List ℚ).getD i 0) := by
  refine ⟨⟨by decide, by decide +kernel⟩, by decide +kernel, by decide +kernel⟩

end round

/-! ## C54: sizes_to_slice_vals -/

/-- Slice `i` runs from the sum of the earlier sizes to that plus its own size: the slices are
contiguous, in order, start at zero and end at the total. -/
theorem C54_slices (sizes : List ℤ) :
    (sizesToSliceVals sizes).length = sizes.length ∧
    ∀ i (hi : i < sizes.length) (hi' : i < (sizesToSliceVals sizes).length),
      (sizesToSliceVals sizes)[i].1 = (sizes.take i).sum ∧
      (sizesToSliceVals sizes)[i].2 - (sizesToSliceVals sizes)[i].1 = sizes[i] ∧
      (i + 1 = sizes.length → (sizesToSliceVals sizes)[i].2 = sizes.sum) ∧
      ∀ (h' : i + 1 < (sizesToSliceVals sizes).length),
        (sizesToSliceVals sizes)[i + 1].1 = (sizesToSliceVals sizes)[i].2 := by
  refine ⟨slice_length sizes, fun i hi hi' => ?_⟩
  rw [slice_get sizes i hi]
  refine ⟨rfl, ?_, ?_, ?_⟩
  · show (sizes.take (i + 1)).sum - _ = _
    rw [List.take_add_one, List.getElem?_eq_getElem hi, List.sum_append]
    simp
  · intro h
    show (sizes.take (i + 1)).sum = _
    rw [h, List.take_length]
  · intro h'
    rw [slice_get sizes (i + 1) (by rwa [slice_length] at h')]

/-- Every position `0 ≤ p < Σ sizes` lies in exactly one slice (sizes non-negative). -/
theorem C54_slices_cover (sizes : List ℤ) (h0 : ∀ x ∈ sizes, 0 ≤ x) (p : ℤ) (hp0 : 0 ≤ p)
    (hp : p < sizes.sum) :
    ∃! i, ∃ hi : i < (sizesToSliceVals sizes).length,
      (sizesToSliceVals sizes)[i].1 ≤ p ∧ p < (sizesToSliceVals sizes)[i].2 := by
  have hmono : ∀ i j, i ≤ j → (sizes.take i).sum ≤ (sizes.take j).sum := by
    intro i j hij
    obtain ⟨d, rfl⟩ := Nat.exists_eq_add_of_le hij
    rw [List.take_add, List.sum_append]
    have : 0 ≤ ((sizes.drop i).take d).sum :=
      List.sum_nonneg (fun x hx => h0 x (List.mem_of_mem_drop (List.mem_of_mem_take hx)))
    omega
  have hex : ∃ j, p < (sizes.take j).sum := ⟨sizes.length, by rw [List.take_length]; exact hp⟩
  classical
  have hj := Nat.find_spec hex
  have hmin := fun m hm => Nat.find_min hex (m := m) hm
  set j := Nat.find hex with hjd
  have hjpos : 0 < j := by
    by_contra h
    have : j = 0 := by omega
    rw [this] at hj; simp at hj; omega
  have hjl : j ≤ sizes.length := by
    by_contra h
    exact hmin sizes.length (by omega) (by rw [List.take_length]; exact hp)
  refine ⟨j - 1, ⟨by rw [slice_length]; omega, ?_⟩, ?_⟩
  · rw [slice_get sizes (j - 1) (by omega)]
    refine ⟨not_lt.1 (hmin (j - 1) (by omega)), ?_⟩
    show p < (sizes.take (j - 1 + 1)).sum
    rwa [Nat.sub_add_cancel hjpos]
  · rintro i ⟨hi, h1, h2⟩
    rw [slice_length] at hi
    rw [slice_get sizes i hi] at h1 h2
    have hlt1 : i < j := by
      by_contra h
      have := hmono j i (by omega)
      simp only at h1; omega
    have hlt2 : j ≤ i + 1 := by
      by_contra h
      exact hmin (i + 1) (by omega) h2
    omega

example : sizesToSliceVals [2, 0, 3] = [(0, 2), (2, 2), (2, 5)] := by decide

/-! ## C20: partition_set -/

/-- No partition is listed twice. -/
theorem C20_partition_set_nodup (n : ℕ) : (partitionSet n).Nodup := by
  rw [partitionSet_eq]; exact rgs_nodup n 0

/-- Each emitted vector labels the `n` elements with `1..m`, every label used (no empty block). -/
theorem C20_partition_set_labels (n : ℕ) (l : List ℕ) (hl : l ∈ partitionSet n) :
    l.length = n ∧ ∃ m, ∀ v, v ∈ l ↔ 1 ≤ v ∧ v ≤ m := by
  rw [partitionSet_eq] at hl
  refine ⟨rgs_length hl, ?_⟩
  have key : ∀ (k m : ℕ) (l : List ℕ), l ∈ rgs k m → ∃ m', m ≤ m' ∧
      ∀ v, (v ∈ l → 1 ≤ v ∧ v ≤ m') ∧ (m < v → v ≤ m' → v ∈ l) := by
    intro k
    induction k with
    | zero => intro m l h; simp [rgs] at h; subst h; exact ⟨m, le_rfl, by simp⟩
    | succ k ih =>
      intro m l h
      cases l with
      | nil => exact absurd (rgs_length h) (by simp)
      | cons w l =>
        rcases mem_rgs_cons.1 h with ⟨h1, h2, h3⟩ | ⟨rfl, h3⟩
        · obtain ⟨m', hm, hv⟩ := ih m l h3
          refine ⟨m', hm, fun v => ⟨?_, fun a b => List.mem_cons_of_mem _ ((hv v).2 a b)⟩⟩
          intro hvm
          rcases List.mem_cons.1 hvm with rfl | hvm
          · omega
          · exact (hv v).1 hvm
        · obtain ⟨m', hm, hv⟩ := ih (m + 1) l h3
          refine ⟨m', by omega, fun v => ⟨?_, ?_⟩⟩
          · intro hvm
            rcases List.mem_cons.1 hvm with rfl | hvm
            · omega
            · exact (hv v).1 hvm
          · intro a b
            by_cases hv1 : v = m + 1
            · subst hv1; simp
            · exact List.mem_cons_of_mem _ ((hv v).2 (by omega) b)
  obtain ⟨m', -, hv⟩ := key n 0 l hl
  exact ⟨m', fun v => ⟨(hv v).1, fun h => (hv v).2 h.1 h.2⟩⟩

/-- Every set partition (equivalence relation) of `n` elements is listed exactly once. -/
theorem C20_partition_set_complete (n : ℕ) (r : Setoid (Fin n)) :
    ∃! l, l ∈ partitionSet n ∧ ∃ h : l.length = n,
      ∀ i j : Fin n, l[i] = l[j] ↔ r i j := by
  classical
  rw [partitionSet_eq]
  set xs : List (Quotient r) := List.ofFn (fun i => Quotient.mk r i) with hxs
  have hlen : xs.length = n := by simp [hxs]
  have hcl : (canon [] xs).length = n := by rw [canon_length, hlen]
  refine ⟨canon [] xs, ⟨?_, hcl, ?_⟩, ?_⟩
  · have := canon_mem_rgs xs []
    rwa [hlen] at this
  · intro i j
    have := canon_pattern xs i j (by rw [hlen]; exact i.2) (by rw [hlen]; exact j.2)
    refine this.trans ?_
    simp only [hxs, List.getElem_ofFn, Fin.eta]
    exact Quotient.eq
  · rintro l ⟨h1, h2, h3⟩
    have h4 : canon [] l = l := by simpa using canon_rgs_self n 0 l h1
    rw [← h4]
    rcases Nat.eq_zero_or_pos n with hn | hn
    · have e1 : l = [] := List.length_eq_zero_iff.1 (by omega)
      have e2 : xs = [] := List.length_eq_zero_iff.1 (by omega)
      rw [e1, e2]; rfl
    · have : Nonempty (Quotient r) := ⟨Quotient.mk r ⟨0, hn⟩⟩
      apply canon_congr l xs (by omega)
      intro i j hi hj
      refine (h3 ⟨i, by omega⟩ ⟨j, by omega⟩).trans ?_
      simp only [hxs, List.getElem_ofFn]
      exact Quotient.eq.symm

/-- The number of vectors is the number of set partitions (the Bell number). -/
theorem C20_partition_set_count (n : ℕ) :
    (partitionSet n).length = Nat.card (Setoid (Fin n)) := by
  classical
  have hnd := C20_partition_set_nodup n
  choose f hf huniq using C20_partition_set_complete n
  have hb : Function.Bijective (fun r : Setoid (Fin n) =>
      (⟨f r, (hf r).1⟩ : {l // l ∈ partitionSet n})) := by
    constructor
    · intro r s h
      have h : f r = f s := congrArg Subtype.val h
      ext i j
      obtain ⟨_, h1⟩ := (hf r).2
      obtain ⟨_, h2⟩ := (hf s).2
      rw [← h1 i j, ← h2 i j]
      simp [h]
    · rintro ⟨l, hl⟩
      have hlen := (C20_partition_set_labels n l hl).1
      let r : Setoid (Fin n) := Setoid.ker (fun i : Fin n => l[i])
      refine ⟨r, Subtype.ext ?_⟩
      exact (huniq r l ⟨hl, hlen, fun i j => Iff.rfl⟩).symm
  rw [Nat.card_eq_of_bijective _ hb]
  have : Nat.card {l // l ∈ partitionSet n} = (partitionSet n).toFinset.card := by
    exact Nat.subtype_card _ (fun l => List.mem_toFinset)
  rw [this, List.toFinset_card_of_nodup hnd]

example : partitionSet 3 = [[1, 1, 1], [1, 1, 2], [1, 2, 1], [1, 2, 2], [1, 2, 3]] := by decide

/-! ## C21: soft_threshold -/

/-- `soft_threshold(x, t)` is the strict minimiser of `(z-x)²/2 + t|z|`. -/
theorem C21_soft_threshold_prox {α : Type*} [Field α] [LinearOrder α] [IsStrictOrderedRing α]
    (x t : α) (ht : 0 ≤ t) (z : α) (hz : z ≠ softThreshold x t) :
    (softThreshold x t - x) ^ 2 / 2 + t * |softThreshold x t| < (z - x) ^ 2 / 2 + t * |z| :=
  prox_gap x t z ht hz

/-- Closed form: shrink towards zero by `t`, stopping at zero. -/
theorem C21_soft_threshold_cases {α : Type*} [Field α] [LinearOrder α] [IsStrictOrderedRing α]
    (x t : α) (ht : 0 ≤ t) :
    softThreshold x t = if t < x then x - t else if x < -t then x + t else 0 := by
  unfold softThreshold npSign
  rcases lt_trichotomy x 0 with hx | hx | hx
  · rw [if_pos hx, abs_of_neg hx, if_neg (show ¬ t < x by linarith)]
    split_ifs with h
    · rw [max_eq_left (by linarith)]; ring
    · rw [max_eq_right (by linarith)]; ring
  · subst hx
    rw [if_neg (lt_irrefl _), if_pos rfl, if_neg (show ¬ t < 0 by linarith),
      if_neg (show ¬ 0 < -t by linarith), mul_zero]
  · rw [if_neg hx.le.not_gt, if_neg hx.ne', abs_of_pos hx, if_neg (show ¬ x < -t by linarith)]
    split_ifs with h
    · rw [max_eq_left (by linarith)]; ring
    · rw [max_eq_right (by linarith)]; ring

example : softThreshold (3 : ℚ) 1 = 2 ∧ softThreshold (-3 : ℚ) 1 = -2 ∧
    softThreshold (1/2 : ℚ) 1 = 0 := by decide +kernel

/-! ## C22: harmonic_fraction -/

/-- `_harmonic(a, b)` is exactly `Σ_{a ≤ i < b} 1/i`, for every recursion limit above
`log₂(b - a) + 1`. -/
theorem C22_harmonic (d fuel : ℕ) (a b : ℤ) (ha : 1 ≤ a) (hab : a < b) (hd : b - a ≤ 2 ^ d)
    (hf : d < fuel) :
    ∃ p q : ℤ, harmonic fuel a b = some (p, q) ∧ 0 < q ∧
      (p : ℚ) / q = ∑ i ∈ Finset.Ico a b, (1 : ℚ) / i := by
  obtain ⟨p, q, h, hq, hs⟩ := harmonic_spec d a b ha hab hd
  exact ⟨p, q, harmonic_fuel_le hf h, hq, hs⟩

/-- `harmonic_fraction(n)` is the n-th harmonic number for `1 ≤ n ≤ 2 ^ 200` at Python's default
recursion limit. -/
theorem C22_harmonic_fraction (n : ℤ) (h1 : 1 ≤ n) (hn : n ≤ 2 ^ 200) :
    ∃ p q : ℤ, harmonicFraction 1000 n = some (p, q) ∧ 0 < q ∧
      (p : ℚ) / q = ∑ i ∈ Finset.Icc 1 n, (1 : ℚ) / i := by
  obtain ⟨p, q, h, hq, hs⟩ := C22_harmonic 200 1000 1 (n + 1) le_rfl (by omega)
    (by simpa using hn) (by omega)
  refine ⟨p, q, h, hq, hs.trans ?_⟩
  congr 1

/-- Outside the range (`b ≤ a`, e.g. `harmonic_fraction(0)`) the recursion never ends. -/
theorem C22_harmonic_empty_range (fuel : ℕ) (a b : ℤ) (h : b ≤ a) : harmonic fuel a b = none :=
  harmonic_diverges fuel a b h

example : harmonicFraction 5 4 = some (50, 24) := by decide

/-! ## C55: handle_default_kws -/

/-- A key given by the user has the user's value, any other key has the default. -/
theorem C55_handle_default_kws {κ υ : Type*} [DecidableEq κ] (kws defaults : Dict κ υ)
    (h1 : (kws.map Prod.fst).Nodup) (h2 : (defaults.map Prod.fst).Nodup) (k : κ) :
    (handleDefaultKws (some kws) defaults).get k = (kws.get k).or (defaults.get k) ∧
    (handleDefaultKws none defaults).get k = defaults.get k ∧
    ((handleDefaultKws (some kws) defaults).map Prod.fst).Nodup := by
  refine ⟨?_, ?_, ?_⟩
  · simp only [handleDefaultKws, Option.getD_some]
    rw [Dict.get_foldl _ h1, Dict.get_foldl _ h2]
    simp [Dict.get]
  · simp only [handleDefaultKws, Option.getD_none, List.foldl_nil]
    rw [Dict.get_foldl _ h2]
    simp [Dict.get]
  · exact Dict.foldl_keys _ _ (Dict.foldl_keys _ _ (by simp))

example : handleDefaultKws (some [("b", 5), ("c", 6)]) [("a", 1), ("b", 2)]
    = [("a", 1), ("b", 5), ("c", 6)] := by decide

end Verif.Func
