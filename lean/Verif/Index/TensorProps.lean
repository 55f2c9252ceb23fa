import Verif.Index.TensorLemmas
import Verif.Index.OrderedProps

namespace Verif.Index

/-! ### `multiset_permutations` -/

/-- **C241** A loop over `multiset_permutations(seq)` meets every rearrangement of `seq` exactly once, repeated entries counted as equal, in
lexicographic order. -/
theorem C241_perms (seq : List ℕ) : (multisetPerms seq).Pairwise (· < ·) ∧ ∀ t, t ∈ multisetPerms seq ↔ t.Perm seq := by
  have hs : (seq.insertionSort (· ≤ ·)).Perm seq := List.perm_insertionSort _ _
  obtain ⟨h1, h2, h3⟩ := runPerm_spec seq.length.factorial (seq.insertionSort (· ≤ ·))
  refine ⟨h2, fun t => ⟨fun h => (h1 t h).1.trans hs, fun h => ?_⟩⟩
  rcases h3 with h3 | h3
  · exfalso
    have hnd : (multisetPerms seq).Nodup := h2.imp fun h => ne_of_lt h
    have hsub : multisetPerms seq ⊆ seq.permutations := fun u hu => List.mem_permutations.2 ((h1 u hu).1.trans hs)
    have := (List.subperm_of_subset hnd hsub).length_le
    rw [List.length_permutations] at this
    rw [show multisetPerms seq = runPerm seq.length.factorial (seq.insertionSort (· ≤ ·)) from rfl, h3] at this
    omega
  · exact h3 t (h.trans hs.symm) (not_lt.1 (not_lt_of_sorted (List.pairwise_insertionSort _ _) (h.trans hs.symm)))

/-- **C241** One turn of the loop goes to the next rearrangement in lexicographic order: none lies between; and it stops at the greatest. -/
theorem C241_next (s : List ℕ) :
    (∀ t, nextPerm s = some t → t.Perm s ∧ s < t ∧ ∀ u, u.Perm s → s < u → t ≤ u) ∧
      (nextPerm s = none → ∀ u, u.Perm s → u ≤ s) := by
  refine ⟨fun t h => ⟨nextPerm_perm h, nextPerm_lt h, fun u hu hlt => ?_⟩, fun h u hu => not_lt.1 (not_gt_of_desc (nextPerm_none h) hu)⟩
  obtain ⟨pre, a, x, B, C, rfl, hax, hd, hC, rfl⟩ := nextPerm_some h
  exact succ_least pre hax hd hC hu hlt

example : multisetPerms [1, 0, 1] = [[0, 1, 1], [1, 0, 1], [1, 1, 0]] := by decide +kernel

/-- **C241** The generator hands out one list and changes it afterwards: a caller that keeps what it was given, as `list(...)` does, keeps
copies of the last rearrangement. -/
theorem C241_kept_violated :
    multisetPerms [0, 1, 2] = [[0, 1, 2], [0, 2, 1], [1, 0, 2], [1, 2, 0], [2, 0, 1], [2, 1, 0]] ∧
      collectPerms [0, 1, 2] = List.replicate 6 [2, 1, 0] ∧ collectPerms [0, 1] ≠ multisetPerms [0, 1] := by
  decide +kernel

/-- **C241** All the kept lists are the greatest rearrangement. -/
theorem C241_kept (seq : List ℕ) :
    ∃ m, m.Perm seq ∧ (∀ t, t.Perm seq → t ≤ m) ∧ collectPerms seq = List.replicate (multisetPerms seq).length m := by
  obtain ⟨h1, h2⟩ := C241_perms seq
  have hne : multisetPerms seq ≠ [] := List.ne_nil_of_mem ((h2 seq).2 (List.Perm.refl _))
  refine ⟨(multisetPerms seq).getLast hne, (h2 _).1 (List.getLast_mem _), fun t ht => ?_, ?_⟩
  · have hm := (h2 t).2 ht
    rw [← List.dropLast_append_getLast hne] at h1 hm
    rcases List.mem_append.1 hm with h | h
    · exact le_of_lt ((List.pairwise_append.1 h1).2.2 t h _ (List.mem_singleton.2 rfl))
    · rw [List.mem_singleton.1 h]
  · rw [collectPerms, List.getLastD_eq_getLast?, List.getLast?_eq_some_getLast hne, Option.getD_some]
    exact List.map_const

/-! ### `fill_tensor` -/

theorem inShape_iff (shape p : List ℕ) : InShape shape p ↔ (p.length = shape.length ∧ ∀ t ∈ p.zip shape, t.1 < t.2) := by
  rw [InShape, List.forall₂_iff_zip]
  constructor
  · rintro ⟨h1, h2⟩
    exact ⟨h1, fun t ht => h2 ht⟩
  · rintro ⟨h1, h2⟩
    exact ⟨h1, fun {a b} h => h2 (a, b) h⟩

theorem inShape_cube (d p : ℕ) (x : List ℕ) : InShape (List.replicate d p) x ↔ x.length = d ∧ ∀ a ∈ x, a < p := by
  induction d generalizing x with
  | zero => cases x <;> simp [InShape]
  | succ d ih =>
    cases x with
    | nil => simp [InShape]
    | cons a x =>
      have := ih x
      simp only [InShape] at this
      simp only [InShape, List.replicate_succ, List.forall₂_cons, this, List.length_cons, List.mem_cons, forall_eq_or_imp]
      constructor
      · rintro ⟨h1, h2, h3⟩; exact ⟨by omega, h1, h3⟩
      · rintro ⟨h1, h2, h3⟩; exact ⟨h2, by omega, h3⟩

theorem inShape_cube_perm {d p : ℕ} {x y : List ℕ} (h : x.Perm y) : InShape (List.replicate d p) x ↔ InShape (List.replicate d p) y := by
  rw [inShape_cube, inShape_cube, h.length_eq]
  exact and_congr_right fun _ => ⟨fun h2 a ha => h2 a (h.mem_iff.2 ha), fun h2 a ha => h2 a (h.mem_iff.1 ha)⟩

theorem foldlM_set {α : Type} (shape : List ℕ) (v : α) (l : List (List ℕ)) (T : List ℕ → α) (h : ∀ p ∈ l, InShape shape p) :
    l.foldlM (fun T p => tensorSet shape T p v) T = some fun q => if q ∈ l then v else T q := by
  induction l generalizing T with
  | nil => simp
  | cons p l ih =>
    have hp : tensorSet shape T p v = some (Function.update T p v) := by
      rw [tensorSet, if_pos ((inShape_iff shape p).1 (h p List.mem_cons_self))]
    rw [List.foldlM_cons, hp, Option.bind_eq_bind, Option.bind_some, ih _ fun q hq => h q (List.mem_cons_of_mem _ hq)]
    congr 1
    funext q
    by_cases hq : q ∈ l
    · rw [if_pos hq, if_pos (List.mem_cons_of_mem _ hq)]
    · rw [if_neg hq]
      by_cases e : q = p
      · rw [e, Function.update_self, if_pos List.mem_cons_self]
      · rw [Function.update_of_ne e, if_neg (by simp [e, hq])]

theorem sort_eq_iff {q s : List ℕ} (hs : s.Pairwise (· ≤ ·)) : q.Perm s ↔ q.insertionSort (· ≤ ·) = s := by
  constructor
  · intro h
    exact ((List.perm_insertionSort _ _).trans h).eq_of_pairwise (fun a b _ _ h h' => le_antisymm h h') (List.pairwise_insertionSort _ _) hs
  · rintro rfl
    exact (List.perm_insertionSort _ _).symm

/-- **C241** For an array shape with all sides equal the tensor is filled: the entry at an index is the entry of `arr` at the place of the
sorted index among the ascending indices, and what `arr` does not reach is left at zero. -/
theorem C241_fill_partial {α : Type} [Zero α] (arr : List α) (d p : ℕ) (h : arr.length ≤ (ascendingIndices (List.replicate d p)).length) :
    fillTensor arr (List.replicate d p) =
      some fun q => arr.getD ((ascendingIndices (List.replicate d p)).idxOf (q.insertionSort (· ≤ ·))) 0 := by
  set shape := List.replicate d p with hsh
  obtain ⟨hnd, hmem⟩ := C160_members shape true true false
  rw [← (C160_ascending shape).1] at hnd hmem
  set asc := ascendingIndices shape with hasc
  have key : ∀ m, m ≤ asc.length → (List.range m).foldlM (fun (T : List ℕ → α) i => do
      let index ← asc[i]?
      (multisetPerms index).foldlM (fun T p => tensorSet shape T p (arr.getD i 0)) T) (fun _ : List ℕ => (0 : α)) =
        some fun q : List ℕ => if asc.idxOf (q.insertionSort (· ≤ ·)) < m then arr.getD (asc.idxOf (q.insertionSort (· ≤ ·))) 0 else 0 := by
    intro m hm
    induction m with
    | zero => simp
    | succ m ih =>
      have hml : m < asc.length := by omega
      obtain ⟨hin, hsorted⟩ := (hmem asc[m]).1 (List.getElem_mem hml)
      rw [List.range_succ, List.foldlM_append, ih (by omega), Option.bind_eq_bind, Option.bind_some, List.foldlM_cons, List.getElem?_eq_getElem hml,
        Option.bind_eq_bind, Option.bind_eq_bind, Option.bind_some, foldlM_set, Option.bind_some, List.foldlM_nil]
      · refine congrArg some (funext fun q => ?_)
        have hq : q ∈ multisetPerms asc[m] ↔ asc.idxOf (q.insertionSort (· ≤ ·)) = m := by
          rw [(C241_perms _).2, sort_eq_iff hsorted]
          constructor
          · intro e; rw [e]; exact hnd.idxOf_getElem m hml
          · intro e
            have hlt : asc.idxOf (q.insertionSort (· ≤ ·)) < asc.length := by omega
            have := List.getElem_idxOf hlt
            rw [← this]
            simp only [e]
        by_cases hqm : q ∈ multisetPerms asc[m]
        · rw [if_pos hqm, hq.1 hqm, if_pos (by omega)]
        · rw [if_neg hqm]
          have hne : asc.idxOf (q.insertionSort (· ≤ ·)) ≠ m := fun e => hqm (hq.2 e)
          by_cases hl : asc.idxOf (q.insertionSort (· ≤ ·)) < m
          · rw [if_pos hl, if_pos (by omega)]
          · rw [if_neg hl, if_neg (by omega)]
      · intro r hr
        exact (inShape_cube_perm ((C241_perms _).2 r |>.1 hr)).2 hin
  rw [fillTensor, key _ h]
  refine congrArg some (funext fun q => ?_)
  by_cases hq : asc.idxOf (q.insertionSort (· ≤ ·)) < arr.length
  · rw [if_pos hq]
  · rw [if_neg hq, List.getD_eq_default _ _ (by omega)]

/-- **C241** So the filled tensor does not change when the indices are rearranged. -/
theorem C241_symmetric_partial {α : Type} [Zero α] (arr : List α) (d p : ℕ) (h : arr.length ≤ (ascendingIndices (List.replicate d p)).length) :
    ∃ T, fillTensor arr (List.replicate d p) = some T ∧ ∀ q r, q.Perm r → T q = T r := by
  refine ⟨_, C241_fill_partial arr d p h, fun q r hqr => ?_⟩
  have : q.insertionSort (· ≤ ·) = r.insertionSort (· ≤ ·) :=
    (sort_eq_iff (List.pairwise_insertionSort _ _)).1 (hqr.trans (List.perm_insertionSort _ _).symm)
  simp only [this]

example : ([5, 6, 7] : List ℕ).length ≤ (ascendingIndices (List.replicate 2 2)).length := by decide +kernel

theorem foldlM_none {α β : Type} (f : α → β → Option α) (l m : List β) (b : β) (h : ∀ a, f a b = none) (a : α) : (l ++ b :: m).foldlM f a = none := by
  rw [List.foldlM_append]
  cases l.foldlM f a with
  | none => rfl
  | some x => rw [Option.bind_eq_bind, Option.bind_some, List.foldlM_cons, h]; rfl

/-- **C241** More values than ascending indices raise. -/
theorem C241_long {α : Type} [Zero α] (arr : List α) (shape : List ℕ) (h : (ascendingIndices shape).length < arr.length) :
    fillTensor arr shape = none := by
  obtain ⟨k, hk⟩ : ∃ k, arr.length = (ascendingIndices shape).length + (k + 1) := ⟨arr.length - (ascendingIndices shape).length - 1, by omega⟩
  rw [fillTensor, hk, List.range_add, List.range_succ_eq_map, List.map_cons]
  refine foldlM_none _ _ _ _ (fun T => ?_) _
  rw [Nat.add_zero, List.getElem?_eq_none (le_refl _)]
  rfl

/-- **C241** With unequal sides the rearranged index can lie outside the array, and the function raises although the number of values is
right. -/
theorem C241_sides_violated :
    ([5, 6] : List ℕ).length = (ascendingIndices [1, 2]).length ∧ (fillTensor [5, 6] [1, 2] : Option (List ℕ → ℕ)).isNone = true ∧
      ((fillTensor [5] [2, 1] : Option (List ℕ → ℕ)).isSome = true) := by
  decide +kernel

/-! ### `array_match` -/

theorem searchLeft_mem {sx : List ℕ} (hs : sx.Pairwise (· ≤ ·)) {v : ℕ} (hv : v ∈ sx) :
    searchLeft sx v < sx.length ∧ sx.getD (searchLeft sx v) 0 = v := by
  induction sx with
  | nil => simp at hv
  | cons a l ih =>
    obtain ⟨h1, h2⟩ := List.pairwise_cons.1 hs
    by_cases ha : a < v
    · have hvl : v ∈ l := by
        rcases List.mem_cons.1 hv with rfl | h
        · omega
        · exact h
      obtain ⟨h3, h4⟩ := ih h2 hvl
      have e : searchLeft (a :: l) v = searchLeft l v + 1 := by
        simp [searchLeft, ha]
      rw [e]
      exact ⟨by simpa using h3, by rw [List.getD_cons_succ]; exact h4⟩
    · have hav : a = v := by
        rcases List.mem_cons.1 hv with rfl | h
        · rfl
        · have := h1 v h; omega
      have e : searchLeft (a :: l) v = 0 := by
        rw [searchLeft, List.length_eq_zero_iff, List.filter_eq_nil_iff]
        intro b hb
        rcases List.mem_cons.1 hb with rfl | h
        · simpa using ha
        · have := h1 b h
          simp only [decide_eq_true_eq]; omega
      rw [e]
      exact ⟨by simp, by simpa using hav⟩

theorem yIndex_spec {x index : List ℕ} (h : ArgsortOK x index) (hx : x ≠ []) (v : ℕ) :
    yIndex x index v < x.length ∧ (x.getD (yIndex x index v) 0 = v ↔ v ∈ x) := by
  obtain ⟨hp, hs⟩ := h
  have hlen : index.length = x.length := by simpa using hp.length_eq
  have hpos : 0 < x.length := List.length_pos_of_ne_nil hx
  have hlt : yIndex x index v < x.length := by
    rw [yIndex]
    rw [List.getD_eq_getElem _ _ (by omega)]
    exact List.mem_range.1 (hp.mem_iff.1 (List.getElem_mem _))
  refine ⟨hlt, fun e => ?_, fun hv => ?_⟩
  · rw [← e, List.getD_eq_getElem _ _ hlt]
    exact List.getElem_mem _
  · have hv' : v ∈ index.map fun i => x.getD i 0 := by
      obtain ⟨i, hi, rfl⟩ := List.mem_iff_getElem.1 hv
      exact List.mem_map.2 ⟨i, hp.mem_iff.2 (List.mem_range.2 hi), List.getD_eq_getElem _ _ hi⟩
    obtain ⟨h1, h2⟩ := searchLeft_mem hs hv'
    rw [List.length_map] at h1
    rw [List.getD_eq_getElem _ _ (by rw [List.length_map]; exact h1), List.getElem_map] at h2
    rw [yIndex]
    rw [min_eq_left (by omega), List.getD_eq_getElem _ _ h1]
    exact h2

/-- **C241** `array_match(x, y)` returns, for the entries of `y` that occur in `x` and in their order, positions of `x` where they occur;
the entries that do not occur are left out. -/
theorem C241_match_partial {x index : List ℕ} (h : ArgsortOK x index) (hx : x ≠ []) (y : List ℕ) :
    ∃ r, arrayMatch x index y = some r ∧ (∀ i ∈ r, i < x.length) ∧ r.map (fun i => x.getD i 0) = y.filter (· ∈ x) := by
  have hne : index ≠ [] := by
    intro e
    have := h.1.length_eq
    rw [e] at this
    simp at this
    exact hx (List.length_eq_zero_iff.1 this.symm)
  have hf : (y.filter fun v => x.getD (yIndex x index v) 0 = v) = y.filter (· ∈ x) :=
    List.filter_congr fun v _ => by rw [decide_eq_decide]; exact (yIndex_spec h hx v).2
  refine ⟨_, by rw [arrayMatch, if_neg (fun e => hne e.1)], ?_, ?_⟩
  · intro i hi
    obtain ⟨v, -, rfl⟩ := List.mem_map.1 hi
    exact (yIndex_spec h hx v).1
  · rw [hf, List.map_map]
    conv_rhs => rw [← List.map_id (y.filter (· ∈ x))]
    refine List.map_congr_left fun v hv => ?_
    exact (yIndex_spec h hx v).2.2 (by simpa using (List.mem_filter.1 hv).2)

/-- **C241** With the mask there is one position for each entry of `y`, masked exactly when the entry does not occur in `x`. -/
theorem C241_mask_partial {x index : List ℕ} (h : ArgsortOK x index) (hx : x ≠ []) (y : List ℕ) :
    ∃ r, arrayMatchMask x index y = some r ∧ r.map Prod.snd = y.map (fun v => decide (v ∉ x)) ∧
      ∀ j (hj : j < r.length) (hy : j < y.length), r[j].2 = false → x.getD r[j].1 0 = y[j] := by
  have hne : index ≠ [] := by
    intro e
    have := h.1.length_eq
    rw [e] at this
    simp at this
    exact hx (List.length_eq_zero_iff.1 this.symm)
  refine ⟨_, by rw [arrayMatchMask, if_neg (fun e => hne e.1)], ?_, ?_⟩
  · rw [List.map_map]
    refine List.map_congr_left fun v _ => ?_
    show decide (x.getD (yIndex x index v) 0 ≠ v) = _
    rw [decide_eq_decide]
    exact not_congr (yIndex_spec h hx v).2
  · intro j hj hy hf
    rw [List.getElem_map] at hf ⊢
    simpa using hf

/-- **C241** When no value is repeated the positions do not depend on how `argsort` breaks ties: they are the places of the entries. -/
theorem C241_match_places {x index : List ℕ} (h : ArgsortOK x index) (hx : x ≠ []) (hnd : x.Nodup) (y : List ℕ) :
    arrayMatch x index y = some ((y.filter (· ∈ x)).map x.idxOf) := by
  obtain ⟨r, hr, hlt, hm⟩ := C241_match_partial h hx y
  rw [hr, ← hm, List.map_map]
  refine congrArg some ?_
  conv_lhs => rw [← List.map_id r]
  refine List.map_congr_left fun i hi => ?_
  have := hlt i hi
  simp only [Function.comp_apply, id, List.getD_eq_getElem _ _ this]
  exact (hnd.idxOf_getElem i this).symm

example : ArgsortOK [3, 1, 2] [1, 2, 0] ∧ ([3, 1, 2] : List ℕ) ≠ [] ∧ ([3, 1, 2] : List ℕ).Nodup ∧
    arrayMatch [3, 1, 2] [1, 2, 0] [2, 7, 3] = some [2, 0] := by
  refine ⟨⟨?_, ?_⟩, ?_⟩ <;> decide

/-- **C241** Matching against an empty array raises instead of finding nothing. -/
theorem C241_empty_violated : ArgsortOK [] [] ∧ arrayMatch [] [] [4] = none ∧ arrayMatchMask [] [] [4] = none := by
  refine ⟨⟨?_, ?_⟩, ?_⟩ <;> decide

end Verif.Index
