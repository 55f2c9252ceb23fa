import Verif.Sem.OldFlat
import Verif.Sem.FlatProps
import Verif.Vec.Props
/-!
# C236: the older flattened block indexing
-/
namespace Verif.Sem
open Verif.Np Verif.Vec Verif.Rank Verif.Index

/-- Sum of `g` over the first `i` blocks. -/
def pre (g : Blk → ℕ) (bs : List Blk) (i : ℕ) : ℕ := ((bs.take i).map g).sum

/-- Number of free entries and of distinct parameters of a block. -/
def nnzOf (b : Blk) : ℕ := (nonzero1 (flatV b)).length
def unzOf (b : Blk) : ℕ := ((flatV b).dedup.filter fun x => x ≠ 0).length

theorem unz_eq (b : Blk) : (uniqueNonzero (unique (flatV b))).1.length = unzOf b := by
  rw [(C47_unique_nonzero (flatV b)).1]
  obtain ⟨h1, h2, -⟩ := C10_unique (flatV b)
  have : (unique (flatV b)).1.Perm (flatV b).dedup :=
    (List.perm_ext_iff_of_nodup h1 (List.nodup_dedup _)).2 fun x => by rw [h2, List.mem_dedup]
  exact (this.filter _).length_eq

theorem oldLoop_slices (prev : OFlat) (i : ℕ) (bs : List Blk) :
    (oldLoop prev i bs).map (fun f => (f.span, f.spanNonzero, f.spanUnique)) =
      (List.range bs.length).map fun j =>
        ((prev.span.2 + pre flatSize bs j, prev.span.2 + pre flatSize bs (j + 1)),
         (prev.spanNonzero.2 + pre nnzOf bs j, prev.spanNonzero.2 + pre nnzOf bs (j + 1)),
         (prev.spanUnique.2 + pre unzOf bs j, prev.spanUnique.2 + pre unzOf bs (j + 1))) := by
  induction bs generalizing prev i with
  | nil => rfl
  | cons b bs ih =>
    rw [oldLoop, List.map_cons, ih, List.length_cons, List.range_succ_eq_map, List.map_cons, List.map_map]
    congr 1
    · simp only [OFlat.span, OFlat.spanNonzero, OFlat.spanUnique, OFlat.addOffsets, OFlat.nNnz, OFlat.nUnz, unz_eq, pre, nnzOf,
        List.take_zero, List.map_nil, List.sum_nil, List.take_succ_cons, List.map_cons, List.sum_cons, add_zero, zero_add, Prod.mk.injEq]
      refine ⟨⟨trivial, ?_⟩, ⟨trivial, ?_⟩, ⟨trivial, ?_⟩⟩ <;> exact Nat.add_comm _ _
    · refine List.map_congr_left fun j _ => ?_
      simp only [OFlat.span, OFlat.spanNonzero, OFlat.spanUnique, OFlat.addOffsets, OFlat.nNnz, OFlat.nUnz, unz_eq, pre, nnzOf,
        Function.comp, List.take_succ_cons, List.map_cons, List.sum_cons, Prod.mk.injEq]
      refine ⟨⟨?_, ?_⟩, ⟨?_, ?_⟩, ⟨?_, ?_⟩⟩ <;> omega

/-- **C236.** Storage, free entries and distinct parameters of the blocks lie one after another. -/
theorem C236_slices (bs : List Blk) : oldSlices bs = (List.range bs.length).map fun j =>
    ((pre flatSize bs j, pre flatSize bs (j + 1)), (pre nnzOf bs j, pre nnzOf bs (j + 1)),
      (pre unzOf bs j, pre unzOf bs (j + 1))) := by
  unfold oldSlices
  cases bs with
  | nil => rfl
  | cons b bs =>
    rw [oldFlat, List.map_cons, oldLoop_slices, List.length_cons, List.range_succ_eq_map, List.map_cons, List.map_map]
    congr 1
    · simp [OFlat.span, OFlat.spanNonzero, OFlat.spanUnique, OFlat.nNnz, OFlat.nUnz, unz_eq, pre, nnzOf]
    · refine List.map_congr_left fun j _ => ?_
      simp only [OFlat.span, OFlat.spanNonzero, OFlat.spanUnique, OFlat.nNnz, OFlat.nUnz, unz_eq, pre, nnzOf,
        Function.comp, List.take_succ_cons, List.map_cons, List.sum_cons, Prod.mk.injEq]
      refine ⟨⟨?_, ?_⟩, ⟨?_, ?_⟩, ⟨?_, ?_⟩⟩ <;> omega

/-- **C236, violated.** `update_offsets` changes nothing that is read. -/
theorem C236_update_violated (f : OFlat) (a b c : ℕ) :
    (f.updateOffsets a b c).span = f.span ∧ (f.updateOffsets a b c).spanNonzero = f.spanNonzero ∧
    (f.updateOffsets a b c).spanUnique = f.spanUnique ∧ (f.updateOffsets a b c).flatIndices = f.flatIndices ∧
    (f.updateOffsets a b c).uniqueLocs = f.uniqueLocs := ⟨rfl, rfl, rfl, rfl, rfl⟩

/-! ## Back to the array -/

theorem foldl_set_length (ps : List (ℕ × ℕ)) (w : List ℕ) : (ps.foldl (fun v p => v.set p.1 p.2) w).length = w.length := by
  induction ps generalizing w with
  | nil => rfl
  | cons p ps ih => rw [List.foldl_cons, ih, List.length_set]

theorem foldl_set_shift (ps : List (ℕ × ℕ)) (a w : List ℕ) :
    (ps.map fun p => (p.1 + a.length, p.2)).foldl (fun v p => v.set p.1 p.2) (a ++ w) = a ++ ps.foldl (fun v p => v.set p.1 p.2) w := by
  induction ps generalizing w with
  | nil => rfl
  | cons p ps ih =>
    rw [List.map_cons, List.foldl_cons, List.foldl_cons, ← ih]
    congr 1
    rw [List.set_append_right _ _ (by omega), Nat.add_sub_cancel]

theorem nonzero1_cons (x : ℕ) (v : List ℕ) : nonzero1 (x :: v) = (if x ≠ 0 then [0] else []) ++ (nonzero1 v).map (· + 1) := by
  have := nonzero1_append [x] v
  simp only [List.singleton_append, List.length_singleton] at this
  rw [this]
  congr 1
  by_cases h : x = 0 <;> simp [nonzero1, h]

theorem assign_nonzero (g : ℕ → ℕ) (v : List ℕ) :
    assign1 (List.replicate v.length 0) (nonzero1 v) ((v.filter fun x => decide (x ≠ 0)).map g) =
      some (v.map fun x => if x = 0 then 0 else g x) := by
  have hl : (nonzero1 v).length = ((v.filter fun x => decide (x ≠ 0)).map g).length := by
    induction v with
    | nil => rfl
    | cons x v ih =>
      rw [nonzero1_cons, List.length_append, List.length_map, ih]
      by_cases h : x = 0
      · simp [h]
      · simp [h]; omega
  unfold assign1
  rw [if_pos hl]
  congr 1
  clear hl
  induction v with
  | nil => rfl
  | cons x v ih =>
    rw [nonzero1_cons]
    have hs := foldl_set_shift ((nonzero1 v).zip ((v.filter fun x => decide (x ≠ 0)).map g))
    by_cases h : x = 0
    · subst h
      have := hs [0] (List.replicate v.length 0)
      rw [ih] at this
      simp only [ne_eq, not_true, if_false, List.nil_append, List.length_cons, List.replicate_succ, List.map_cons, if_true]
      rw [List.filter_cons_of_neg (by simp)]
      refine Eq.trans ?_ this
      congr 1
      rw [List.zip_map_left]
      rfl
    · have := hs [g x] (List.replicate v.length 0)
      rw [ih] at this
      simp only [ne_eq, h, not_false_eq_true, if_true, List.length_cons, List.replicate_succ, List.map_cons, if_false]
      rw [List.filter_cons_of_pos (by simpa using h), List.map_cons, List.singleton_append, List.zip_cons_cons, List.foldl_cons, List.set_cons_zero]
      refine Eq.trans ?_ this
      congr 1
      rw [List.zip_map_left]
      rfl

theorem locs_values (v : List ℕ) :
    (uniqueNonzero (unique v)).2.1.map (fun l => (uniqueNonzero (unique v)).1.getD l 0) = v.filter fun x => decide (x ≠ 0) := by
  have h := (C47_unique_nonzero v).2.1
  have := congrArg (List.map fun o : Option ℕ => o.getD 0) h
  rw [List.map_map, List.map_map] at this
  simpa [Function.comp_def, List.getD_eq_getElem?_getD] using this

/-- **C236.** `to_vec` gives back the flattened array. -/
theorem C236_toVec (b : Blk) : toVec b = some (flatV b) := by
  unfold toVec
  have := assign_nonzero id (flatV b)
  rw [List.map_id, flatV_length] at this
  simp only [locs_values, this]
  congr 1
  conv_rhs => rw [← List.map_id (flatV b)]
  exact List.map_congr_left fun x _ => by by_cases h : x = 0 <;> simp [h]

/-- **C236.** `to_array` gives back the array; of a symmetric one the lower triangle is used. -/
theorem C236_toArray (b : Blk) : ∃ Y, toArray b = some Y ∧
    (b.sym = false → ∀ r c, r < b.rows → c < b.cols → Y r c = b.X r c) ∧
    (b.sym = true → ∀ r c, r < b.cols → c < b.cols → Y r c = b.X (max r c) (min r c)) := by
  unfold toArray
  rw [C236_toVec]
  simp only [Option.bind_eq_bind, Option.bind_some]
  by_cases hs : b.sym = true
  · rw [if_pos hs, flatV, if_pos hs, vech, invech_map]
    refine ⟨_, rfl, fun h => by rw [hs] at h; simp at h, fun _ r c hr hc => ?_⟩
    simp only [hr, hc, and_self, if_true]
    by_cases h : r ≤ c
    · rw [if_pos h, max_eq_right h, min_eq_left h]
    · rw [if_neg h, max_eq_left (by omega), min_eq_right (by omega)]
  · rw [if_neg hs, flatV, if_neg hs]
    obtain ⟨Y, hY, hA⟩ := C11_invec_vec b.X b.rows b.cols
    exact ⟨Y, hY, fun _ r c hr hc => hA r c hr hc, fun h => absurd h hs⟩

/-- **C236, partial.** `set_equal` replaces a parameter wherever it occurs, unless a single free entry is left. -/
theorem C236_setEqual_partial (b : Blk) (lhs rhs : ℕ) (hl : lhs ≠ 0)
    (h1 : nnzOf b ≠ 1) (hr : rhs ≠ 0) :
    setEqual b lhs rhs = some ((flatV b).map fun x => if x = lhs then rhs else x, nonzero1 (flatV b), nnzOf b) := by
  have key := assign_nonzero (fun x => if x = lhs then rhs else x) (flatV b)
  rw [flatV_length] at key
  have hv : ((flatV b).map fun x => if x = 0 then 0 else if x = lhs then rhs else x) = (flatV b).map fun x => if x = lhs then rhs else x := by
    refine List.map_congr_left fun x _ => ?_
    by_cases h : x = 0
    · subst h; simp [hl.symm]
    · simp [h]
  have hn : nonzero1 ((flatV b).map fun x => if x = lhs then rhs else x) = nonzero1 (flatV b) := by
    unfold nonzero1
    rw [List.length_map]
    refine List.filter_congr fun k hk => ?_
    have hk := List.mem_range.1 hk
    simp only [List.getD_eq_getElem?_getD, List.getElem?_map, List.getElem?_eq_getElem hk, Option.map_some, Option.getD_some, ne_eq, decide_eq_decide, not_iff_not]
    by_cases h : (flatV b)[k] = lhs
    · rw [if_pos h, h]; simp [hl, hr]
    · rw [if_neg h]
  unfold setEqual
  simp only [locs_values, key, Option.bind_eq_bind, Option.bind_some, hv, hn]
  rw [if_neg (show ¬ (nonzero1 (flatV b)).length = 1 from h1)]
  rfl

/-- **C236, violated.** With one free entry an error is raised. -/
theorem C236_single_violated (b : Blk) (lhs rhs : ℕ) (hl : lhs ≠ 0) (hr : rhs ≠ 0) (h1 : nnzOf b = 1) : setEqual b lhs rhs = none := by
  have key := assign_nonzero (fun x => if x = lhs then rhs else x) (flatV b)
  rw [flatV_length] at key
  unfold setEqual
  simp only [locs_values, key, Option.bind_eq_bind, Option.bind_some]
  have hn : nonzero1 ((flatV b).map fun x => if x = 0 then 0 else if x = lhs then rhs else x) = nonzero1 (flatV b) := by
    unfold nonzero1
    rw [List.length_map]
    refine List.filter_congr fun k hk => ?_
    have hk := List.mem_range.1 hk
    simp only [List.getD_eq_getElem?_getD, List.getElem?_map, List.getElem?_eq_getElem hk, Option.map_some, Option.getD_some, ne_eq, decide_eq_decide, not_iff_not]
    by_cases h0 : (flatV b)[k] = 0
    · simp [h0]
    · by_cases h : (flatV b)[k] = lhs
      · rw [if_neg h0, if_pos h, h]; simp [hl, hr]
      · rw [if_neg h0, if_neg h]
  rw [hn, if_pos (show (nonzero1 (flatV b)).length = 1 from h1)]

/-- Such a block. -/
example : nnzOf ⟨1, 1, false, fun _ _ => 1⟩ = 1 := by decide

/-- **C236, violated.** Fixing a parameter by setting it to zero leaves its cell among the rows and columns, which are
then more than the flat indices. -/
theorem C236_fix_violated : ∃ b : Blk, ∃ v i n, setEqual b 1 0 = some (v, i, n) ∧ i.length = 2 ∧ (nonzero2 b).length = 3 :=
  ⟨⟨1, 3, false, fun _ c => c + 1⟩, [0, 2, 3], [1, 2], 2, by
    have key := assign_nonzero (fun x => if x = 1 then 0 else x) (flatV ⟨1, 3, false, fun _ c => c + 1⟩)
    rw [flatV_length] at key
    unfold setEqual
    simp only [locs_values, key, Option.bind_eq_bind, Option.bind_some]
    decide, by decide, by decide⟩

/-! ## Derivatives -/

theorem oldLoop_cells (prev : OFlat) (i : ℕ) (bs : List Blk) (hb : ∀ b ∈ bs, BlkOk b) :
    ((oldLoop prev i bs).flatMap fun f => (nonzero2 f.blk).map fun rc => (f.blockIndex, rc.1, rc.2)) =
      ((gcells i bs).filter fun x => gval x ≠ 0).map fun x => (x.1, x.2.2.1, x.2.2.2) := by
  induction bs generalizing prev i with
  | nil => rfl
  | cons b bs ih =>
    rw [oldLoop, List.flatMap_cons, ih _ _ (fun x hx => hb x (List.mem_cons_of_mem _ hx)), gcells,
      List.filter_append, List.map_append, List.filter_map, List.map_map]
    simp only [OFlat.addOffsets]
    rw [nonzero2_eq b (hb b List.mem_cons_self)]
    rfl

theorem oldCells_eq (bs : List Blk) (hb : ∀ b ∈ bs, BlkOk b) : oldCells bs = allCells bs := by
  rw [allCells_eq bs hb]
  unfold oldCells oldFlat
  cases bs with
  | nil => rfl
  | cons b bs =>
    rw [List.flatMap_cons, oldLoop_cells _ _ _ (fun x hx => hb x (List.mem_cons_of_mem _ hx)), gcells,
      List.filter_append, List.map_append, nonzero2_eq b (hb b List.mem_cons_self), List.filter_map, List.map_map]
    rfl

/-- Block `i` as read from the vector of all parameters: a symmetric one from its lower triangle. -/
def readBlk (bs : List Blk) (i : ℕ) (b : Blk) (q : ℕ → ℝ) (r c : ℕ) : ℝ :=
  if b.sym then q (before bs i + cellPos b (max r c) (min r c)) else q (before bs i + cellPos b r c)

/-- A cell within a block. -/
def InBlk (b : Blk) (r c : ℕ) : Prop := c < b.cols ∧ (b.sym = true → c ≤ r ∧ r < b.cols) ∧ (b.sym = false → r < b.rows)

theorem mem_cells {b : Blk} {r c : ℕ} (h : InBlk b r c) : (r, c) ∈ cellsOf b := by
  unfold cellsOf
  by_cases hs : b.sym = true
  · rw [if_pos hs]
    obtain ⟨h1, h2⟩ := h.2.1 hs
    refine List.mem_map.2 ⟨(c, r), ?_, rfl⟩
    exact List.mem_of_getElem? (triu_getElem? b.cols r c h1 h2)
  · rw [if_neg hs]
    have h2 := h.2.2 (by simpa using hs)
    exact List.mem_flatMap.2 ⟨c, List.mem_range.2 h.1, List.mem_map.2 ⟨r, List.mem_range.2 h2, rfl⟩⟩

theorem cellPos_inj {b : Blk} {r c r' c' : ℕ} (h : InBlk b r c) (h' : InBlk b r' c') (he : cellPos b r c = cellPos b r' c') :
    r = r' ∧ c = c' := by
  obtain ⟨p, hp⟩ := List.getElem?_of_mem (mem_cells h)
  obtain ⟨p', hp'⟩ := List.getElem?_of_mem (mem_cells h')
  have e1 := (cells_pos b p r c hp).1
  have e2 := (cells_pos b p' r' c' hp').1
  rw [e1, he, ← e2, hp'] at hp
  simp only [Option.some.injEq, Prod.mk.injEq] at hp
  exact ⟨hp.1.symm, hp.2.symm⟩

/-- **C236.** `dA[k]` is the derivative of its block in the `k`-th free parameter. -/
theorem C236_deriv (bs : List Blk) (hb : ∀ b ∈ bs, BlkOk b) (k p : ℕ) (h : (allFlatIndices bs)[k]? = some p) :
    ∃ i b D, (oldCells bs)[k]?.map Prod.fst = some i ∧ bs[i]? = some b ∧ derivArr bs k = some D ∧
      ∀ (q : ℕ → ℝ) (t : ℝ) (r c : ℕ), c < b.cols → r < (if b.sym then b.cols else b.rows) →
        readBlk bs i b (Function.update q p (q p + t)) r c = readBlk bs i b q r c + t * D r c := by
  obtain ⟨i, b, r0, c0, h1, h2, h3, -, h5⟩ := C47_cells bs hb k p h
  rw [← oldCells_eq bs hb] at h1
  refine ⟨i, b, _, by rw [h1]; rfl, h2, by unfold derivArr; rw [h1]; simp only [Option.bind_eq_bind, Option.bind_some]; rw [h2]; rfl, ?_⟩
  intro q t r c hc hr
  unfold readBlk
  have hin0 : InBlk b r0 c0 := h5
  by_cases hs : b.sym = true
  · simp only [hs, if_true, true_and] at hr ⊢
    have hin : InBlk b (max r c) (min r c) := ⟨by omega, fun _ => by omega, fun h => by rw [hs] at h; simp at h⟩
    have hle := (hin0.2.1 hs).1
    by_cases he : cellPos b (max r c) (min r c) = cellPos b r0 c0
    · obtain ⟨e1, e2⟩ := cellPos_inj hin hin0 he
      rw [he, ← h3, Function.update_self, if_pos, mul_one]
      simp only [Prod.mk.injEq]
      omega
    · rw [Function.update_of_ne (by rw [h3]; omega), if_neg, mul_zero, add_zero]
      intro hor
      apply he
      simp only [Prod.mk.injEq] at hor
      have e1 : max r c = r0 := by omega
      have e2 : min r c = c0 := by omega
      rw [e1, e2]
  · simp only [hs] at hr ⊢
    simp only [Bool.false_eq_true, if_false, false_and, or_false] at hr ⊢
    have hin : InBlk b r c := ⟨hc, fun h => absurd h hs, fun _ => hr⟩
    by_cases he : cellPos b r c = cellPos b r0 c0
    · obtain ⟨e1, e2⟩ := cellPos_inj hin hin0 he
      rw [he, ← h3, Function.update_self, if_pos (by rw [e1, e2]), mul_one]
    · rw [Function.update_of_ne (by rw [h3]; omega), if_neg, mul_zero, add_zero]
      intro hor
      apply he
      rw [(Prod.mk.injEq _ _ _ _).mp hor |>.1, (Prod.mk.injEq _ _ _ _).mp hor |>.2]

/-! ## Types of second derivatives -/

theorem pairType_go (L : List (ℕ × ℕ)) (s t bi bj : ℕ) (hL : L.Nodup) :
    (L.zip (List.range' s L.length)).foldl (fun t x => if bi = x.1.1 ∧ bj = x.1.2 then x.2 else t) t =
      if (bi, bj) ∈ L then s + L.idxOf (bi, bj) else t := by
  induction L generalizing s t with
  | nil => simp
  | cons a L ih =>
    rw [List.length_cons, List.range'_succ, List.zip_cons_cons, List.foldl_cons, ih _ _ (List.nodup_cons.1 hL).2]
    by_cases ha : a = (bi, bj)
    · subst ha
      rw [if_neg (List.nodup_cons.1 hL).1, if_pos List.mem_cons_self, List.idxOf_cons_self]
      simp
    · have hn : ¬(bi = a.1 ∧ bj = a.2) := fun h => ha (Prod.ext h.1.symm h.2.symm)
      simp only [hn, if_false]
      by_cases hm : (bi, bj) ∈ L
      · rw [if_pos hm, if_pos (List.mem_cons_of_mem _ hm), List.idxOf_cons_ne _ ha]
        omega
      · rw [if_neg hm, if_neg (by simp [hm, Ne.symm ha])]

/-- **C236.** By default every pair of blocks, the first not before the second, has its own type, from one on. -/
theorem C236_types (n bi bj : ℕ) (hj : bj ≤ bi) (hi : bi < n) :
    oldPairType (defaultCross n) bi bj ≠ 0 ∧
    ∀ ci cj, cj ≤ ci → ci < n → (oldPairType (defaultCross n) bi bj = oldPairType (defaultCross n) ci cj ↔ bi = ci ∧ bj = cj) := by
  have hnd : (defaultCross n).Nodup := by
    unfold defaultCross trilIndices
    exact (nodup_npTriu n _).map Prod.swap_injective
  have hmem : ∀ a b, b ≤ a → a < n → (a, b) ∈ defaultCross n := by
    intro a b h1 h2
    unfold defaultCross trilIndices
    simp only [if_true, zero_mul]
    exact List.mem_map.2 ⟨(b, a), List.mem_of_getElem? (triu_getElem? n a b h1 h2), rfl⟩
  have hval : ∀ a b, b ≤ a → a < n → oldPairType (defaultCross n) a b = 1 + (defaultCross n).idxOf (a, b) := by
    intro a b h1 h2
    unfold oldPairType
    rw [pairType_go _ _ _ _ _ hnd, if_pos (hmem a b h1 h2)]
  refine ⟨by rw [hval bi bj hj hi]; omega, fun ci cj h1 h2 => ?_⟩
  rw [hval bi bj hj hi, hval ci cj h1 h2]
  constructor
  · intro h
    have := List.idxOf_inj (hmem bi bj hj hi) |>.1 (by omega : (defaultCross n).idxOf (bi, bj) = (defaultCross n).idxOf (ci, cj))
    exact ⟨congrArg Prod.fst this, congrArg Prod.snd this⟩
  · rintro ⟨rfl, rfl⟩; rfl

end Verif.Sem
