import Verif.Sem.Flat
import Verif.Vec.Lemmas2
import Verif.Rank.Props
/-!
# C47: flattened block indexing
-/
set_option linter.unusedSectionVars false
namespace Verif.Sem
open Verif.Np Verif.Vec Verif.Rank

/-! ## Specification -/

/-- Cells of a block in storage order: columns left to right, top to bottom (from the diagonal
down for a symmetric block). -/
def cellsOf (b : Blk) : List (ℕ × ℕ) :=
  if b.sym then (npTriu b.cols 0).map Prod.swap
  else (List.range b.cols).flatMap fun c => (List.range b.rows).map fun r => (r, c)

/-- Position of cell `(r, c)` inside its block. -/
def cellPos (b : Blk) (r c : ℕ) : ℕ :=
  if b.sym then r + c * b.cols - c * (c + 1) / 2 else c * b.rows + r

/-- Total size of the first `i` blocks. -/
def before (bs : List Blk) (i : ℕ) : ℕ := ((bs.take i).map flatSize).sum

/-- A symmetric block is square and its free entries are in the lower triangle (the table is
sorted so, `C48_lower`). -/
def BlkOk (b : Blk) : Prop := b.sym = true → b.rows = b.cols ∧ ∀ r c, b.X r c ≠ 0 → c ≤ r

/-! ## Lemmas -/

theorem flatV_length (b : Blk) : (flatV b).length = flatSize b := by
  unfold flatV flatSize
  split_ifs
  · rw [vech_length]
  · rw [vec_length]

theorem flatV_eq (b : Blk) : flatV b = (cellsOf b).map fun rc => b.X rc.1 rc.2 := by
  unfold flatV cellsOf
  split_ifs
  · rw [vech, List.map_map]; rfl
  · rw [vec, List.map_flatMap]
    simp only [List.map_map]; rfl

theorem nonzero2_eq (b : Blk) (hb : BlkOk b) :
    nonzero2 b = (cellsOf b).filter fun rc => b.X rc.1 rc.2 ≠ 0 := by
  unfold nonzero2 cellsOf
  split_ifs with hs
  · obtain ⟨h1, h2⟩ := hb hs
    unfold npTriu
    rw [List.map_flatMap, List.filter_flatMap]
    apply List.flatMap_congr
    intro c _
    rw [List.map_map, List.filter_map, List.filter_filter, h1]
    have : (List.range b.cols).filter (fun r => decide (b.X r c ≠ 0)) =
        (List.range b.cols).filter (fun r => ((fun rc : ℕ × ℕ => decide (b.X rc.1 rc.2 ≠ 0)) ∘
          (Prod.swap ∘ fun j => (c, j))) r && decide ((c : ℤ) + 0 ≤ (r : ℤ))) := by
      apply List.filter_congr
      intro r _
      simp only [Function.comp, Prod.swap_prod_mk]
      by_cases hx : b.X r c = 0
      · simp [hx]
      · have := h2 r c hx
        simp [hx]; omega
    rw [this]
    rfl
  · rw [List.filter_flatMap]
    apply List.flatMap_congr
    intro c _
    rw [List.filter_map]
    rfl

theorem nonzero1_append (a b : List ℕ) :
    nonzero1 (a ++ b) = nonzero1 a ++ (nonzero1 b).map (· + a.length) := by
  unfold nonzero1
  rw [List.length_append, List.range_add, List.filter_append, List.filter_map]
  congr 1
  · apply List.filter_congr
    intro k hk
    rw [List.getD_append _ _ _ _ (List.mem_range.1 hk)]
  · have : ((fun k => decide ((a ++ b).getD k 0 ≠ 0)) ∘ fun x => a.length + x) =
        fun k => decide (b.getD k 0 ≠ 0) := by
      funext k
      simp only [Function.comp]
      rw [List.getD_append_right _ _ _ _ (by omega)]
      simp
    rw [this]
    apply List.map_congr_left
    intro k _
    omega

theorem nonzero1_cells {β : Type*} (l : List β) (f : β → ℕ) :
    (nonzero1 (l.map f)).map (fun k => l[k]?) = (l.filter fun x => f x ≠ 0).map some := by
  induction l using List.reverseRecOn with
  | nil => rfl
  | append_singleton l x ih =>
    rw [List.map_append, nonzero1_append, List.map_append, List.filter_append, List.map_append]
    congr 1
    · rw [← ih]
      apply List.map_congr_left
      intro k hk
      have : k < l.length := by
        have := List.mem_range.1 (List.mem_filter.1 hk).1
        simpa using this
      rw [List.getElem?_append_left this]
    · by_cases h : f x = 0
      · simp [nonzero1, h]
      · simp [nonzero1, h]

/-- All cells with block number and block. -/
def gcells : ℕ → List Blk → List (ℕ × Blk × ℕ × ℕ)
  | _, [] => []
  | i, b :: bs => (cellsOf b).map (fun rc => (i, b, rc.1, rc.2)) ++ gcells (i + 1) bs

def gval (x : ℕ × Blk × ℕ × ℕ) : ℕ := x.2.1.X x.2.2.1 x.2.2.2

theorem allV_eq (i : ℕ) (bs : List Blk) : bs.flatMap flatV = (gcells i bs).map gval := by
  induction bs generalizing i with
  | nil => rfl
  | cons b bs ih =>
    rw [List.flatMap_cons, gcells, List.map_append, ih (i + 1), flatV_eq, List.map_map]
    rfl

theorem loop_flat (prev : Flat) (i : ℕ) (bs : List Blk) :
    (blockLoop prev i bs).flatMap Flat.flatIndices =
      (nonzero1 (bs.flatMap flatV)).map (· + prev.stop) := by
  induction bs generalizing prev i with
  | nil => rfl
  | cons b bs ih =>
    rw [blockLoop]
    rw [List.flatMap_cons, ih, List.flatMap_cons, nonzero1_append, List.map_append, List.map_map]
    congr 1
    apply List.map_congr_left
    intro k _
    simp only [Function.comp, Flat.stop, Flat.addOffsets, mkFlat, flatV_length]
    omega

theorem loop_cells (prev : Flat) (i : ℕ) (bs : List Blk) (hb : ∀ b ∈ bs, BlkOk b) :
    ((blockLoop prev i bs).flatMap fun f => (nonzero2 f.blk).map fun rc =>
      (f.blockIndex, rc.1, rc.2)) =
      ((gcells i bs).filter fun x => gval x ≠ 0).map fun x => (x.1, x.2.2.1, x.2.2.2) := by
  induction bs generalizing prev i with
  | nil => rfl
  | cons b bs ih =>
    rw [blockLoop]
    rw [List.flatMap_cons, ih _ _ (fun x hx => hb x (List.mem_cons_of_mem _ hx)), gcells,
      List.filter_append, List.map_append]
    congr 1
    simp only [mkFlat, Flat.addOffsets]
    rw [nonzero2_eq b (hb b (by simp)), List.filter_map, List.map_map]
    rfl

theorem loop_slices (prev : Flat) (i : ℕ) (bs : List Blk) :
    (blockLoop prev i bs).map (fun f => (f.start, f.stop)) =
      (List.range bs.length).map fun j =>
        (prev.stop + before bs j, prev.stop + before bs (j + 1)) := by
  induction bs generalizing prev i with
  | nil => rfl
  | cons b bs ih =>
    rw [blockLoop]
    rw [List.map_cons, ih, List.length_cons, List.range_succ_eq_map, List.map_cons, List.map_map]
    congr 1
    · simp [Flat.start, Flat.stop, Flat.addOffsets, mkFlat, before, Nat.add_comm]
    · apply List.map_congr_left
      intro j _
      simp only [Function.comp, Flat.stop, Flat.addOffsets, mkFlat, before, List.take_succ_cons,
        List.map_cons, List.sum_cons, Prod.mk.injEq]
      constructor <;> omega

/-! ## Theorems -/

/-- Block `i` occupies the slice that starts where block `i-1` ends. -/
theorem C47_slices (bs : List Blk) :
    slices bs = (List.range bs.length).map fun i => (before bs i, before bs (i + 1)) := by
  unfold slices blockFlat
  cases bs with
  | nil => rfl
  | cons b bs =>
    rw [List.map_cons, loop_slices, List.length_cons, List.range_succ_eq_map, List.map_cons,
      List.map_map]
    have h0 : ((mkFlat b).start, (mkFlat b).stop) =
        (before (b :: bs) 0, before (b :: bs) (0 + 1)) := by
      simp [Flat.start, Flat.stop, mkFlat, before]
    rw [h0]
    congr 1

/-- The slice of block `i` in the concatenated vector is block `i`, so slices are disjoint and
cover everything. -/
theorem C47_slice_content (bs : List Blk) (i : ℕ) (b : Blk) (h : bs[i]? = some b) :
    ((bs.flatMap flatV).drop (before bs i)).take (before bs (i + 1) - before bs i) = flatV b ∧
    before bs bs.length = (bs.flatMap flatV).length := by
  have hlen : ∀ l : List Blk, (l.flatMap flatV).length = (l.map flatSize).sum := by
    intro l
    rw [List.length_flatMap]
    congr 1
    exact List.map_congr_left fun b _ => flatV_length b
  refine ⟨?_, ?_⟩
  · obtain ⟨hi, rfl⟩ := List.getElem?_eq_some_iff.1 h
    have hsplit : bs = bs.take i ++ (bs[i] :: bs.drop (i + 1)) := by
      rw [← List.drop_eq_getElem_cons hi, List.take_append_drop]
    have hb : before bs (i + 1) = before bs i + flatSize bs[i] := by
      unfold before
      rw [List.take_add_one, h, Option.toList_some, List.map_append, List.sum_append]
      simp
    rw [hb, Nat.add_sub_cancel_left]
    have h1 : before bs i = ((bs.take i).flatMap flatV).length := by rw [hlen]; rfl
    have h2 : bs.flatMap flatV =
        (bs.take i).flatMap flatV ++ (flatV bs[i] ++ (bs.drop (i + 1)).flatMap flatV) := by
      conv_lhs => rw [hsplit]
      rw [List.flatMap_append, List.flatMap_cons]
    rw [h2, h1, List.drop_left, ← flatV_length, List.take_left]
  · rw [hlen]; unfold before; rw [List.take_length]

/-- The flat indices are exactly the positions of the nonzero entries of the concatenated
vector, each once, in increasing order. -/
theorem C47_flat_indices (bs : List Blk) :
    allFlatIndices bs = nonzero1 (bs.flatMap flatV) ∧ (allFlatIndices bs).Pairwise (· < ·) := by
  have h : allFlatIndices bs = nonzero1 (bs.flatMap flatV) := by
    unfold allFlatIndices blockFlat
    cases bs with
    | nil => rfl
    | cons b bs =>
      rw [List.flatMap_cons, loop_flat, List.flatMap_cons, nonzero1_append]
      congr 1
      · simp [Flat.flatIndices, mkFlat]
      · simp [Flat.stop, mkFlat, flatV_length]
  refine ⟨h, ?_⟩
  rw [h]
  exact List.Pairwise.filter _ List.pairwise_lt_range

theorem allCells_eq (bs : List Blk) (hb : ∀ b ∈ bs, BlkOk b) : allCells bs =
    ((gcells 0 bs).filter fun x => gval x ≠ 0).map fun x => (x.1, x.2.2.1, x.2.2.2) := by
  unfold allCells blockFlat
  cases bs with
  | nil => rfl
  | cons b bs =>
    rw [List.flatMap_cons, loop_cells _ _ _ (fun x hx => hb x (List.mem_cons_of_mem _ hx)), gcells,
      List.filter_append, List.map_append]
    congr 1
    simp only [mkFlat]
    rw [nonzero2_eq b (hb b (by simp)), List.filter_map, List.map_map]
    rfl

theorem colOff_closed (n r c : ℕ) (h1 : c ≤ r) (h2 : r < n) :
    colOff n c + (r - c) = r + c * n - c * (c + 1) / 2 := by
  have h := colOff_eq n c (by omega)
  obtain ⟨t, ht⟩ := tri_even c
  rw [tri_div c t ht]
  have : c * c + c = 2 * t := by rw [← ht]; ring
  omega

theorem cells_pos (b : Blk) (p r c : ℕ) (h : (cellsOf b)[p]? = some (r, c)) :
    p = cellPos b r c ∧ c < b.cols ∧ (b.sym = true → c ≤ r ∧ r < b.cols) ∧
      (b.sym = false → r < b.rows) := by
  unfold cellsOf at h
  unfold cellPos
  split_ifs at h with hs
  · rw [List.getElem?_map, Option.map_eq_some_iff] at h
    obtain ⟨⟨s, r'⟩, h1, h2⟩ := h
    simp only [Prod.swap_prod_mk, Prod.mk.injEq] at h2
    obtain ⟨rfl, rfl⟩ := h2
    have hm := List.mem_of_getElem? h1
    rw [Verif.Index.mem_npTriu] at hm
    have hsr : s ≤ r' := by omega
    have h3 := triu_getElem? b.cols r' s hsr hm.2.1
    obtain ⟨hp, hp2⟩ := List.getElem?_eq_some_iff.1 h1
    obtain ⟨hq, hq2⟩ := List.getElem?_eq_some_iff.1 h3
    have := (List.Nodup.getElem_inj_iff (nodup_npTriu b.cols 0) (hi := hp) (hj := hq)).1
      (by rw [hp2, hq2])
    rw [if_pos hs]
    refine ⟨by rw [this, colOff_closed _ _ _ hsr hm.2.1], hm.1, fun _ => ⟨hsr, hm.2.1⟩, ?_⟩
    intro hf; rw [hs] at hf; simp at hf
  · have hm := List.mem_of_getElem? h
    simp only [List.mem_flatMap, List.mem_range, List.mem_map, Prod.mk.injEq] at hm
    obtain ⟨c', hc, r', hr, rfl, rfl⟩ := hm
    have hlt := (List.getElem?_eq_some_iff.1 h).1
    rw [length_flatMap_range] at hlt
    simp only [List.length_map, List.length_range, Finset.sum_const, Finset.card_range,
      smul_eq_mul] at hlt
    have hpos : 0 < b.rows := by omega
    have h3 := getElem?_flatMap_range (fun c => (List.range b.rows).map fun r => (r, c)) b.cols
      (p / b.rows) (p % b.rows) (Nat.div_lt_of_lt_mul (by rw [Nat.mul_comm]; exact hlt))
      (by simpa using Nat.mod_lt _ hpos)
    simp only [List.length_map, List.length_range, Finset.sum_const, Finset.card_range,
      smul_eq_mul] at h3
    rw [Nat.div_add_mod' p b.rows, h] at h3
    rw [List.getElem?_map, List.getElem?_range (Nat.mod_lt _ hpos)] at h3
    simp only [Option.map_some, Option.some.injEq, Prod.mk.injEq] at h3
    rw [if_neg hs]
    refine ⟨?_, hc, fun h => absurd h hs, fun _ => hr⟩
    rw [h3.1, h3.2]
    exact (Nat.div_add_mod' p b.rows).symm

theorem gcells_pos (i0 : ℕ) (bs : List Blk) (p i r c : ℕ) (b : Blk)
    (h : (gcells i0 bs)[p]? = some (i, b, r, c)) :
    ∃ j, i = i0 + j ∧ bs[j]? = some b ∧ p = before bs j + cellPos b r c ∧
      c < b.cols ∧ (b.sym = true → c ≤ r ∧ r < b.cols) ∧ (b.sym = false → r < b.rows) := by
  induction bs generalizing i0 p with
  | nil => simp [gcells] at h
  | cons b' bs ih =>
    rw [gcells] at h
    have hlen : ((cellsOf b').map fun rc => (i0, b', rc.1, rc.2)).length = flatSize b' := by
      rw [List.length_map, ← flatV_length, flatV_eq, List.length_map]
    rcases Nat.lt_or_ge p (flatSize b') with hp | hp
    · rw [List.getElem?_append_left (by rw [hlen]; exact hp), List.getElem?_map,
        Option.map_eq_some_iff] at h
      obtain ⟨⟨r', c'⟩, h1, h2⟩ := h
      simp only [Prod.mk.injEq] at h2
      obtain ⟨rfl, rfl, rfl, rfl⟩ := h2
      obtain ⟨a1, a2⟩ := cells_pos _ _ _ _ h1
      exact ⟨0, by omega, rfl, by rw [a1]; simp [before], a2⟩
    · rw [List.getElem?_append_right (by rw [hlen]; exact hp), hlen] at h
      obtain ⟨j, h1, h2, h3, h4⟩ := ih (i0 + 1) _ h
      refine ⟨j + 1, by omega, by simpa using h2, ?_, h4⟩
      have : before (b' :: bs) (j + 1) = flatSize b' + before bs j := by
        simp [before]
      rw [this]; omega

/-- The `k`-th flat index addresses the `k`-th listed cell: it lies in that cell's block at the
vec (or vech) position of its row and column. -/
theorem C47_cells (bs : List Blk) (hb : ∀ b ∈ bs, BlkOk b) (k p : ℕ)
    (h : (allFlatIndices bs)[k]? = some p) :
    ∃ i b r c, (allCells bs)[k]? = some (i, r, c) ∧ bs[i]? = some b ∧
      p = before bs i + cellPos b r c ∧ b.X r c ≠ 0 ∧
      c < b.cols ∧ (b.sym = true → c ≤ r ∧ r < b.cols) ∧ (b.sym = false → r < b.rows) := by
  have h1 := nonzero1_cells (gcells 0 bs) gval
  rw [← allV_eq, ← (C47_flat_indices bs).1] at h1
  have h2 := congrArg (fun l => l[k]?) h1
  simp only [List.getElem?_map, h, Option.map_some] at h2
  have h2 := h2.symm
  rw [Option.map_eq_some_iff] at h2
  obtain ⟨⟨i, b, r, c⟩, h3, h4⟩ := h2
  obtain ⟨j, a1, a2⟩ := gcells_pos 0 bs p i r c b h4.symm
  have hij : i = j := by omega
  subst hij
  have hv : b.X r c ≠ 0 := by
    have := (List.mem_filter.1 (List.mem_of_getElem? h3)).2
    exact of_decide_eq_true this
  refine ⟨i, b, r, c, ?_, a2.1, a2.2.1, hv, a2.2.2⟩
  rw [allCells_eq bs hb, List.getElem?_map, h3]
  rfl

/-- As many flat indices as listed cells. -/
theorem C47_length (bs : List Blk) (hb : ∀ b ∈ bs, BlkOk b) :
    (allFlatIndices bs).length = (allCells bs).length := by
  have h1 := nonzero1_cells (gcells 0 bs) gval
  rw [← allV_eq, ← (C47_flat_indices bs).1] at h1
  have := congrArg List.length h1
  rw [allCells_eq bs hb]
  simpa using this

theorem maskSelect_filter {α β : Type*} (l : List α) (f : α → β) (p : α → Bool) :
    maskSelect (l.map f) (l.map p) = (l.filter p).map f := by
  induction l with
  | nil => rfl
  | cons a l ih =>
    rw [List.map_cons, List.map_cons, maskSelect, ih]
    by_cases h : p a = true
    · rw [if_pos h, List.filter_cons_of_pos h, List.map_cons]
    · rw [if_neg h, List.filter_cons_of_neg h]

/-- `unique_nonzero(v)`: the distinct nonzero values in order of first appearance, for every
nonzero entry the place of its value among them, and the first position of each. -/
theorem C47_unique_nonzero (v : List ℕ) :
    (uniqueNonzero (unique v)).1 = (unique v).1.filter (fun x => decide (x ≠ 0)) ∧
    (uniqueNonzero (unique v)).2.1.map (fun l => (uniqueNonzero (unique v)).1[l]?) =
      (v.filter fun x => decide (x ≠ 0)).map some ∧
    (uniqueNonzero (unique v)).2.2 = (uniqueNonzero (unique v)).1.map (fun x => v.idxOf x) := by
  obtain ⟨h1, h2, h3, h4, h5, h6⟩ := C10_unique v
  have hinv : (unique v).2.1 = v.map fun x => (unique v).1.idxOf x := by
    apply List.ext_getElem?
    intro i
    rcases Nat.lt_or_ge i v.length with hi | hi
    · rw [List.getElem?_map, List.getElem?_eq_getElem hi]
      have h := h6 i hi
      have hl : i < (unique v).2.1.length := by rw [h5]; exact hi
      rw [List.getElem?_eq_getElem hl]
      rw [List.getD_eq_getElem _ _ hl, List.getElem?_eq_getElem hi] at h
      obtain ⟨h7, h8⟩ := List.getElem?_eq_some_iff.1 h
      simp only [Option.map_some, Option.some.injEq]
      rw [← h8, List.Nodup.idxOf_getElem h1]
    · rw [List.getElem?_eq_none (by rw [h5]; exact hi), List.getElem?_eq_none (by simpa using hi)]
  have hu : (uniqueNonzero (unique v)).1 = (unique v).1.filter (fun x => decide (x ≠ 0)) := by
    have := maskSelect_filter (unique v).1 id (fun x => decide (x ≠ 0))
    simpa [uniqueNonzero] using this
  refine ⟨hu, ?_, ?_⟩
  · rw [hu]
    generalize hU : (unique v).1 = u at *
    by_cases hz : (0 : ℕ) ∈ u
    · obtain ⟨a, b, rfl, ha⟩ := List.append_of_mem hz |>.elim fun a h => h.elim fun b h =>
        (show ∃ a b, u = a ++ 0 :: b ∧ 0 ∉ a from by
          refine ⟨a, b, h, ?_⟩
          rw [h] at h1
          intro h0
          exact (List.nodup_append.1 h1).2.2 0 h0 0 (by simp) rfl)
      have hb : 0 ∉ b := (List.nodup_cons.1 (List.nodup_append.1 h1).2.1).1
      have hfind : (a ++ 0 :: b).findIdx? (fun x => x == 0) = some a.length := by
        rw [List.findIdx?_append]
        have : a.findIdx? (fun x => x == 0) = none := by
          rw [List.findIdx?_eq_none_iff]
          intro x hx
          simp only [beq_eq_false_iff_ne]
          rintro rfl; exact ha hx
        rw [this]; simp [List.findIdx?_cons]
      have hfa : a.filter (fun x => decide (x ≠ 0)) = a := by
        apply List.filter_eq_self.2
        intro x hx
        simp only [decide_eq_true_eq]
        rintro rfl; exact ha hx
      have hfb : b.filter (fun x => decide (x ≠ 0)) = b := by
        apply List.filter_eq_self.2
        intro x hx
        simp only [decide_eq_true_eq]
        rintro rfl; exact hb hx
      have huf : (a ++ 0 :: b).filter (fun x => decide (x ≠ 0)) = a ++ b := by
        rw [List.filter_append, List.filter_cons_of_neg (by simp), hfa, hfb]
      have hl : (uniqueNonzero (unique v)).2.1 =
          ((unique v).2.1.filter fun l => l ≠ a.length).map
            fun l => if l > a.length then l - 1 else l := by
        simp only [uniqueNonzero, hU, hfind]
      rw [huf, hl, hinv, List.filter_map, List.map_map, List.map_map]
      have hz0 : (a ++ 0 :: b).idxOf 0 = a.length := by
        rw [List.idxOf_append_of_notMem ha]; simp
      have hfilt : v.filter ((fun l => decide (l ≠ a.length)) ∘
          fun x => (a ++ 0 :: b).idxOf x) = v.filter fun x => decide (x ≠ 0) := by
        apply List.filter_congr
        intro x hx
        have hxu := (h2 x).2 hx
        have := List.idxOf_inj (l := a ++ 0 :: b) (y := 0) hxu
        rw [hz0] at this
        simp only [Function.comp, ne_eq, this]
      rw [hfilt]
      apply List.map_congr_left
      intro x hx
      obtain ⟨hxv, hx0⟩ := List.mem_filter.1 hx
      have hx0 : x ≠ 0 := of_decide_eq_true hx0
      have hxu := (h2 x).2 hxv
      simp only [Function.comp]
      by_cases hxa : x ∈ a
      · have hlt := List.idxOf_lt_length_iff.2 hxa
        rw [List.idxOf_append_of_mem hxa, if_neg (by omega), List.getElem?_append_left hlt,
          List.getElem?_eq_getElem hlt, List.getElem_idxOf hlt]
      · have hxb : x ∈ b := by
          rcases List.mem_append.1 hxu with h | h
          · exact absurd h hxa
          · rcases List.mem_cons.1 h with h | h
            · exact absurd h hx0
            · exact h
        have hlt := List.idxOf_lt_length_iff.2 hxb
        rw [List.idxOf_append_of_notMem hxa, List.idxOf_cons_ne _ (Ne.symm hx0),
          if_pos (by omega), List.getElem?_append_right (by omega)]
        have : a.length + (b.idxOf x).succ - 1 - a.length = b.idxOf x := by omega
        rw [this, List.getElem?_eq_getElem hlt, List.getElem_idxOf hlt]
    · have hfind : u.findIdx? (fun x => x == 0) = none := by
        rw [List.findIdx?_eq_none_iff]
        intro x hx
        simp only [beq_eq_false_iff_ne]
        rintro rfl; exact hz hx
      have hfu : u.filter (fun x => decide (x ≠ 0)) = u := by
        apply List.filter_eq_self.2
        intro x hx
        simp only [decide_eq_true_eq]
        rintro rfl; exact hz hx
      have hfv : v.filter (fun x => decide (x ≠ 0)) = v := by
        apply List.filter_eq_self.2
        intro x hx
        simp only [decide_eq_true_eq]
        rintro rfl; exact hz ((h2 0).2 hx)
      have hl : (uniqueNonzero (unique v)).2.1 = (unique v).2.1 := by
        simp only [uniqueNonzero, hU, hfind]
      rw [hl, hfu, hfv, hinv, List.map_map]
      apply List.map_congr_left
      intro x hx
      have hlt := List.idxOf_lt_length_iff.2 ((h2 x).2 hx)
      simp only [Function.comp]
      rw [List.getElem?_eq_getElem hlt, List.getElem_idxOf hlt]
  · rw [hu]
    have : (uniqueNonzero (unique v)).2.2 =
        maskSelect (unique v).2.2 ((unique v).1.map fun x => decide (x ≠ 0)) := rfl
    rw [this, h3, maskSelect_filter]

/-- `slices_nonzero` and `slices_unique` of every block start at 0: two 1×1 free blocks overlap
(`add_offsets` writes attributes nothing reads). -/
theorem C47_slices_nonzero_violated :
    slicesNonzero [Blk.mk 1 1 false fun _ _ => 1, Blk.mk 1 1 false fun _ _ => 2] =
      [(0, 1), (0, 1)] ∧
    slicesUnique [Blk.mk 1 1 false fun _ _ => 1, Blk.mk 1 1 false fun _ _ => 2] =
      [(0, 1), (0, 1)] := by decide

example : BlkOk (Blk.mk 2 2 true fun r c => if c ≤ r then r + c + 1 else 0) := by
  intro _
  refine ⟨rfl, ?_⟩
  intro r c h
  by_contra h'
  exact h (by simp [h'])

end Verif.Sem
