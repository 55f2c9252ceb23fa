import Verif.Sem.Params
import Verif.Sem.FlatProps
import Verif.Vec.Props
import Mathlib.Algebra.Field.Rat
/-!
# C204: every parameter reaches its cell

The vector of free parameters is in the order of the free rows of the sorted table; the matrices
built from it hold every free parameter, every fixed value and every default at its own cell.
-/
namespace Verif.Sem
open Verif.Np Verif.Vec Verif.Index
variable {R : Type*}

/-! ### Positions -/

theorem cellPos_get {S : Type*} (b : Blk) (X : ℕ → ℕ → S) {r c : ℕ} (hc : c < b.cols)
    (hs : b.sym = true → c ≤ r ∧ r < b.cols) (hn : b.sym = false → r < b.rows) :
    (if b.sym then vech X b.cols else vec X b.rows b.cols)[cellPos b r c]? = some (X r c) := by
  unfold cellPos
  cases h : b.sym
  · simp only [Bool.false_eq_true, if_false]
    exact vec_getElem? X _ _ r c (hn h) hc
  · simp only [if_true]
    have h1 := hs h
    have h3 := triu_getElem? b.cols r c h1.1 h1.2
    unfold vech
    rw [← colOff_closed _ _ _ h1.1 h1.2, List.getElem?_map, h3]
    rfl

theorem length_flat {S : Type*} (b : Blk) (X : ℕ → ℕ → S) :
    (if b.sym then vech X b.cols else vec X b.rows b.cols).length = flatSize b := by
  unfold flatSize
  split_ifs
  · unfold vech
    rw [List.length_map, length_npTriu_zero]
  · exact vec_length X _ _

theorem cellPos_lt (b : Blk) {r c : ℕ} (hc : c < b.cols)
    (hs : b.sym = true → c ≤ r ∧ r < b.cols) (hn : b.sym = false → r < b.rows) :
    cellPos b r c < flatSize b := by
  have h := cellPos_get b b.X hc hs hn
  have := (List.getElem?_eq_some_iff.1 h).1
  rwa [length_flat] at this

/-- The position is increasing in column, then row. -/
theorem cellPos_mono (b : Blk) {r c r' c' : ℕ} (hc' : c' < b.cols)
    (hs : b.sym = true → c ≤ r ∧ r < b.cols) (hn : b.sym = false → r < b.rows)
    (hs' : b.sym = true → c' ≤ r' ∧ r' < b.cols)
    (hlt : c < c' ∨ (c = c' ∧ r < r')) : cellPos b r c < cellPos b r' c' := by
  unfold cellPos
  cases h : b.sym
  · simp only [Bool.false_eq_true, if_false]
    have h1 := hn h
    rcases hlt with h2 | ⟨rfl, h2⟩
    · have : (c + 1) * b.rows ≤ c' * b.rows := Nat.mul_le_mul_right _ h2
      rw [Nat.add_mul] at this
      omega
    · omega
  · simp only [if_true]
    have h1 := hs h
    have h1' := hs' h
    rw [← colOff_closed _ _ _ h1.1 h1.2, ← colOff_closed _ _ _ h1'.1 h1'.2]
    rcases hlt with h2 | ⟨rfl, h2⟩
    · have hmono : ∀ a d, colOff b.cols a ≤ colOff b.cols (a + d) := by
        intro a d
        induction d with
        | zero => exact le_rfl
        | succ d ih => rw [← Nat.add_assoc, colOff_succ]; omega
      have h3 := hmono (c + 1) (c' - (c + 1))
      rw [Nat.add_sub_cancel' h2, colOff_succ] at h3
      omega
    · omega

theorem getElem?_flatten_block {S : Type*} (f : ℕ → List S) (n i j : ℕ) (hi : i < n)
    (hj : j < (f i).length) :
    ((List.range n).flatMap f)[((List.range i).map fun k => (f k).length).sum + j]? = (f i)[j]? := by
  have h : List.range n = List.range i ++ (i :: (List.range (n - i - 1)).map (fun k => i + 1 + k)) := by
    have h1 : n = i + (1 + (n - i - 1)) := by omega
    conv_lhs => rw [h1]
    rw [List.range_add, List.range_add]
    simp [Function.comp_def, Nat.add_assoc]
  rw [h, List.flatMap_append, List.flatMap_cons]
  have hlen : ((List.range i).flatMap f).length = ((List.range i).map fun k => (f k).length).sum := by
    rw [List.length_flatMap]
  rw [List.getElem?_append_right (by omega), hlen, Nat.add_sub_cancel_left,
    List.getElem?_append_left hj]

/-! ### The sorted table -/

/-- A row lies inside its matrix. -/
def RowIn (p q : ℕ) (x : TRow R) : Prop :=
  x.mat < 6 ∧ x.r < (matDims p q x.mat).1 ∧ x.c < (matDims p q x.mat).2

/-- The cell of a row, below the diagonal for a symmetric matrix. -/
def cellOf (x : TRow R) : ℕ × ℕ × ℕ :=
  (x.mat, if isSym x.mat then symCell (x.r, x.c) else (x.r, x.c))

/-- Order of cells in the parameter vector. -/
def Before (x y : TRow R) : Prop :=
  x.mat < y.mat ∨ (x.mat = y.mat ∧ (x.c < y.c ∨ (x.c = y.c ∧ x.r < y.r)))

theorem sym_dims {p q i : ℕ} (h : isSym i = true) : (matDims p q i).1 = (matDims p q i).2 := by
  unfold isSym at h
  rcases (by simpa using h : i = 2 ∨ i = 3) with rfl | rfl <;> rfl

theorem lowRow_mat (i : ℕ) (x : TRow R) : (lowRow i x).mat = x.mat := by
  unfold lowRow; split_ifs <;> rfl

theorem lowRow_rc (x : TRow R) : ((lowRow x.mat x).r, (lowRow x.mat x).c) = (cellOf x).2 := by
  unfold lowRow cellOf
  split_ifs <;> rfl

theorem mem_sortTable {t : List (TRow R)} {y : TRow R} :
    y ∈ sortTable t ↔ ∃ x ∈ t, x.mat < 6 ∧ y = lowRow x.mat x := by
  unfold sortTable
  simp only [List.mem_flatMap, List.mem_range, List.mem_insertionSort, List.mem_map, List.mem_filter,
    decide_eq_true_eq]
  constructor
  · rintro ⟨i, hi, x, ⟨hx, rfl⟩, rfl⟩
    exact ⟨x, hx, hi, rfl⟩
  · rintro ⟨x, hx, hi, rfl⟩
    exact ⟨x.mat, hi, x, ⟨hx, rfl⟩, rfl⟩

theorem lowRow_in {p q : ℕ} {x : TRow R} (h : RowIn p q x) :
    RowIn p q (lowRow x.mat x) ∧ (isSym x.mat = true → (lowRow x.mat x).c ≤ (lowRow x.mat x).r) := by
  unfold RowIn
  rw [lowRow_mat]
  obtain ⟨h1, h2, h3⟩ := h
  by_cases hs : isSym x.mat = true
  · have hd := sym_dims (p := p) (q := q) hs
    unfold lowRow symCell
    rw [if_pos hs]
    dsimp only
    split_ifs with h4
    · exact ⟨⟨h1, by omega, by omega⟩, fun _ => by omega⟩
    · exact ⟨⟨h1, h2, h3⟩, fun _ => by omega⟩
  · unfold lowRow
    rw [if_neg hs]
    exact ⟨⟨h1, h2, h3⟩, fun h => absurd h hs⟩

instance (i : ℕ) : Std.Total (rowLe (R := R) i) := ⟨fun x y => by
  unfold rowLe; split_ifs <;> omega⟩

instance (i : ℕ) : IsTrans (TRow R) (rowLe i) := ⟨fun x y z => by
  unfold rowLe; split_ifs <;> omega⟩

/-- The sorted table is strictly increasing in (matrix, column, row). -/
theorem sortTable_pairwise {p q : ℕ} {t : List (TRow R)} (hin : ∀ x ∈ t, RowIn p q x)
    (hnd : (t.map cellOf).Nodup) : (sortTable t).Pairwise Before := by
  unfold sortTable
  rw [List.pairwise_flatMap]
  refine ⟨?_, ?_⟩
  · intro i _
    have h1 := List.pairwise_insertionSort (rowLe i) ((t.filter fun x => x.mat = i).map (lowRow i))
    have hperm := List.perm_insertionSort (rowLe i) ((t.filter fun x => x.mat = i).map (lowRow i))
    -- distinct cells
    have hnd2 : (((t.filter fun x => x.mat = i).map (lowRow i)).map
        fun y : TRow R => (y.mat, y.r, y.c)).Nodup := by
      have h2 : ((t.filter fun x => x.mat = i).map (lowRow i)).map
          (fun y : TRow R => (y.mat, y.r, y.c)) = (t.filter fun x => x.mat = i).map cellOf := by
        rw [List.map_map]
        refine List.map_congr_left fun x hx => ?_
        have hm : x.mat = i := by simpa using (List.mem_filter.1 hx).2
        subst hm
        show ((lowRow x.mat x).mat, (lowRow x.mat x).r, (lowRow x.mat x).c) = cellOf x
        rw [lowRow_mat, ← Prod.mk.eta (p := cellOf x), ← lowRow_rc]
        rfl
      rw [h2]
      exact (List.Sublist.map _ List.filter_sublist).nodup hnd
    have hnd3 : ((((t.filter fun x => x.mat = i).map (lowRow i)).insertionSort (rowLe i)).map
        fun y : TRow R => (y.mat, y.r, y.c)).Nodup := (hperm.map _).nodup_iff.2 hnd2
    have h4 : (((t.filter fun x => x.mat = i).map (lowRow i)).insertionSort (rowLe i)).Pairwise
        fun x y => (x.mat, x.r, x.c) ≠ (y.mat, y.r, y.c) := by
      rw [List.Nodup, List.pairwise_map] at hnd3
      exact hnd3
    have h5 := h1.and h4
    refine List.Pairwise.imp_of_mem ?_ h5
    rintro x y hx hy ⟨h6, h7⟩
    have hm : ∀ z ∈ (((t.filter fun x => x.mat = i).map (lowRow i)).insertionSort (rowLe i)),
        z.mat = i ∧ RowIn p q z := by
      intro z hz
      rw [List.mem_insertionSort] at hz
      obtain ⟨w, hw, rfl⟩ := List.mem_map.1 hz
      have hwi : w.mat = i := by simpa using (List.mem_filter.1 hw).2
      subst hwi
      exact ⟨lowRow_mat _ _, (lowRow_in (hin w (List.mem_filter.1 hw).1)).1⟩
    have hx1 := hm x hx
    have hy1 := hm y hy
    refine Or.inr ⟨hx1.1.trans hy1.1.symm, ?_⟩
    unfold rowLe at h6
    have hne : ¬ (x.r = y.r ∧ x.c = y.c) := by
      rintro ⟨a, b⟩
      exact h7 (by rw [hx1.1, hy1.1, a, b])
    split_ifs at h6 with hv
    · have hr : ∀ z : TRow R, z.mat = i → RowIn p q z → z.r = 0 := by
        intro z hz h
        have h8 := h.2.1
        rw [hz] at h8
        unfold isVec at hv
        rcases (by simpa using hv : i = 4 ∨ i = 5) with rfl | rfl <;> simp only [matDims] at h8 <;> omega
      have h9 := hr x hx1.1 hx1.2
      have h10 := hr y hy1.1 hy1.2
      left
      omega
    · omega
  · refine List.Pairwise.imp ?_ List.pairwise_lt_range
    intro i j hij x hx y hy
    rw [List.mem_insertionSort] at hx hy
    obtain ⟨w, hw, rfl⟩ := List.mem_map.1 hx
    obtain ⟨z, hz, rfl⟩ := List.mem_map.1 hy
    left
    rw [lowRow_mat, lowRow_mat]
    have h1 : w.mat = i := by simpa using (List.mem_filter.1 hw).2
    have h2 : z.mat = j := by simpa using (List.mem_filter.1 hz).2
    omega

/-- What sorting establishes. -/
structure Sorted (p q : ℕ) (t : List (TRow R)) : Prop where
  inside : ∀ x ∈ t, RowIn p q x
  low : ∀ x ∈ t, isSym x.mat = true → x.c ≤ x.r
  order : t.Pairwise Before

theorem sortTable_sorted {p q : ℕ} {t : List (TRow R)} (hin : ∀ x ∈ t, RowIn p q x)
    (hnd : (t.map cellOf).Nodup) : Sorted p q (sortTable t) where
  inside := by
    intro y hy
    obtain ⟨x, hx, -, rfl⟩ := mem_sortTable.1 hy
    exact (lowRow_in (hin x hx)).1
  low := by
    intro y hy
    obtain ⟨x, hx, -, rfl⟩ := mem_sortTable.1 hy
    rw [lowRow_mat]
    exact (lowRow_in (hin x hx)).2
  order := sortTable_pairwise hin hnd

theorem pairwise_unique {α : Type*} {S : α → α → Prop} {l : List α} (h : l.Pairwise S) {x y : α}
    (hx : x ∈ l) (hy : y ∈ l) (h1 : ¬ S x y) (h2 : ¬ S y x) : x = y := by
  induction h with
  | nil => simp at hx
  | cons ha _ ih =>
    rcases List.mem_cons.1 hx with hx | hx
    · rcases List.mem_cons.1 hy with hy | hy
      · rw [hx, hy]
      · exact absurd (hx ▸ ha y hy) h1
    · rcases List.mem_cons.1 hy with hy | hy
      · exact absurd (hy ▸ ha x hx) h2
      · exact ih hx hy

theorem sortTable_free_length {p q : ℕ} {t : List (TRow R)} (hin : ∀ x ∈ t, RowIn p q x) :
    ((sortTable t).filter fun x => x.free ≠ 0).length = (t.filter fun x => x.free ≠ 0).length := by
  have hfree : ∀ (i : ℕ) (x : TRow R), (lowRow i x).free = x.free := by
    intro i x; unfold lowRow; split_ifs <;> rfl
  have hstep : ∀ i : ℕ, ((((t.filter fun x => x.mat = i).map (lowRow i)).insertionSort
      (rowLe i)).filter fun x => x.free ≠ 0).length =
      (t.filter fun x => x.free ≠ 0).countP fun x => x.mat = i := by
    intro i
    rw [((List.perm_insertionSort (rowLe i) _).filter _).length_eq, List.filter_map,
      List.length_map, List.filter_filter, List.countP_filter, List.countP_eq_length_filter]
    congr 1
    refine List.filter_congr fun x _ => ?_
    simp only [Function.comp_apply, hfree]
    exact Bool.and_comm _ _
  unfold sortTable
  rw [List.filter_flatMap, List.length_flatMap]
  simp only [hstep]
  have hall : ∀ x ∈ t.filter (fun x => x.free ≠ 0), x.mat < 6 := fun x hx =>
    (hin x (List.mem_filter.1 hx).1).1
  generalize t.filter (fun x => x.free ≠ 0) = l at hall
  induction l with
  | nil => simp
  | cons x l ih =>
    have h1 := hall x List.mem_cons_self
    have h2 := ih fun y hy => hall y (List.mem_cons_of_mem _ hy)
    simp only [List.countP_cons, List.length_cons]
    rw [List.sum_map_add, h2]
    congr 1
    have : ∀ m, m < 6 → ((List.range 6).map fun i => if decide (m = i) = true then 1 else 0).sum
        = 1 := by decide
    exact this _ h1

variable {p q : ℕ} {t : List (TRow R)}

/-- One row per cell. -/
theorem Sorted.unique (h : Sorted p q t) {x y : TRow R} (hx : x ∈ t) (hy : y ∈ t)
    (h1 : x.mat = y.mat) (h2 : x.r = y.r) (h3 : x.c = y.c) : x = y := by
  refine pairwise_unique h.order hx hy ?_ ?_ <;> unfold Before <;> omega

/-- The last of the rows of a cell is the only one. -/
theorem getLast_filter {S : Type*} (h : Sorted p q t) {x : TRow R} (hx : x ∈ t) (f : TRow R → S) (d : S)
    (P : TRow R → Prop) [DecidablePred P] (hP : P x) :
    ((((t.filter fun y => y.mat = x.mat ∧ P y).filter fun y => y.r = x.r ∧ y.c = x.c).getLast?.map
      f).getD d) = f x := by
  have hall : ∀ y ∈ (t.filter fun y => y.mat = x.mat ∧ P y).filter
      (fun y => y.r = x.r ∧ y.c = x.c), y = x := by
    intro y hy
    have h1 := List.mem_filter.1 hy
    have h2 := List.mem_filter.1 h1.1
    have h3 : y.mat = x.mat ∧ P y := by simpa using h2.2
    have h4 : y.r = x.r ∧ y.c = x.c := by simpa using h1.2
    exact h.unique h2.1 hx h3.1 h4.1 h4.2
  have hmem : x ∈ (t.filter fun y => y.mat = x.mat ∧ P y).filter
      (fun y => y.r = x.r ∧ y.c = x.c) := by
    simp [hx, hP]
  rw [List.getLast?_eq_some_getLast (List.ne_nil_of_mem hmem), Option.map_some, Option.getD_some,
    hall _ (List.getLast_mem _)]

theorem getLast_none {S : Type*} {i r c : ℕ} (f : TRow R → S) (d : S)
    (P : TRow R → Prop) [DecidablePred P] (hP : ∀ x ∈ t, x.mat = i → x.r = r → x.c = c → ¬ P x) :
    ((((t.filter fun y => y.mat = i ∧ P y).filter fun y => y.r = r ∧ y.c = c).getLast?.map
      f).getD d) = d := by
  have : (t.filter fun y => y.mat = i ∧ P y).filter (fun y => y.r = r ∧ y.c = c) = [] := by
    rw [List.filter_eq_nil_iff]
    intro y hy h1
    have h2 := List.mem_filter.1 hy
    have h3 : y.mat = i ∧ P y := by simpa using h2.2
    have h4 : y.r = r ∧ y.c = c := by simpa using h1
    exact hP y h2.1 h3.1 h4.1 h4.2 h3.2
  rw [this]
  rfl

/-! ### Blocks -/

/-- Block `i` of the indexer. -/
def blk (p q : ℕ) (t : List (TRow R)) (i : ℕ) : Blk :=
  Blk.mk (matDims p q i).1 (matDims p q i).2 (isSym i) (freeMat t i)

theorem blocks_get {i : ℕ} (hi : i < 6) : (blocks p q t)[i]? = some (blk p q t i) := by
  unfold blocks
  rw [List.getElem?_map, List.getElem?_range hi]
  rfl

theorem before_eq {i : ℕ} (hi : i ≤ 6) :
    before (blocks p q t) i = ((List.range i).map fun k => flatSize (blk p q t k)).sum := by
  unfold before blocks
  rw [← List.map_take, List.take_range, min_eq_left hi, List.map_map]
  rfl

theorem before_succ {i : ℕ} (hi : i < 6) :
    before (blocks p q t) (i + 1) = before (blocks p q t) i + flatSize (blk p q t i) := by
  rw [before_eq hi, before_eq hi.le, List.range_succ, List.map_append, List.sum_append]
  simp

theorem before_mono {i j : ℕ} (hij : i ≤ j) (hj : j ≤ 6) :
    before (blocks p q t) i ≤ before (blocks p q t) j := by
  induction j, hij using Nat.le_induction with
  | base => exact le_rfl
  | succ j _ ih =>
    rw [before_succ (by omega)]
    exact (ih (by omega)).trans (Nat.le_add_right _ _)

/-- Position of a row in the parameter vector. -/
def posOf (p q : ℕ) (t : List (TRow R)) (x : TRow R) : ℕ :=
  before (blocks p q t) x.mat + cellPos (blk p q t x.mat) x.r x.c

theorem blk_ok (h : Sorted p q t) : ∀ b ∈ blocks p q t, BlkOk b := by
  intro b hb
  obtain ⟨i, hi, rfl⟩ := List.mem_map.1 hb
  intro hs
  refine ⟨sym_dims hs, ?_⟩
  intro r c hX
  by_contra hrc
  refine hX (getLast_none TRow.free 0 (fun x : TRow R => x.free ≠ 0) ?_)
  intro x hx h1 h2 h3 _
  have := h.low x hx (by rw [h1]; exact hs)
  omega

theorem pos_facts (h : Sorted p q t) {x : TRow R} (hx : x ∈ t) :
    x.mat < 6 ∧ x.c < (blk p q t x.mat).cols ∧
    ((blk p q t x.mat).sym = true → x.c ≤ x.r ∧ x.r < (blk p q t x.mat).cols) ∧
    ((blk p q t x.mat).sym = false → x.r < (blk p q t x.mat).rows) := by
  have h1 := h.inside x hx
  refine ⟨h1.1, h1.2.2, fun hs => ⟨h.low x hx hs, ?_⟩, fun _ => h1.2.1⟩
  have := sym_dims (p := p) (q := q) (i := x.mat) hs
  show x.r < (matDims p q x.mat).2
  rw [← this]
  exact h1.2.1

/-- Positions increase along the table. -/
theorem pos_pairwise (h : Sorted p q t) : (t.map (posOf p q t)).Pairwise (· < ·) := by
  rw [List.pairwise_map]
  refine List.Pairwise.imp_of_mem ?_ h.order
  intro x y hx hy hxy
  have fx := pos_facts h hx
  have fy := pos_facts h hy
  unfold posOf
  rcases hxy with h1 | ⟨h1, h2⟩
  · have h3 := cellPos_lt _ fx.2.1 fx.2.2.1 fx.2.2.2
    have h4 := before_mono (p := p) (q := q) (t := t) (i := x.mat + 1) (j := y.mat) h1 fy.1.le
    rw [before_succ fx.1] at h4
    omega
  · rw [← h1] at fy ⊢
    have := cellPos_mono _ fy.2.1 fx.2.2.1 fx.2.2.2 fy.2.2.1 h2
    omega

theorem freeMat_row (h : Sorted p q t) {x : TRow R} (hx : x ∈ t) (hf : x.free ≠ 0) :
    freeMat t x.mat x.r x.c = x.free :=
  getLast_filter h hx TRow.free 0 (fun y : TRow R => y.free ≠ 0) hf

theorem flat_get {S : Type*} (X : ℕ → ℕ → ℕ → S) {i r c : ℕ} (hi : i < 6)
    (hc : c < (blk p q t i).cols)
    (hs : (blk p q t i).sym = true → c ≤ r ∧ r < (blk p q t i).cols)
    (hn : (blk p q t i).sym = false → r < (blk p q t i).rows) :
    ((List.range 6).flatMap fun k => if isSym k then vech (X k) (matDims p q k).2
      else vec (X k) (matDims p q k).1 (matDims p q k).2)[before (blocks p q t) i +
        cellPos (blk p q t i) r c]? = some (X i r c) := by
  have hlen : ∀ k, (if isSym k then vech (X k) (matDims p q k).2
      else vec (X k) (matDims p q k).1 (matDims p q k).2).length = flatSize (blk p q t k) :=
    fun k => length_flat (blk p q t k) (X k)
  have h1 := getElem?_flatten_block (fun k => if isSym k then vech (X k) (matDims p q k).2
      else vec (X k) (matDims p q k).1 (matDims p q k).2) 6 i (cellPos (blk p q t i) r c) hi
      (by rw [hlen]; exact cellPos_lt _ hc hs hn)
  simp only [hlen] at h1
  rw [before_eq hi.le, h1]
  exact cellPos_get (blk p q t i) (X i) hc hs hn

theorem flatV_blocks : (blocks p q t).flatMap flatV = (List.range 6).flatMap fun k =>
    if isSym k then vech (freeMat t k) (matDims p q k).2
      else vec (freeMat t k) (matDims p q k).1 (matDims p q k).2 := by
  unfold blocks
  rw [List.flatMap_map]
  rfl

/-- The flat indices are the positions of the free rows, in the order of the table. -/
theorem C204_order (h : Sorted p q t) :
    allFlatIndices (blocks p q t) = (t.filter fun x => x.free ≠ 0).map (posOf p q t) := by
  have h1 := (C47_flat_indices (blocks p q t)).2
  have h2 : ((t.filter fun x => x.free ≠ 0).map (posOf p q t)).Pairwise (· < ·) :=
    List.Pairwise.sublist (List.Sublist.map _ List.filter_sublist) (pos_pairwise h)
  refine List.Perm.eq_of_pairwise (le := (· < ·)) (fun a b _ _ h3 h4 => absurd h3 (Nat.lt_asymm h4)) h1 h2 ?_
  rw [List.perm_ext_iff_of_nodup (h1.imp Nat.ne_of_lt) (h2.imp Nat.ne_of_lt)]
  intro a
  constructor
  · intro ha
    obtain ⟨k, hk⟩ := List.getElem?_of_mem ha
    obtain ⟨i, b, r, c, -, hb, ha2, hX, -⟩ := C47_cells _ (blk_ok h) k a hk
    have hi : i < 6 := by
      have := (List.getElem?_eq_some_iff.1 hb).1
      simpa [blocks] using this
    rw [blocks_get hi, Option.some.injEq] at hb
    subst hb
    by_contra hno
    refine hX (getLast_none TRow.free 0 (fun x : TRow R => x.free ≠ 0) ?_)
    rintro x hx rfl rfl rfl hf
    refine hno (List.mem_map.2 ⟨x, List.mem_filter.2 ⟨hx, by simpa using hf⟩, ?_⟩)
    rw [ha2]
    rfl
  · intro ha
    obtain ⟨x, hx, rfl⟩ := List.mem_map.1 ha
    obtain ⟨hx1, hx2⟩ := List.mem_filter.1 hx
    have hf : x.free ≠ 0 := by simpa using hx2
    have fx := pos_facts h hx1
    have hg := flat_get (t := t) (freeMat t) fx.1 fx.2.1 fx.2.2.1 fx.2.2.2
    rw [← flatV_blocks, freeMat_row h hx1 hf] at hg
    rw [(C47_flat_indices _).1]
    unfold nonzero1
    rw [List.mem_filter, List.mem_range]
    have hlt := (List.getElem?_eq_some_iff.1 hg).1
    refine ⟨hlt, ?_⟩
    show decide _ = true
    rw [List.getD_eq_getElem?_getD]
    show decide ((((blocks p q t).flatMap flatV)[posOf p q t x]?).getD 0 ≠ 0) = true
    unfold posOf
    rw [hg]
    simpa using hf

/-! ### Scattering -/

theorem scatter_length (par : List R) (ix : List ℕ) (free : List R) :
    (scatterAt par ix free).length = par.length := by
  unfold scatterAt
  induction ix.zip free generalizing par with
  | nil => rfl
  | cons a l ih => rw [List.foldl_cons, ih, List.length_set]

theorem scatter_other (par : List R) (ix : List ℕ) (free : List R) {a : ℕ} (ha : a ∉ ix) :
    (scatterAt par ix free)[a]? = par[a]? := by
  unfold scatterAt
  induction ix generalizing par free with
  | nil => rfl
  | cons b ix ih =>
    cases free with
    | nil => rfl
    | cons x free =>
      rw [List.zip_cons_cons, List.foldl_cons, ih _ _ (fun h => ha (List.mem_cons_of_mem _ h))]
      rw [List.getElem?_set_ne]
      rintro rfl
      exact ha List.mem_cons_self

theorem scatter_at (par : List R) {ix : List ℕ} (hnd : ix.Nodup) (free : List R) {k a : ℕ} {x : R}
    (hk : ix[k]? = some a) (hx : free[k]? = some x) (ha : a < par.length) :
    (scatterAt par ix free)[a]? = some x := by
  unfold scatterAt
  induction ix generalizing par free k with
  | nil => simp at hk
  | cons b ix ih =>
    cases free with
    | nil => simp at hx
    | cons y free =>
      rw [List.zip_cons_cons, List.foldl_cons]
      have h1 := List.nodup_cons.1 hnd
      cases k with
      | zero =>
        simp only [List.getElem?_cons_zero, Option.some.injEq] at hk hx
        subst hk hx
        have := scatter_other (par.set b y) ix free h1.1
        unfold scatterAt at this
        rw [this, List.getElem?_set_self ha]
      | succ k =>
        exact ih (par.set b y) h1.2 free (by simpa using hk) (by simpa using hx)
          (by rwa [List.length_set])

/-! ### The matrices -/

variable [Field R] [CharZero R]

theorem parToMat_entry {i : ℕ} (hi : i < 6) (par : List R)
    (hlen : par.length = before (blocks p q t) 6) :
    ∃ M, parToMat p q (blocks p q t) par i = some M ∧
      (∀ r c, c < (blk p q t i).cols →
        ((blk p q t i).sym = true → c ≤ r ∧ r < (blk p q t i).cols) →
        ((blk p q t i).sym = false → r < (blk p q t i).rows) →
        some (M r c) = par[before (blocks p q t) i + cellPos (blk p q t i) r c]?) ∧
      (isSym i = true → Symm (matDims p q i).2 M) := by
  have hsl : (slices (blocks p q t))[i]? =
      some (before (blocks p q t) i, before (blocks p q t) (i + 1)) := by
    rw [C47_slices, List.getElem?_map, List.getElem?_range (by simpa [blocks] using hi)]
    rfl
  have hb := before_succ (p := p) (q := q) (t := t) hi
  have hle := before_mono (p := p) (q := q) (t := t) (i := i + 1) (j := 6) hi le_rfl
  set seg := (par.drop (before (blocks p q t) i)).take
    (before (blocks p q t) (i + 1) - before (blocks p q t) i) with hseg
  have hseglen : seg.length = flatSize (blk p q t i) := by
    rw [hseg, List.length_take, List.length_drop]
    omega
  have hget : ∀ a, a < flatSize (blk p q t i) →
      seg[a]? = par[before (blocks p q t) i + a]? := by
    intro a ha
    rw [hseg, List.getElem?_take_of_lt (by omega), List.getElem?_drop]
  unfold parToMat
  rw [hsl]
  dsimp only
  rw [← hseg]
  cases hs : isSym i
  · simp only [Bool.false_eq_true, if_false]
    obtain ⟨M, hM, hv⟩ := (C11_vec_invec seg (matDims p q i).1 (matDims p q i).2).1 (by
      rw [hseglen]
      unfold flatSize blk
      simp [hs])
    refine ⟨M, hM, ?_, by simp⟩
    intro r c h1 h2 h3
    rw [← hget _ (cellPos_lt _ h1 h2 h3)]
    have h4 := cellPos_get (blk p q t i) M h1 h2 h3
    have h5 : (if (blk p q t i).sym then vech M (blk p q t i).cols
        else vec M (blk p q t i).rows (blk p q t i).cols) = seg := by
      rw [← hv]
      unfold blk
      simp [hs]
    rw [h5] at h4
    exact h4.symm
  · simp only [if_true]
    obtain ⟨M, -, hM, -, hsym, hv, -⟩ := C11_vech_invech seg (matDims p q i).2 (by
      rw [hseglen]
      unfold flatSize blk
      simp [hs])
    refine ⟨M, by rw [hM]; rfl, ?_, fun _ => hsym⟩
    intro r c h1 h2 h3
    rw [← hget _ (cellPos_lt _ h1 h2 h3)]
    have h4 := cellPos_get (blk p q t i) M h1 h2 h3
    have h5 : (if (blk p q t i).sym then vech M (blk p q t i).cols
        else vec M (blk p q t i).rows (blk p q t i).cols) = seg := by
      rw [← hv]
      unfold blk
      simp [hs]
    rw [h5] at h4
    exact h4.symm

variable (lvo : List (ℕ × ℕ)) (onx : List ℕ)

omit [CharZero R] in
theorem template_length : (template p q lvo onx t).length = before (blocks p q t) 6 := by
  unfold template
  rw [List.length_flatMap, before_eq le_rfl]
  congr 1
  exact List.map_congr_left fun k _ => length_flat (blk p q t k) (tmplMat lvo onx t k)

/-- Every free parameter is at the cell of its row, every fixed value at the cell of its row, and
every other cell has the default; the symmetric matrices are symmetric. -/
theorem C204_matrices (h : Sorted p q t) (free : List R)
    (hlen : free.length = (t.filter fun x => x.free ≠ 0).length) :
    ∃ (par : List R) (M : ℕ → ℕ → ℕ → R), groupFreeToPar (template p q lvo onx t) (blocks p q t) free = some par ∧
      (∀ i, i < 6 → parToMat p q (blocks p q t) par i = some (M i)) ∧
      (∀ (k : ℕ) (x : TRow R), (t.filter fun x => x.free ≠ 0)[k]? = some x → free[k]? = some (M x.mat x.r x.c)) ∧
      (∀ x ∈ t, x.free = 0 → M x.mat x.r x.c = x.fixedval) ∧
      (∀ i r c, i < 6 → r < (matDims p q i).1 → c < (matDims p q i).2 → (isSym i = true → c ≤ r) →
        (∀ x ∈ t, ¬ (x.mat = i ∧ x.r = r ∧ x.c = c)) → M i r c = initMat lvo onx i r c) ∧
      (∀ i, i < 6 → isSym i = true → Symm (matDims p q i).2 (M i)) := by
  have hord := C204_order h
  have hl : (allFlatIndices (blocks p q t)).length = free.length := by
    rw [hord, List.length_map, hlen]
  have hnd : (allFlatIndices (blocks p q t)).Nodup :=
    (C47_flat_indices (blocks p q t)).2.imp Nat.ne_of_lt
  set par := scatterAt (template p q lvo onx t) (allFlatIndices (blocks p q t)) free with hpar
  have hplen : par.length = before (blocks p q t) 6 := by
    rw [hpar, scatter_length, template_length]
  have hex := fun i (hi : i < 6) => parToMat_entry (t := t) hi par hplen
  let M : ℕ → ℕ → ℕ → R := fun i => if hi : i < 6 then (hex i hi).choose else fun _ _ => 0
  have hM : ∀ i (hi : i < 6), parToMat p q (blocks p q t) par i = some (M i) := by
    intro i hi
    simp only [M, dif_pos hi]
    exact (hex i hi).choose_spec.1
  have hE : ∀ i r c, i < 6 → c < (blk p q t i).cols →
        ((blk p q t i).sym = true → c ≤ r ∧ r < (blk p q t i).cols) →
        ((blk p q t i).sym = false → r < (blk p q t i).rows) →
        some (M i r c) = par[before (blocks p q t) i + cellPos (blk p q t i) r c]? := by
    intro i r c hi
    simp only [M, dif_pos hi]
    exact (hex i hi).choose_spec.2.1 r c
  have hS : ∀ i, i < 6 → isSym i = true → Symm (matDims p q i).2 (M i) := by
    intro i hi
    simp only [M, dif_pos hi]
    exact (hex i hi).choose_spec.2.2
  have htm : ∀ i r c, i < 6 → c < (blk p q t i).cols →
        ((blk p q t i).sym = true → c ≤ r ∧ r < (blk p q t i).cols) →
        ((blk p q t i).sym = false → r < (blk p q t i).rows) →
        before (blocks p q t) i + cellPos (blk p q t i) r c ∉ allFlatIndices (blocks p q t) →
        M i r c = tmplMat lvo onx t i r c := by
    intro i r c hi h1 h2 h3 h4
    have h5 := hE i r c hi h1 h2 h3
    rw [hpar, scatter_other _ _ _ h4] at h5
    have h6 := flat_get (t := t) (tmplMat lvo onx t) hi h1 h2 h3
    have h7 : some (M i r c) = some (tmplMat lvo onx t i r c) := h5.trans h6
    exact Option.some.inj h7
  refine ⟨par, M, by unfold groupFreeToPar; rw [if_pos hl], hM, ?_, ?_, ?_, hS⟩
  · intro k x hk
    have hx : x ∈ t := (List.mem_filter.1 (List.mem_of_getElem? hk)).1
    have fx := pos_facts h hx
    have hkl : k < free.length := by
      rw [hlen]
      exact (List.getElem?_eq_some_iff.1 hk).1
    have h1 : (allFlatIndices (blocks p q t))[k]? = some (posOf p q t x) := by
      rw [hord, List.getElem?_map, hk]
      rfl
    have hlt : posOf p q t x < (template p q lvo onx t).length := by
      have h6 := flat_get (t := t) (tmplMat lvo onx t) fx.1 fx.2.1 fx.2.2.1 fx.2.2.2
      exact (List.getElem?_eq_some_iff.1 h6).1
    have h2 := scatter_at (template p q lvo onx t) hnd free h1 (List.getElem?_eq_getElem hkl) hlt
    rw [List.getElem?_eq_getElem hkl, ← h2, hE _ _ _ fx.1 fx.2.1 fx.2.2.1 fx.2.2.2]
    rfl
  · intro x hx hf
    have fx := pos_facts h hx
    rw [htm _ _ _ fx.1 fx.2.1 fx.2.2.1 fx.2.2.2]
    · exact getLast_filter h hx TRow.fixedval _ (fun y : TRow R => y.free = 0) hf
    · rw [hord]
      intro hmem
      obtain ⟨y, hy, hpos⟩ := List.mem_map.1 hmem
      have hy1 := List.mem_filter.1 hy
      have hyf : y.free ≠ 0 := by simpa using hy1.2
      have hinj : y = x := by
        have hp := pos_pairwise h
        rw [List.pairwise_map] at hp
        refine pairwise_unique hp hy1.1 hx ?_ ?_
        · have : posOf p q t y = posOf p q t x := hpos
          omega
        · have : posOf p q t y = posOf p q t x := hpos
          omega
      exact hyf (hinj ▸ hf)
  · intro i r c hi hr hc hs hno
    have h2 : (blk p q t i).sym = true → c ≤ r ∧ r < (blk p q t i).cols := by
      intro h3
      refine ⟨hs h3, ?_⟩
      show r < (matDims p q i).2
      rw [← sym_dims h3]
      exact hr
    have h3 : (blk p q t i).sym = false → r < (blk p q t i).rows := fun _ => hr
    rw [htm i r c hi hc h2 h3]
    · unfold tmplMat
      dsimp only
      rw [getLast_none TRow.fixedval _ (fun y : TRow R => y.free = 0)
          (fun x hx h4 h5 h6 _ => hno x hx ⟨h4, h5, h6⟩),
        getLast_none _ _ (fun y : TRow R => y.free ≠ 0)
          (fun x hx h4 h5 h6 _ => hno x hx ⟨h4, h5, h6⟩)]
    · intro hmem
      obtain ⟨k, hk⟩ := List.getElem?_of_mem hmem
      have h4 := flat_get (t := t) (freeMat t) hi hc h2 h3
      rw [← flatV_blocks] at h4
      rw [(C47_flat_indices _).1] at hmem
      unfold nonzero1 at hmem
      have h5 := (List.mem_filter.1 hmem).2
      rw [List.getD_eq_getElem?_getD, h4] at h5
      have h6 : freeMat t i r c ≠ 0 := by simpa using h5
      exact h6 (getLast_none TRow.free 0 (fun y : TRow R => y.free ≠ 0)
        (fun x hx h4 h5 h6 _ => hno x hx ⟨h4, h5, h6⟩))

/-- The same for the table as the user gives it, in any order and with either triangle of the
symmetric matrices: the `k`-th free parameter is the one of the `k`-th free row after sorting. -/
theorem C204_user_table {rows : List (TRow R)} (hin : ∀ x ∈ rows, RowIn p q x)
    (hnd : (rows.map cellOf).Nodup) (free : List R)
    (hlen : free.length = (rows.filter fun x => x.free ≠ 0).length) :
    ∃ (par : List R) (M : ℕ → ℕ → ℕ → R),
      groupFreeToPar (template p q lvo onx (sortTable rows)) (blocks p q (sortTable rows)) free =
        some par ∧
      (∀ i, i < 6 → parToMat p q (blocks p q (sortTable rows)) par i = some (M i)) ∧
      (∀ x ∈ rows, x.free ≠ 0 → ∃ k : ℕ,
        ((sortTable rows).filter fun x => x.free ≠ 0)[k]? = some (lowRow x.mat x) ∧
        free[k]? = some (M x.mat x.r x.c)) ∧
      (∀ x ∈ rows, x.free = 0 → M x.mat x.r x.c = x.fixedval) ∧
      (∀ i, i < 6 → isSym i = true → Symm (matDims p q i).2 (M i)) := by
  have hS := sortTable_sorted hin hnd
  have hperm : ((sortTable rows).filter fun x => x.free ≠ 0).length =
      (rows.filter fun x => x.free ≠ 0).length := sortTable_free_length hin
  obtain ⟨par, M, h1, h2, h3, h4, -, h6⟩ := C204_matrices (p := p) (q := q) lvo onx hS free
    (by rw [hlen, hperm])
  have hcell : ∀ x ∈ rows, M x.mat x.r x.c = M (lowRow x.mat x).mat (lowRow x.mat x).r
      (lowRow x.mat x).c := by
    intro x hx
    have hx' := hin x hx
    rw [lowRow_mat]
    by_cases hs : isSym x.mat = true
    · have hd := sym_dims (p := p) (q := q) hs
      unfold lowRow symCell
      rw [if_pos hs]
      dsimp only
      split_ifs with hrc
      · exact h6 _ hx'.1 hs _ _ (hd ▸ hx'.2.1) hx'.2.2
      · rfl
    · unfold lowRow
      rw [if_neg hs]
  have hmem : ∀ x ∈ rows, lowRow x.mat x ∈ sortTable rows := fun x hx =>
    mem_sortTable.2 ⟨x, hx, (hin x hx).1, rfl⟩
  have hfree : ∀ x : TRow R, (lowRow x.mat x).free = x.free := by
    intro x; unfold lowRow; split_ifs <;> rfl
  have hval : ∀ x : TRow R, (lowRow x.mat x).fixedval = x.fixedval := by
    intro x; unfold lowRow; split_ifs <;> rfl
  refine ⟨par, M, h1, h2, ?_, ?_, h6⟩
  · intro x hx hf
    have hm : lowRow x.mat x ∈ (sortTable rows).filter fun x => x.free ≠ 0 :=
      List.mem_filter.2 ⟨hmem x hx, by rw [hfree]; simpa using hf⟩
    obtain ⟨k, hk⟩ := List.getElem?_of_mem hm
    refine ⟨k, hk, ?_⟩
    rw [h3 k _ hk, hcell x hx]
  · intro x hx hf
    rw [hcell x hx, h4 _ (hmem x hx) (by rw [hfree]; exact hf), hval]

omit [CharZero R] in
/-- A vector of the wrong length raises, except a single value, which numpy spreads over all the
free parameters. -/
theorem C204_wrong_length (tmpl : List R) (bs : List Blk) (free : List R)
    (h : (allFlatIndices bs).length ≠ free.length) (h1 : free.length ≠ 1) :
    groupFreeToPar tmpl bs free = none := by
  unfold groupFreeToPar
  rw [if_neg h]
  match free, h1 with
  | [], _ => rfl
  | [_], h1 => simp at h1
  | _ :: _ :: _, _ => rfl

/-! ### One factor with two indicators -/

/-- The table: loadings, residual variances, factor variance, one covariance above the diagonal. -/
def exRows : List (TRow ℚ) :=
  [TRow.mk 3 0 0 3 none 0, TRow.mk 0 1 0 1 none 0, TRow.mk 0 0 0 0 none 1,
   TRow.mk 3 0 1 4 none 0, TRow.mk 2 0 0 2 none 0, TRow.mk 3 1 1 5 none 0]

example : (∀ x ∈ exRows, RowIn 2 1 x) ∧ (exRows.map cellOf).Nodup ∧
    (exRows.filter fun x => x.free ≠ 0).length = 5 := by
  refine ⟨?_, by decide +kernel, by decide +kernel⟩
  unfold RowIn
  decide +kernel

example : allFlatIndices (blocks 2 1 (sortTable exRows)) = [1, 3, 4, 5, 6] ∧
    (sortTable exRows).map (posOf 2 1 (sortTable exRows)) = [0, 1, 3, 4, 5, 6] ∧
    groupFreeToPar (template 2 1 [] [0, 1] (sortTable exRows)) (blocks 2 1 (sortTable exRows))
      [7, 8, 9, 10, 11] = some [1, 7, 0, 8, 9, 10, 11, 0, 0, 0] := by
  decide +kernel

/-- The defaults: an observed variable of the structural part loads one on its own copy and on nothing else, there are no paths,
covariances or means, latent variances are one, and residual variances one for the variables which are not fixed. -/
theorem C204_defaults (r c : ℕ) :
    ((initMat lvo onx 0 r c : R) = 1 ↔ (r, c) ∈ lvo) ∧ ((initMat lvo onx 0 r c : R) = 0 ↔ (r, c) ∉ lvo) ∧
    (initMat lvo onx 1 r c : R) = 0 ∧ ((initMat lvo onx 2 r c : R) = 1 ↔ r = c) ∧ ((initMat lvo onx 2 r c : R) = 0 ↔ r ≠ c) ∧
    ((initMat lvo onx 3 r c : R) = 1 ↔ r = c ∧ r ∈ onx) ∧ ((initMat lvo onx 3 r c : R) = 0 ↔ ¬(r = c ∧ r ∈ onx)) ∧
    (initMat lvo onx 4 r c : R) = 0 ∧ (initMat lvo onx 5 r c : R) = 0 := by
  have h1 : ∀ (P : Prop) [Decidable P], ((if P then (1 : R) else 0) = 1 ↔ P) ∧ ((if P then (1 : R) else 0) = 0 ↔ ¬P) := by
    intro P _; by_cases h : P <;> simp [h]
  refine ⟨?_, ?_, rfl, ?_, ?_, ?_, ?_, rfl, rfl⟩
  · exact (h1 ((r, c) ∈ lvo)).1
  · exact (h1 ((r, c) ∈ lvo)).2
  · exact (h1 (r = c)).1
  · exact (h1 (r = c)).2
  · exact (h1 (r = c ∧ r ∈ onx)).1
  · exact (h1 (r = c ∧ r ∈ onx)).2

end Verif.Sem
