import Verif.Vec.Model
import Verif.Rank.Model
/-!
# Model of `pysem2/indexers.py`: `FlattenedArray`, `BlockFlattenedArrays`
-/
namespace Verif.Sem
open Verif.Np Verif.Vec Verif.Rank

/-- The array handed to `FlattenedArray`: shape, symmetry flag, entries (free-parameter numbers,
0 = not free). -/
structure Blk where
  rows : ℕ
  cols : ℕ
  sym : Bool
  X : ℕ → ℕ → ℕ

/-- `v`, the flattened array — indexers.py 14-17. -/
def flatV (b : Blk) : List ℕ := if b.sym then vech b.X b.cols else vec b.X b.rows b.cols

/-- `_size` — indexers.py 14-17. -/
def flatSize (b : Blk) : ℕ := if b.sym then b.cols * (b.cols + 1) / 2 else b.rows * b.cols

/-- `nonzero(v)` for a vector: increasing positions of nonzero entries. -/
def nonzero1 (v : List ℕ) : List ℕ := (List.range v.length).filter fun k => v.getD k 0 ≠ 0

/-- `nonzero(array)` for a matrix — indexing_utils.py 785-790: `argwhere` then `lexsort` with the
column as primary key. -/
def nonzero2 (b : Blk) : List (ℕ × ℕ) :=
  (List.range b.cols).flatMap fun c =>
    ((List.range b.rows).filter fun r => b.X r c ≠ 0).map fun r => (r, c)

/-- `unique_nonzero(v)` — indexers.py 39-54, given `unique(v)`. -/
def uniqueNonzero (uvo : List ℕ × List ℕ × List ℕ) : List ℕ × List ℕ × List ℕ :=
  let (u, locs, first) := uvo
  let mask := u.map fun x => decide (x ≠ 0)
  let zloc := u.findIdx? fun x => x == 0
  let u' := maskSelect u mask
  let locs' := match zloc with
    | some z => locs.filter fun l => l ≠ z
    | none => locs
  let locs'' := match zloc with
    | some z => locs'.map fun l => if l > z then l - 1 else l
    | none => locs'
  (u', locs'', maskSelect first mask)

/-- The mutable part of a `FlattenedArray` — indexers.py 10-37.  `offsetNnz`, `offsetUnq` are the
attributes `_offset_nnz`, `_offset_unq` that `add_offsets` creates. -/
structure Flat where
  blk : Blk
  offset : ℕ
  offsetNonzero : ℕ
  offsetUnique : ℕ
  offsetNnz : ℕ
  offsetUnq : ℕ
  blockIndex : ℕ

/-- `FlattenedArray(array, symmetric)`. -/
def mkFlat (b : Blk) : Flat := Flat.mk b 0 0 0 0 0 0

def Flat.start (f : Flat) : ℕ := 0 + f.offset
def Flat.stop (f : Flat) : ℕ := flatSize f.blk + f.offset
def Flat.startNnz (f : Flat) : ℕ := 0 + f.offsetNonzero
def Flat.stopNnz (f : Flat) : ℕ := (nonzero1 (flatV f.blk)).length + f.offsetNonzero
/-- `_n_unz`: number of distinct nonzero values. -/
def Flat.nUnq (f : Flat) : ℕ := ((flatV f.blk).dedup.filter fun x => x ≠ 0).length
def Flat.startUnq (f : Flat) : ℕ := 0 + f.offsetUnique
def Flat.stopUnq (f : Flat) : ℕ := f.nUnq + f.offsetUnique
def Flat.flatIndices (f : Flat) : List ℕ := (nonzero1 (flatV f.blk)).map (· + f.offset)

/-- `add_offsets(prev)` — indexers.py 61-64: sets `_offset_nnz`, `_offset_unq`, `_offset`. -/
def Flat.addOffsets (f prev : Flat) : Flat :=
  { f with
    offsetNnz := prev.stopNnz
    offsetUnq := prev.stopUnq
    offset := prev.stop }

/-- The loop of `BlockFlattenedArrays.__init__` — indexers.py 107-117. -/
def blockLoop (prev : Flat) (i : ℕ) : List Blk → List Flat
  | [] => []
  | b :: bs =>
    let f := (mkFlat b).addOffsets prev
    let f := { f with blockIndex := i + f.blockIndex }
    f :: blockLoop f (i + 1) bs

def blockFlat : List Blk → List Flat
  | [] => []
  | b :: bs => mkFlat b :: blockLoop (mkFlat b) 1 bs

/-- `flat_indices` of the whole. -/
def allFlatIndices (bs : List Blk) : List ℕ := (blockFlat bs).flatMap Flat.flatIndices

/-- `slices`. -/
def slices (bs : List Blk) : List (ℕ × ℕ) := (blockFlat bs).map fun f => (f.start, f.stop)

/-- `slices_nonzero`. -/
def slicesNonzero (bs : List Blk) : List (ℕ × ℕ) :=
  (blockFlat bs).map fun f => (f.startNnz, f.stopNnz)

/-- `slices_unique`. -/
def slicesUnique (bs : List Blk) : List (ℕ × ℕ) :=
  (blockFlat bs).map fun f => (f.startUnq, f.stopUnq)

/-- `block_indices`, `row_indices`, `col_indices` together. -/
def allCells (bs : List Blk) : List (ℕ × ℕ × ℕ) :=
  (blockFlat bs).flatMap fun f => (nonzero2 f.blk).map fun rc => (f.blockIndex, rc.1, rc.2)

end Verif.Sem
