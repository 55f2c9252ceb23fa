import Verif.Sem.Flat
import Verif.Index.Model
import Mathlib.Data.Real.Basic
/-!
# Model of `pysem/model_mats.py`: `FlattenedIndicatorIndices`, `BlockFlattenedIndicatorIndices`

The arrays, their vectors and `unique_nonzero` are those of `Verif.Sem.Flat`, whose code is the same
(model_mats.py 70-101, 103-134).
-/
namespace Verif.Sem
open Verif.Np Verif.Vec Verif.Rank Verif.Index

/-- A `FlattenedIndicatorIndices`: the array, the offsets and the block number — model_mats.py 70-101.
The three `extra` fields are the attributes `offset`, `offset_nonzero`, `offset_unique` without underscore
which `update_offsets` creates. -/
structure OFlat where
  blk : Blk
  offset : ℕ := 0
  offsetNonzero : ℕ := 0
  offsetUnique : ℕ := 0
  blockIndex : ℕ := 0
  extra : Option ℕ := none
  extraNonzero : Option ℕ := none
  extraUnique : Option ℕ := none

/-- `_n_nnz` — model_mats.py 89. -/
def OFlat.nNnz (f : OFlat) : ℕ := (nonzero1 (flatV f.blk)).length
/-- `_n_unz` — model_mats.py 95. -/
def OFlat.nUnz (f : OFlat) : ℕ := (uniqueNonzero (unique (flatV f.blk))).1.length
/-- `start`, `stop` — model_mats.py 215-221. -/
def OFlat.span (f : OFlat) : ℕ × ℕ := (f.offset, flatSize f.blk + f.offset)
/-- `start_unique`, `stop_unique` — model_mats.py 223-229. -/
def OFlat.spanUnique (f : OFlat) : ℕ × ℕ := (f.offsetUnique, f.nUnz + f.offsetUnique)
/-- `start_nonzero`, `stop_nonzero` — model_mats.py 231-237. -/
def OFlat.spanNonzero (f : OFlat) : ℕ × ℕ := (f.offsetNonzero, f.nNnz + f.offsetNonzero)
/-- `flat_indices` — model_mats.py 239-241. -/
def OFlat.flatIndices (f : OFlat) : List ℕ := (nonzero1 (flatV f.blk)).map (· + f.offset)
/-- `unique_locs` — model_mats.py 247-249. -/
def OFlat.uniqueLocs (f : OFlat) : List ℕ := (uniqueNonzero (unique (flatV f.blk))).2.1.map (· + f.offsetUnique)

/-- `update_offsets(offset=a, offset_nonzero=b, offset_unique=c)` — model_mats.py 136-147: `setattr` with the
names without underscore. -/
def OFlat.updateOffsets (f : OFlat) (a b c : ℕ) : OFlat :=
  { f with extra := some a, extraNonzero := some b, extraUnique := some c }

/-- `add_offsets(prev)` — model_mats.py 149-160. -/
def OFlat.addOffsets (f prev : OFlat) : OFlat :=
  { f with offsetNonzero := prev.spanNonzero.2, offsetUnique := prev.spanUnique.2, offset := prev.span.2 }

/-- The loop of `BlockFlattenedIndicatorIndices.__init__` — model_mats.py 283-285. -/
def oldLoop (prev : OFlat) (i : ℕ) : List Blk → List OFlat
  | [] => []
  | b :: bs =>
    let f : OFlat := (OFlat.mk b 0 0 0 0 none none none).addOffsets prev
    let f := { f with blockIndex := i + f.blockIndex }
    f :: oldLoop f (i + 1) bs

/-- `BlockFlattenedIndicatorIndices(flat_objects)` — model_mats.py 278-286, for fresh objects. -/
def oldFlat : List Blk → List OFlat
  | [] => []
  | b :: bs => OFlat.mk b 0 0 0 0 none none none :: oldLoop (OFlat.mk b 0 0 0 0 none none none) 1 bs

/-- `slices`, `slices_nonzero`, `slices_unique` — model_mats.py 316-326. -/
def oldSlices (bs : List Blk) : List ((ℕ × ℕ) × (ℕ × ℕ) × (ℕ × ℕ)) :=
  (oldFlat bs).map fun f => (f.span, f.spanNonzero, f.spanUnique)

/-- `block_indices`, `row_indices`, `col_indices` — model_mats.py 300-314. -/
def oldCells (bs : List Blk) : List (ℕ × ℕ × ℕ) :=
  (oldFlat bs).flatMap fun f => (nonzero2 f.blk).map fun rc => (f.blockIndex, rc.1, rc.2)

/-- `v[idx] = vals` for a vector; numpy raises if the lengths differ (one value would be spread). -/
def assign1 (v : List ℕ) (idx vals : List ℕ) : Option (List ℕ) :=
  if idx.length = vals.length then some ((idx.zip vals).foldl (fun v p => v.set p.1 p.2) v) else none

/-- `to_vec()` — model_mats.py 162-174. -/
def toVec (b : Blk) : Option (List ℕ) :=
  let (u, locs, _) := uniqueNonzero (unique (flatV b))
  assign1 (List.replicate (flatSize b) 0) (nonzero1 (flatV b)) (locs.map fun l => u.getD l 0)

/-- `to_array()` — model_mats.py 176-190. -/
def toArray (b : Blk) : Option (ℕ → ℕ → ℕ) := do
  let v ← toVec b
  if b.sym then (invech v).map Prod.snd else invec v b.rows b.cols

/-- `set_equal(lhs, rhs)` — model_mats.py 192-212: the new vector, its flat indices and how many.  For a single
non-zero `nonzero(v).squeeze()` has no axis and `len` raises. -/
def setEqual (b : Blk) (lhs rhs : ℕ) : Option (List ℕ × List ℕ × ℕ) := do
  let (u, locs, _) := uniqueNonzero (unique (flatV b))
  let vu := (locs.map fun l => u.getD l 0).map fun x => if x = lhs then rhs else x
  let v ← assign1 (List.replicate (flatSize b) 0) (nonzero1 (flatV b)) vu
  if (nonzero1 v).length = 1 then none else some (v, nonzero1 v, (nonzero1 v).length)

/-- `dA[k]` of `create_derivative_arrays` — model_mats.py 344-356. -/
def derivArr (bs : List Blk) (k : ℕ) : Option (ℕ → ℕ → ℝ) := do
  let (kind, r, c) ← (oldCells bs)[k]?
  let b ← bs[kind]?
  some fun i j => if (i, j) = (r, c) ∨ (b.sym = true ∧ (i, j) = (c, r)) then 1 else 0

/-- `block_pair_types` for the pair of parameters with block numbers `bi`, `bj` — model_mats.py 366-368: the
last match of the list counts. -/
def oldPairType (cross : List (ℕ × ℕ)) (bi bj : ℕ) : ℕ :=
  (cross.zip (List.range' 1 cross.length)).foldl (fun t x => if bi = x.1.1 ∧ bj = x.1.2 then x.2 else t) 0

/-- The default of `nonzero_cross_derivs` — model_mats.py 341-342. -/
def defaultCross (n : ℕ) : List (ℕ × ℕ) := trilIndices n 0 true

end Verif.Sem
