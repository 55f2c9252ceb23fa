import Verif.Sem.Flat
import Verif.Sem.Table
import Mathlib.Data.List.Sort
/-!
# Model of the parameter mapping of `pysem2`

From the parameter table to the model matrices: `_sort_table` (variable_ordering.py), `_make_indexer`
and `_make_parameter_templates` (model_base.py), `group_free_to_par` and `par_to_model_mats`
(model_specification.py), for the rows of one group.  Row and column labels have been mapped to
numbers; `fixedval` is a number (C203 says when it is not).
-/
namespace Verif.Sem
open Verif.Vec
variable {R : Type*}

/-- A row of the table: matrix, row, column, the number in the column `free` (`0` = fixed), starting
value (`none` = `nan`), fixed value. -/
structure TRow (R : Type*) where
  mat : ℕ
  r : ℕ
  c : ℕ
  free : ℕ
  start : Option R
  fixedval : R
  deriving DecidableEq

/-- `mat_dims` — formula.py 153-159. -/
def matDims (p q : ℕ) : ℕ → ℕ × ℕ
  | 0 => (p, q)
  | 1 => (q, q)
  | 2 => (q, q)
  | 3 => (p, p)
  | 4 => (1, p)
  | _ => (1, q)

/-- `is_symmetric` — param_table.py 18. -/
def isSym (i : ℕ) : Bool := i == 2 || i == 3

/-- `is_vector` — param_table.py 19. -/
def isVec (i : ℕ) : Bool := i == 4 || i == 5

/-- The exchange in `sort_flat_representation` — variable_ordering.py 76-77. -/
def lowRow (i : ℕ) (x : TRow R) : TRow R :=
  if isSym i then
    let rc := symCell (x.r, x.c)
    { x with r := rc.1, c := rc.2 }
  else x

/-- The order of `sort_values(["c", "r"])`, or of `sort_values(["c"])` for a vector — 78-82. -/
def rowLe (i : ℕ) (x y : TRow R) : Prop :=
  if isVec i then x.c ≤ y.c else x.c < y.c ∨ (x.c = y.c ∧ x.r ≤ y.r)

instance (i : ℕ) : DecidableRel (rowLe (R := R) i) := by
  intro x y; unfold rowLe; infer_instance

/-- `_sort_table` — variable_ordering.py 97-141, after the labels have been mapped. -/
def sortTable (t : List (TRow R)) : List (TRow R) :=
  (List.range 6).flatMap fun i =>
    ((t.filter fun x => x.mat = i).map (lowRow i)).insertionSort (rowLe i)

/-- `free_mat[r, c] = free` for the free rows of matrix `i`: the last assignment stands —
model_base.py 203-209. -/
def freeMat (t : List (TRow R)) (i r c : ℕ) : ℕ :=
  (((t.filter fun x => x.mat = i ∧ x.free ≠ 0).filter fun x => x.r = r ∧ x.c = c).getLast?.map
    TRow.free).getD 0

/-- `_make_indexer` — model_base.py 181-211. -/
def blocks (p q : ℕ) (t : List (TRow R)) : List Blk :=
  (List.range 6).map fun i => Blk.mk (matDims p q i).1 (matDims p q i).2 (isSym i) (freeMat t i)

variable [Field R]

/-- The default entries — model_base.py 258-269; `lvo` are the positions (observed, latent) of the
observed variables in the structural part, `onx` the positions of the observed variables that are not
fixed exogenous. -/
def initMat (lvo : List (ℕ × ℕ)) (onx : List ℕ) (i r c : ℕ) : R :=
  if i = 0 then (if (r, c) ∈ lvo then 1 else 0)
  else if i = 2 then (if r = c then 1 else 0)
  else if i = 3 then (if r = c ∧ r ∈ onx then 1 else 0)
  else 0

/-- The template of matrix `i` — model_base.py 271-278: starting values of the free rows (the default
where it is `nan`), then the fixed values. -/
def tmplMat (lvo : List (ℕ × ℕ)) (onx : List ℕ) (t : List (TRow R)) (i r c : ℕ) : R :=
  let init : R := initMat lvo onx i r c
  let m : R := (((t.filter fun x => x.mat = i ∧ x.free ≠ 0).filter fun x =>
    x.r = r ∧ x.c = c).getLast?.map fun x => x.start.getD init).getD init
  (((t.filter fun x => x.mat = i ∧ x.free = 0).filter fun x =>
    x.r = r ∧ x.c = c).getLast?.map TRow.fixedval).getD m

/-- One piece of the template — model_base.py 280-284. -/
def tmplPiece (p q : ℕ) (lvo : List (ℕ × ℕ)) (onx : List ℕ) (t : List (TRow R)) (i : ℕ) : List R :=
  if isSym i then vech (tmplMat lvo onx t i) (matDims p q i).2
  else vec (tmplMat lvo onx t i) (matDims p q i).1 (matDims p q i).2

/-- `_make_parameter_templates` — model_base.py 224-286. -/
def template (p q : ℕ) (lvo : List (ℕ × ℕ)) (onx : List ℕ) (t : List (TRow R)) : List R :=
  (List.range 6).flatMap (tmplPiece p q lvo onx t)

/-- `par[flat_indices] = free`. -/
def scatterAt (par : List R) (ix : List ℕ) (free : List R) : List R :=
  (ix.zip free).foldl (fun l px => l.set px.1 px.2) par

/-- `group_free_to_par(free, i)` — model_specification.py 152-158; numpy spreads
a single value over all the places and raises on any other wrong length. -/
def groupFreeToPar (tmpl : List R) (bs : List Blk) (free : List R) : Option (List R) :=
  if (allFlatIndices bs).length = free.length then some (scatterAt tmpl (allFlatIndices bs) free)
  else match free with
    | [x] => some (scatterAt tmpl (allFlatIndices bs) ((allFlatIndices bs).map fun _ => x))
    | _ => none

/-- One matrix of `par_to_model_mats(par)` — model_specification.py 160-169. -/
def parToMat (p q : ℕ) (bs : List Blk) (par : List R) (i : ℕ) : Option (ℕ → ℕ → R) :=
  match (slices bs)[i]? with
  | none => none
  | some (s, e) =>
    let seg := (par.drop s).take (e - s)
    if isSym i then (invech seg).map Prod.snd
    else invec seg (matDims p q i).1 (matDims p q i).2

end Verif.Sem
