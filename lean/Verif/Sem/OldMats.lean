import Verif.Sem.Params
/-!
Model of the matrices of `pystatsm/pysem/param_table.py`: `prepare_matrices`, `apply_fixed_and_free_values` and `flatten_matrices` (lines
420-499), and of the free parameters of one group (`free_df`, lines 412-413).  As in `Verif.Sem.Params`, the rows are those of one group and row
and column labels have been mapped to numbers; `sort_table` is that of pysem2, and `group_free_to_par` (`pysem/model_spec.py` 90-96) is the
function of pysem2 too.  The fixed value is a number (C248 says when it is not).
-/
namespace Verif.Sem
open Verif.Vec
variable {R : Type*}

/-- A row of the table; unlike `TRow` it keeps the column `fixed` apart from the column `free`. -/
structure FixRow (R : Type*) where
  mat : ℕ
  r : ℕ
  c : ℕ
  free : ℕ
  fixed : Bool
  fixedval : R
  deriving DecidableEq

/-- `free_mats[j][i]` — 443-447: the numbers of the rows that are not fixed. -/
def oldFreeMat (t : List (FixRow R)) (i r c : ℕ) : ℕ :=
  (((t.filter fun x => x.mat = i ∧ x.fixed = false).filter fun x => x.r = r ∧ x.c = c).getLast?.map FixRow.free).getD 0

variable [Field R]

/-- The defaults — 448-455. -/
def oldBase (onx : List ℕ) (i r c : ℕ) : R :=
  if i = 2 then (if r = c then 1 else 0)
  else if i = 3 then (if r = c ∧ r ∈ onx then 1 else 0)
  else 0

/-- `start_mats[j][i]` — 448-456. -/
def oldStartMat (onx : List ℕ) (t : List (FixRow R)) (i r c : ℕ) : R :=
  (((t.filter fun x => x.mat = i ∧ x.fixed = true).filter fun x => x.r = r ∧ x.c = c).getLast?.map FixRow.fixedval).getD (oldBase onx i r c)

/-- `apply_fixed_and_free_values` — 470-476; `lvo` are the positions (observed, latent) of the observed variables of the structural part. -/
def oldApplied (lvo : List (ℕ × ℕ)) (onx : List ℕ) (t : List (FixRow R)) (i r c : ℕ) : R :=
  if i = 0 ∧ (r, c) ∈ lvo then 1
  else if i = 3 ∧ r = c ∧ r ∈ lvo.map Prod.fst then 0
  else oldStartMat onx t i r c

/-- `p_templates[j]` — 481-487, 494-496. -/
def oldTemplate (p q : ℕ) (lvo : List (ℕ × ℕ)) (onx : List ℕ) (t : List (FixRow R)) : List R :=
  (List.range 6).flatMap fun i =>
    if isSym i then vech (oldApplied lvo onx t i) (matDims p q i).2
    else vec (oldApplied lvo onx t i) (matDims p q i).1 (matDims p q i).2

omit [Field R] in
/-- `indexers[j]` — 488-495. -/
def oldBlocks (p q : ℕ) (t : List (FixRow R)) : List Blk :=
  (List.range 6).map fun i => Blk.mk (matDims p q i).1 (matDims p q i).2 (isSym i) (oldFreeMat t i)

/-- `free_params[j]` — 498. -/
def oldFreeParams (p q : ℕ) (lvo : List (ℕ × ℕ)) (onx : List ℕ) (t : List (FixRow R)) : List (Option R) :=
  (allFlatIndices (oldBlocks p q t)).map fun k => (oldTemplate p q lvo onx t)[k]?

/-- The rows of `free_df` — 412-413. -/
def oldFreeRows (t : List (FixRow R)) : List (FixRow R) := t.filter fun x => x.free ≠ 0

end Verif.Sem
