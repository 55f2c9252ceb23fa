import Mathlib.Data.List.GetD
import Mathlib.Algebra.BigOperators.Intervals
import Mathlib.Data.Real.Basic

/-!
Model of the bookkeeping of `pystatsm/pyglm2/regression_model.py`: the rows of the matrices of several formulas (lines 163-192), `drop_missing`
(lines 211-228), `drop_intercept` (lines 243-276) and the constraint matrices of the terms (lines 523-551).  Observations and columns are
numbers; a cell is `none` when it is nan.
-/

namespace Verif.Reg
open Finset

/-! ### `from_formulas` -/

/-- The observations that patsy keeps for one formula: those in which no variable of that formula is missing. -/
def keptRows (n : ℕ) (missing : ℕ → Bool) : List ℕ := (List.range n).filter fun i => !missing i

/-- `from_formulas` (lines 163-192): the observations behind the rows of `X_main`, of the other matrices and of `y`, in the order in which they are
stored.  `dmatrices` treats the two sides of the main formula together; every other formula is read by itself. -/
def fromFormulas (n : ℕ) (main : ℕ → Bool) (others : List (ℕ → Bool)) : List (List ℕ) :=
  keptRows n main :: (others.map (keptRows n) ++ [keptRows n main])

/-! ### `drop_missing` -/

/-- A stored array: with two axes, or flat after `flatten_y`. -/
inductive Stored where
  | mat (rows : List (List (Option ℤ)))
  | flat (vals : List (Option ℤ))
  deriving DecidableEq

/-- The rows of an array with two axes. -/
def Stored.rows : Stored → List (List (Option ℤ))
  | .mat rows => rows
  | .flat _ => []

/-- `np.isnan(arr).any(axis=1)` (line 216): raises on an array with one axis. -/
def nanRow : Stored → Option (List Bool)
  | .mat rows => some (rows.map fun r => r.any (·.isNone))
  | .flat _ => none

/-- `np.any([...], axis=0)`; arrays of different lengths raise. -/
def anyRows (n : ℕ) (l : List (List Bool)) : Option (List Bool) :=
  if ∀ b ∈ l, b.length = n then some ((List.range n).map fun i => l.any fun b => b.getD i false) else none

/-- `a[~mask]`, for arrays with as many rows as the mask has entries. -/
def dropRows {α : Type} (mask : List Bool) (a : List α) : List α := ((a.zip mask).filter fun t => !t.2).map Prod.fst

/-- `drop_missing()` (lines 211-228) on the data, the indexes and the weights. -/
def dropMissing (n : ℕ) (data : List Stored) (indexes : List (List ℕ)) (weights : Option (List ℤ)) :
    Option (List (List (List (Option ℤ))) × List (List ℕ) × Option (List ℤ)) := do
  let nans ← data.mapM nanRow
  let mask ← anyRows n nans
  some ((data.map Stored.rows).map (dropRows mask), indexes.map (dropRows mask), weights.map (dropRows mask))

/-! ### `drop_intercept` -/

/-- What is used of patsy's `DesignInfo`: the columns, the positions of the columns by name, the slices of the terms by name. -/
structure DesInfo where
  columns : List String
  colIndex : List (String × ℕ)
  slices : List (String × ℕ × ℕ)

/-- The design info patsy makes for terms with the given columns, in order. -/
def layTerms : ℕ → List (String × List String) → List (String × ℕ × ℕ)
  | _, [] => []
  | a, (name, cols) :: rest => (name, a, a + cols.length) :: layTerms (a + cols.length) rest

def desInfo (terms : List (String × List String)) : DesInfo :=
  let cols := terms.flatMap Prod.snd
  ⟨cols, cols.zipIdx, layTerms 0 terms⟩

/-- The loop body of `drop_intercept` (lines 243-276) for one design: the column is taken out of the matrix and of the names, the entries of
the intercept are taken out of the tables, and the slices that start after it move by one.  `column_name_indexes` only loses its entry. -/
def dropIntercept (d : DesInfo) : DesInfo :=
  if "Intercept" ∈ d.columns then
    let j := d.columns.idxOf "Intercept"
    let start := ((d.slices.lookup "Intercept").getD (0, 0)).1
    ⟨d.columns.eraseIdx j, d.colIndex.filter (·.1 ≠ "Intercept"),
      (d.slices.filter (·.1 ≠ "Intercept")).map fun t => if t.2.1 > start then (t.1, t.2.1 - 1, t.2.2 - 1) else t⟩
  else d

/-- `l[a:b]`. -/
def slice {α : Type} (l : List α) (a b : ℕ) : List α := (l.take b).drop a

/-! ### Constraint matrices -/

/-- `ii[term_slice]` (lines 525-531): the positions of the parameters of a term. -/
def termPositions (nParams offset start stop : ℕ) : List ℕ := slice (List.range nParams) (start + offset) (stop + offset)

/-- The constraint matrix: `C[r, ii[term_slice][r]] = 1` (lines 531-532 and 547-548). -/
def termMatrix (nParams offset start stop : ℕ) (r c : ℕ) : ℝ :=
  let ii := termPositions nParams offset start stop
  if r < ii.length ∧ ii.getD r 0 = c then 1 else 0

/-- `make_termwise_constraint_matrices2` (lines 536-551): for every design and every term but the intercept, the offset and the slice its matrix
is made from; the offset grows by the number of columns of each design. -/
def termwise (offset : ℕ) : List (List (String × List String)) → List (List (String × ℕ × ℕ × ℕ))
  | [] => []
  | terms :: rest =>
    (((layTerms 0 terms).filter fun t => t.1 ≠ "Intercept").map fun t => (t.1, offset, t.2.1, t.2.2)) ::
      termwise (offset + (terms.flatMap Prod.snd).length) rest

end Verif.Reg
