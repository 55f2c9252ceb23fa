import Mathlib.Data.List.Basic
/-!
# The coordinates tested for each term

Model of the index bookkeeping of `pystatsm/pyglm2/regression_model.py`: what `ModelData.store` keeps as design
information (lines 83-101), and which parameters `make_termwise_constraint_matrices2` (lines 536-552) and `ll_tests2`
(lines 626-635) set to zero for each term of each design.

Simplifications: the design information of patsy is the list of its terms with their numbers of columns, in order, so
that the slice of a term is the run of its columns; steps are `None`.  The result is the index lists, keyed by the number
of the design and the name of the term; the fits are left out.
-/
namespace Verif.Reg

/-- The terms of a design with their numbers of columns. -/
abbrev TtInfo := List (String × ℕ)

/-- An argument of `ModelData`: a data frame with or without design information, a series, or an array. -/
inductive TtArg | frame (d : TtInfo) | plain | series | array

/-- What `store` appends to `design_info` — 83-97. -/
def ttStore : TtArg → List (Option TtInfo)
  | .frame d => [some d]
  | .plain => [none]
  | .series => []
  | .array => [none]

/-- `len(design_info.column_names)`. -/
def ttCols (d : TtInfo) : ℕ := (d.map Prod.snd).sum

/-- `a[start:stop]` for `0 ≤ start`. -/
def ttSlice (a : List ℕ) (start stop : ℕ) : List ℕ := (a.take stop).drop start

/-- The indices of one design from the term starting at column `c` on — 539-545, 626-634; `ii` is the array sliced. -/
def ttTerms (ii : List ℕ) (offset : ℕ) : TtInfo → ℕ → List (String × List ℕ)
  | [], _ => []
  | (name, w) :: d, c =>
    if name = "Intercept" then ttTerms ii offset d (c + w)
    else (name, ttSlice ii (c + offset) (c + w + offset)) :: ttTerms ii offset d (c + w)

/-- The loop over the designs — 540-551, 626-673; `None` has no terms and raises. -/
def ttLoop (ii : List ℕ) : List (Option TtInfo) → ℕ → ℕ → Option (List ((ℕ × String) × List ℕ))
  | [], _, _ => some []
  | none :: _, _, _ => none
  | some d :: ds, i, offset =>
    (ttLoop ii ds (i + 1) (offset + ttCols d)).map fun r => (ttTerms ii offset d 0).map (fun t => ((i, t.1), t.2)) ++ r

/-- The arguments of `ModelData` to the indices tested — 626-634: `scale` leaves out the last parameter. -/
def ttTests (args : List TtArg) (nParams : ℕ) (scale : Bool) (offset : ℕ) : Option (List ((ℕ × String) × List ℕ)) :=
  let info := (args.map ttStore).flatten
  let ii := List.range nParams
  ttLoop (if scale then ii.dropLast else ii) info.dropLast 0 offset

end Verif.Reg
