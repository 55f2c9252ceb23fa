import Verif.Sem.Table
import Mathlib.Algebra.Field.Basic
import Mathlib.Data.Finset.Basic
import Mathlib.Data.Finset.Filter
import Mathlib.Data.Finset.Image
import Mathlib.Data.Finset.Union
/-!
# Model of `pysem2/model_builder.py` and of `FixedValueManager` of `pysem2/model_base.py`

The parameter table is a list of rows.  A Python `set` is a `Finset`; iterating over it or sorting it
gives some arrangement of its elements (`Arr`).  `np.nan` in the column `start` is `none`; the column
`fixedval` holds a number, `inf` (set by the parser for free rows) or `nan` (key absent).  Columns
that are not read here (`mod`) are left out.  The index of the data frame is `0, 1, ...`, since every
step builds it from a list of records.
-/
namespace Verif.Sem

/-- An entry of the column `fixedval`. -/
inductive Fv (R : Type*) | nan | inf | num (x : R)
  deriving DecidableEq

/-- A row of `param_df`. -/
structure BRow (N R : Type*) where
  lhs : N
  rel : R3
  rhs : N
  label : Option N
  start : Option R
  fixed : Bool
  fixedval : Fv R
  dummy : Bool
  deriving DecidableEq

/-- The table, and whether the data frame has a column `start` yet. -/
structure BTab (N R : Type*) where
  rows : List (BRow N R)
  hasStart : Bool
  deriving DecidableEq

/-- The sets of `var_names` that are read by the builder. -/
structure VNames (N : Type*) where
  all : Finset N
  nob : Finset N
  obs : Finset N
  lvo : Finset N
  lox : Finset N
  lvx : Finset N
  enx : Finset N
  onx : Finset N

/-- Iterating over, or sorting, a set: every element once. -/
def Arr {N : Type*} (enum : Finset N → List N) : Prop :=
  ∀ s, (enum s).Nodup ∧ ∀ v, v ∈ enum s ↔ v ∈ s

section
variable {N R : Type*} [DecidableEq N] [DecidableEq R] [Field R]

/-- `classify_variables(param_df)` — formula.py 102-146, as finite sets; `one` is the name "1". -/
def classify (one : N) (t : List (BRow N R)) : VNames N :=
  let mes := t.filter fun r => r.rel = R3.mes
  let reg := t.filter fun r => r.rel = R3.reg ∧ r.rhs ≠ one
  let all := ((t.map BRow.lhs).toFinset ∪ (t.map BRow.rhs).toFinset) \ {one}
  let nob := (mes.map BRow.lhs).toFinset
  let obs := all \ nob
  let ind := (mes.map BRow.rhs).toFinset
  let endo := (reg.map BRow.lhs).toFinset
  let exo := (reg.map BRow.rhs).toFinset \ {one}
  let rg := endo ∪ exo
  let lvo := rg \ nob
  let lav := lvo ∪ nob
  let lox := lav \ (nob ∪ endo ∪ ind)
  let lvx := nob \ (ind ∪ endo)
  let enx := endo \ exo
  let onx := obs \ lox
  { all := all, nob := nob, obs := obs, lvo := lvo, lox := lox, lvx := lvx, enx := enx, onx := onx }

/-- Row `v ~~ v`. -/
def isVar (v : N) (r : BRow N R) : Bool := decide (r.rel = R3.cov ∧ r.lhs = v ∧ r.rhs = v)
/-- Row `v ~~ w` or `w ~~ v`. -/
def isCov (v w : N) (r : BRow N R) : Bool :=
  decide (r.rel = R3.cov ∧ ((r.lhs = v ∧ r.rhs = w) ∨ (r.lhs = w ∧ r.rhs = v)))
/-- Row `v ~ 1`. -/
def isMean (one v : N) (r : BRow N R) : Bool := decide (r.rel = R3.reg ∧ r.rhs = one ∧ r.lhs = v)
/-- Row `v =~ ...`. -/
def isLoad (v : N) (r : BRow N R) : Bool := decide (r.rel = R3.mes ∧ r.lhs = v)
/-- Row `v =~ v` fixed at one. -/
def isDummy (v : N) (r : BRow N R) : Bool :=
  decide (r.rhs = v ∧ r.lhs = v ∧ r.rel = R3.mes ∧ r.fixedval = Fv.num 1)

/-- `check_missing_variances(vars_to_check)` — 43-65: the difference of the set and of the set of all
`lhs` and `rhs` of the rows `v ~~ v`. -/
def missVars (t : List (BRow N R)) (vs : Finset N) : Finset N :=
  vs \ (((t.filter fun r => r.rel = R3.cov ∧ r.lhs = r.rhs).map BRow.lhs).toFinset ∪
    ((t.filter fun r => r.rel = R3.cov ∧ r.lhs = r.rhs).map BRow.rhs).toFinset)

/-- One row of `add_variances` — 88-96. -/
def varRow (vn : VNames N) (fixLv : Bool) (v : N) : BRow N R :=
  let fixed := if v ∈ vn.lox then true else if v ∈ vn.nob ∧ fixLv then true else false
  { lhs := v, rel := R3.cov, rhs := v, label := none, start := some 1, fixed := fixed,
    fixedval := Fv.nan, dummy := false }

/-- Append records; a record with the key `start` makes the column appear. -/
def addRows (T : BTab N R) (new : List (BRow N R)) : BTab N R :=
  { rows := T.rows ++ new, hasStart := T.hasStart || !new.isEmpty }

/-- `add_variances(fix_lv_cov)` — 67-97. -/
def addVars (enum : Finset N → List N) (vn : VNames N) (fixLv : Bool) (T : BTab N R) : BTab N R :=
  addRows T ((enum (missVars T.rows vn.all)).map (varRow vn fixLv))

/-- `zip(vars[lhs_ix], vars[rhs_ix])` with `tril_indices(n, -1)` — 115-117. -/
def lowPairs : List N → List (N × N)
  | [] => []
  | v :: vs => vs.map (fun w => (w, v)) ++ lowPairs vs

/-- `check_missing_covs(vars_to_check)` — 99-123. -/
def missCovs (srt : Finset N → List N) (t : List (BRow N R)) (vs : Finset N) : List (N × N) :=
  (lowPairs (srt vs)).filter fun p => !(t.any (isCov p.1 p.2))

/-- One row of `add_covariances` — 142-156. -/
def covRow (fixed : Bool) (p : N × N) : BRow N R :=
  { lhs := p.1, rel := R3.cov, rhs := p.2, label := none, start := some 0, fixed := fixed,
    fixedval := Fv.nan, dummy := false }

/-- `add_covariances(lvx_cov, y_cov)` — 125-157; the three lists are made before any row is added. -/
def addCovs (srt : Finset N → List N) (vn : VNames N) (lvxCov yCov : Bool) (T : BTab N R) :
    BTab N R :=
  let endv := missCovs srt T.rows vn.enx
  let loxv := missCovs srt T.rows vn.lox
  let lvxv := missCovs srt T.rows vn.lvx
  addRows T (loxv.map (covRow true) ++ ((if lvxCov then lvxv.map (covRow false) else []) ++
    (if yCov then endv.map (covRow false) else [])))

/-- `check_missing_means(vars_to_check)` — 159-181. -/
def missMeans (one : N) (t : List (BRow N R)) (vs : Finset N) : Finset N :=
  vs \ ((t.filter fun r => r.rel = R3.reg ∧ r.rhs = one).map BRow.lhs).toFinset

/-- One row of `add_means` — 204-213. -/
def meanRow (one : N) (vn : VNames N) (fixLv : Bool) (v : N) : BRow N R :=
  let fv : Bool × Fv R := if fixLv ∧ v ∈ vn.nob then (true, Fv.num 0) else (false, Fv.nan)
  BRow.mk v R3.reg one none (some 0) (if v ∈ vn.lox then true else fv.1) fv.2 false

/-- `add_means(fix_lv_mean)` — 183-215. -/
def addMeans (enum : Finset N → List N) (one : N) (vn : VNames N) (fixLv : Bool) (T : BTab N R) :
    BTab N R :=
  addRows T ((enum (missMeans one T.rows vn.all)).map (meanRow one vn fixLv))

/-- `check_latent_dummies(vars_to_check)` — 217-248.  In line 237 `==` binds weaker than `|`: the
text column is turned into `True` by `|`, and no entry of the result equals `"~"`, so nothing is ever
excluded.  `fixedval == True` holds for the number one. -/
def missDummies (t : List (BRow N R)) (vs : Finset N) : Finset N :=
  vs.filter fun v => t.any (isDummy v) = false

/-- One row of `add_latent_dummies` — 268. -/
def dummyRow (v : N) : BRow N R :=
  { lhs := v, rel := R3.mes, rhs := v, label := none, start := none, fixed := true,
    fixedval := Fv.num 1, dummy := true }

/-- `add_latent_dummies()` — 250-270. -/
def addDummies (enum : Finset N → List N) (vn : VNames N) (T : BTab N R) : BTab N R :=
  { T with rows := T.rows ++ (enum (missDummies T.rows vn.lvo)).map dummyRow }

/-- The argument of `fix_first`: absent or `None`, a boolean, a dictionary, something else. -/
inductive FixArg (N : Type*) | none | bool (b : Bool) | dict (d : N → Option Bool) | other

/-- Change the first row satisfying `p`. -/
def modFirst (p : BRow N R → Bool) (f : BRow N R → BRow N R) : List (BRow N R) → List (BRow N R)
  | [] => []
  | r :: rs => if p r then f r :: rs else r :: modFirst p f rs

/-- Lines 304-305. -/
def setFixed (r : BRow N R) : BRow N R := { r with fixed := true, fixedval := Fv.num 1 }

/-- `fix_first(vars_to_fix)` — 272-308; `False` is neither `None`, `True` nor a dictionary and
raises.  The rows of `v` are read from `ltable`, a copy of the table before the loop. -/
def fixFirst (enum : Finset N → List N) (vn : VNames N) (arg : FixArg N) (T : BTab N R) :
    Option (BTab N R) :=
  let go (want : N → Bool) : BTab N R :=
    { T with rows := (enum vn.nob).foldl (fun t v =>
        if want v ∧ T.rows.any (isLoad v) ∧ ¬ T.rows.any (fun r => isLoad v r && r.fixed) then
          modFirst (isLoad v) setFixed t else t) T.rows }
  match arg with
  | FixArg.none => some (go fun _ => true)
  | FixArg.bool true => some (go fun _ => true)
  | FixArg.dict d => some (go fun v => (d v).getD true)
  | FixArg.bool false => none
  | FixArg.other => none

/-- Line 322. -/
def setStart (r : BRow N R) : BRow N R := { r with start := some (1 / 10) }

/-- `check_initital_loadings()` — 310-323: `KeyError` without a column `start`, `IndexError` for a
latent variable without loadings. -/
def checkInit (enum : Finset N → List N) (vn : VNames N) (T : BTab N R) : Option (BTab N R) :=
  if !T.hasStart then (if (enum vn.nob).isEmpty then some T else none)
  else if (enum vn.nob).any (fun v => !(T.rows.any (isLoad v))) then none
  else some { T with rows := (enum vn.nob).foldl (fun t v =>
    if T.rows.any (fun r => isLoad v r && (r.start.isSome && decide (r.start ≠ some 0))) then t
    else modFirst (isLoad v) setStart t) T.rows }

/-- The keyword arguments of `add_default_params`; `none` = not given. -/
structure BOpts (N : Type*) where
  fixLvVar : Option Bool := none
  fixFirst : Option (FixArg N) := none
  lvxCov : Option Bool := none
  yCov : Option Bool := none
  fixLvMean : Option Bool := none

/-- `~b` of a Python boolean: the complement of the integer `0` or `1`. -/
def pyInvert (b : Bool) : ℤ := -(if b then 1 else 0) - 1

/-- `bool(k)` of an integer. -/
def truthy (k : ℤ) : Bool := decide (k ≠ 0)

/-- `add_default_params(**kwargs)` — 13-41. -/
def addDefault (enum srt : Finset N → List N) (one : N) (vn : VNames N) (o : BOpts N)
    (T : BTab N R) : Option (BTab N R) := do
  let T := addVars enum vn (o.fixLvVar.getD false) T
  let T ← fixFirst enum vn (o.fixFirst.getD (FixArg.bool true)) T
  let T := addCovs srt vn (truthy (pyInvert (o.lvxCov.getD false)))
    (truthy (pyInvert (o.yCov.getD true))) T
  let T := addMeans enum one vn (o.fixLvMean.getD true) T
  let T := addDummies enum vn T
  checkInit enum vn T

/-! ## Sample moments of the fixed exogenous variables — model_base.py -/

/-- `_update_value` — model_base.py 90-113. -/
def updValue (mask : BRow N R → Bool) (x : R) (t : List (BRow N R)) : List (BRow N R) :=
  t.map fun r => if mask r then { r with fixedval := Fv.num x, fixed := true } else r

/-- The pairs `(vars[j], vars[k])`, `k ≤ j`. -/
def lowDiag : List N → List (N × N)
  | [] => []
  | v :: vs => (v, v) :: (vs.map (fun w => (w, v)) ++ lowDiag vs)

/-- `_update_sample_stats` — model_base.py 115-150 for the rows of one group (the mask of the group
is part of every mask).  `j == k` is `varj == vark` as the variables are distinct. -/
def updStats (one : N) (vars : List N) (cov : N → N → R) (mean : N → R) (t : List (BRow N R)) :
    List (BRow N R) :=
  (lowDiag vars).foldl (fun t p =>
    let t := updValue (isCov p.1 p.2) (cov p.1 p.2) t
    if p.1 = p.2 then updValue (isMean one p.1) (mean p.1) t else t) t

/-- The entry written into the parameter template for a fixed row — model_base.py 277-278. -/
def templateEntry (r : BRow N R) : Fv R := r.fixedval

end
end Verif.Sem
