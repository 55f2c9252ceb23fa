import Verif.Sem.OldTable

/-!
Model of the default rows of `pystatsm/pysem/param_table.py` (class `BaseModel`): `process_parameter_table` (lines 72-80), the checks for missing
rows (lines 193-229), `add_variances`, `add_covariances` and `add_means` (lines 231-286), and `fix_sample_stats` (lines 374-412).  The
classes of variables are parameters.
-/

namespace Verif.Sem.OldTable

/-- The classes of variables that are used. -/
structure Names where
  all : List String
  nob : List String
  lox : List String
  lvx : List String
  enx : List String

/-- The keyword arguments of the constructor that are read; `none` when not given. -/
structure Kws where
  fixLvCov : Option Bool := none
  lvxCov : Option Bool := none
  yCov : Option Bool := none
  fixLvMean : Option Bool := none

def isVar (v : String) (r : Row) : Bool := r.rel = "~~" ∧ r.lhs = v ∧ r.rhs = v
def isMean (v : String) (r : Row) : Bool := r.rel = "~" ∧ r.rhs = "1" ∧ r.lhs = v
def isCov (x y : String) (r : Row) : Bool := r.rel = "~~" ∧ ((r.lhs = x ∧ r.rhs = y) ∨ (r.lhs = y ∧ r.rhs = x))

/-- The pairs of `tril_indices(n, -1)`: the later name first. -/
def pairsOf : List String → List (String × String)
  | [] => []
  | a :: l => l.map (fun b => (b, a)) ++ pairsOf l

/-- `check_missing_variances` — 193-202. -/
def missingVars (t : List Row) (l : List String) : List String := l.filter fun v => !t.any (isVar v)

/-- `check_missing_covs` — 204-219. -/
def missingCovs (t : List Row) (l : List String) : List (String × String) := (pairsOf l).filter fun q => !t.any (isCov q.1 q.2)

/-- `check_missing_means` — 221-229. -/
def missingMeans (t : List Row) (l : List String) : List String := l.filter fun v => !t.any (isMean v)

/-- `add_variances` — 231-245. -/
def addVariances (N : Names) (fixLvCov : Bool) (t : List Row) : List Row :=
  t ++ (missingVars t N.all).map fun v => ⟨v, "~~", v, none, decide (v ∈ N.lox) || (decide (v ∈ N.nob) && fixLvCov), none⟩

/-- `add_covariances` — 247-270: the three checks are made before any row is added. -/
def addCovariances (N : Names) (lvxCov yCov : Bool) (t : List Row) : List Row :=
  t ++ (missingCovs t N.lox).map (fun q => ⟨q.1, "~~", q.2, none, true, none⟩) ++
    (if lvxCov then (missingCovs t N.lvx).map (fun q => ⟨q.1, "~~", q.2, none, false, none⟩) else []) ++
    (if yCov then (missingCovs t N.enx).map (fun q => ⟨q.1, "~~", q.2, none, false, none⟩) else [])

/-- `add_means` — 272-286. -/
def addMeanRows (N : Names) (fixLvMean : Bool) (t : List Row) : List Row :=
  t ++ (missingMeans t N.all).map fun v =>
    let lv := fixLvMean && decide (v ∈ N.nob)
    ⟨v, "~", "1", none, lv || decide (v ∈ N.lox), if lv then some 0 else none⟩

/-- `process_parameter_table` — 72-80: `lvx_cov` is read from the keyword `fix_lv_cov`. -/
def processTable (N : Names) (k : Kws) (t : List Row) : List Row :=
  addMeanRows N (k.fixLvMean.getD true)
    (addCovariances N (k.fixLvCov.getD true) (k.yCov.getD true) (fixFirst (addVariances N (k.fixLvCov.getD false) t)))

/-- A row of the table of all groups, with the number of its parameter. -/
structure GRow where
  row : Row
  group : ℕ
  free : ℕ
  deriving DecidableEq

def setVal (r : GRow) (v : ℚ) : GRow := { r with row := { r.row with fixed := true, fixedval := some v } }

/-- `fix_sample_stats` — 374-407: the values of the observed exogenous variables, group by group.  A row can match only one of the masks. -/
def fixStats (lox : List String) (n : ℕ) (cov : ℕ → String → String → ℚ) (mean : ℕ → String → ℚ) (t : List GRow) : List GRow :=
  let given := (t.map GRow.row).filter fun r => r.fixed && r.fixedval.isSome
  let pairs := missingCovs given lox
  t.map fun r =>
    if r.group < n then
      if r.row.rel = "~~" ∧ r.row.lhs = r.row.rhs ∧ r.row.lhs ∈ lox then setVal r (cov r.group r.row.lhs r.row.lhs)
      else if r.row.rel = "~" ∧ r.row.rhs = "1" ∧ r.row.lhs ∈ lox then setVal r (mean r.group r.row.lhs)
      else match pairs.find? fun q => isCov q.1 q.2 r.row with
        | some q => setVal r (cov r.group q.1 q.2)
        | none => r
    else r

end Verif.Sem.OldTable
