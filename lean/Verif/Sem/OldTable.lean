import Mathlib.Data.List.Dedup
import Mathlib.Data.Rat.Defs
import Mathlib.Data.List.GetD

/-!
Model of the parameter table of `pystatsm/pysem/formula.py` (class `FormulaParser`): the classes of variables (lines 87-130), the rows added by
`extend_model` (lines 132-212), the rows it fixes (lines 214-265), the matrix and cell of a row (lines 267-314) and the numbering of the free
parameters (lines 364-381).  Sets are lists without repetition; Python fixes no order of a set, and no theorem depends on it.
-/

namespace Verif.Sem.OldTable

/-- A row of the table; `fixedval = none` is None or nan. -/
structure Row where
  lhs : String
  rel : String
  rhs : String
  label : Option String := none
  fixed : Bool := false
  fixedval : Option ℚ := none
  deriving DecidableEq

/-- `set(l)`. -/
def setOf (l : List String) : List String := l.dedup

/-- `a.difference(b)`. -/
def diff (a b : List String) : List String := a.filter fun x => x ∉ b

/-- The classes of lines 95-122. -/
def lvNames (t : List Row) : List String := setOf ((t.filter (·.rel = "=~")).map Row.lhs)
def vNames (t : List Row) : List String := setOf ((t.filter (·.rel = "=~")).map Row.rhs)
def yNames (t : List Row) : List String := setOf ((t.filter (·.rel = "~")).map Row.lhs)
def xNames (t : List Row) : List String := setOf ((t.filter (·.rel = "~")).map Row.rhs)
def ovInd (t : List Row) : List String := diff (vNames t) (lvNames t)
def ovY (t : List Row) : List String := diff (yNames t) (lvNames t ++ vNames t)
def ovX (t : List Row) : List String := diff (xNames t) (lvNames t ++ vNames t ++ ovY t)
def ovCov (t : List Row) : List String :=
  setOf ((t.filter fun r => r.rel = "~~" ∧ r.lhs ∉ lvNames t).map Row.lhs ++ (t.filter fun r => r.rel = "~~" ∧ r.rhs ∉ lvNames t).map Row.rhs)
def ov (t : List Row) : List String := setOf (ovInd t ++ ovY t ++ ovX t ++ ovCov t)
def ovY2 (t : List Row) : List String := diff (yNames t) (vNames t ++ xNames t ++ lvNames t)
def lvX (t : List Row) : List String := diff (lvNames t) (vNames t ++ yNames t)
def lvY (t : List Row) : List String := diff ((yNames t).filter (· ∈ lvNames t)) (vNames t ++ xNames t)
def lvovY (t : List Row) : List String := setOf (lvY t ++ ovY2 t)

/-- `names["lv_extended"]` — 160-170: the latent variables and the observed ones in regressions. -/
def lvExt (t : List Row) : List String :=
  let reg := t.filter fun r => r.rel = "~" ∧ r.rhs ≠ "1"
  lvNames t ++ diff (setOf (reg.map Row.lhs ++ reg.map Row.rhs)) (lvNames t)

/-- `add_covs` — 183-196: all pairs, the later name on the left, or all variances. -/
def addCovs : List String → List Row
  | [] => []
  | a :: l => l.map (fun b => ⟨b, "~~", a, none, false, none⟩) ++ addCovs l
def addVars (l : List String) : List Row := l.map fun a => ⟨a, "~~", a, none, false, none⟩

/-- `add_means` — 198-204. -/
def addMeans (l : List String) : List Row := l.map fun a => ⟨a, "~", "1", none, false, none⟩

/-- The rows that `extend_model` appends by default — 139-147, 173-181. -/
def autoRows (t : List Row) : List Row :=
  addVars (setOf (t.map Row.lhs ++ t.map Row.rhs)) ++ addCovs (ovX t) ++ addCovs (lvX t) ++ addCovs (lvovY t) ++ addMeans (setOf (lvExt t ++ ov t))

/-- `fix_latent_variable_variance` — 241-246. -/
def fixLvVar (lv : List String) (t : List Row) : List Row :=
  t.map fun r => if r.rel = "~~" ∧ r.lhs ∈ lv ∧ r.lhs = r.rhs then { r with fixed := true, fixedval := some 1 } else r

/-- Whether a row is a loading on `v`. -/
def isLoad (v : String) (r : Row) : Bool := r.rel = "=~" ∧ r.lhs = v

/-- `fix_first_latent_variable_factor_loading` — 248-257: the first loading of every latent variable without a fixed loading. -/
def fixFirst (t : List Row) : List Row :=
  t.zipIdx.map fun (r, i) =>
    if isLoad r.lhs r ∧ t.findIdx (isLoad r.lhs) = i ∧ ¬ t.any (fun s => isLoad r.lhs s && s.fixed) then { r with fixed := true, fixedval := some 1 }
    else r

/-- `fix_x_cov` — 259-265. -/
def fixXCov (x : List String) (t : List Row) : List Row :=
  t.map fun r => if r.lhs ∈ x ∧ r.rhs ∈ x ∧ r.rel = "~~" then { r with fixed := true, fixedval := none } else r

/-- `fix_lv_mean` — 222-238. -/
def fixLvMean (ext lv x o : List String) (t : List Row) : List Row :=
  t.map fun r =>
    if r.rel = "~" ∧ r.rhs = "1" then
      let r := if r.lhs ∈ ext ∧ r.lhs ∉ o then { r with fixed := true, fixedval := some 0 } else r
      let r := if r.lhs ∈ ext ∧ r.lhs ∉ lv ∧ r.lhs ∉ x then { r with fixed := false } else r
      if r.lhs ∈ ext ∧ r.lhs ∈ x ∧ r.lhs ∈ o then { r with fixed := true } else r
    else r

/-- `extend_model()` — 132-158, with default arguments. -/
def extendModel (t : List Row) : List Row :=
  fixLvMean (lvExt t) (lvNames t) (xNames t) (ov t) (fixXCov (ovX t) (fixFirst (fixLvVar (lvNames t) (t ++ autoRows t))))

/-- `assign_matrices` — 267-314: the later assignments win.  `none` when no mask holds (`astype(int)` of nan raises). -/
def matOf (ext o : List String) (r : Row) : Option ℕ :=
  let mes : Bool := r.rel = "=~"
  let reg : Bool := r.rel = "~"
  let cov : Bool := r.rel = "~~"
  let mst : Bool := r.rhs = "1"
  let rvl : Bool := r.rhs ∈ ext
  let rvo : Bool := r.rhs ∈ o
  let lvl : Bool := r.lhs ∈ ext
  let lol : Bool := r.lhs ∈ o
  if lvl && reg && mst then some 5
  else if lol && !lvl && reg && mst then some 4
  else if cov && !lvl then some 3
  else if (cov && !rvl) || (cov && lvl) then some 2
  else if (mes && (rvl && rvo)) || (mes && !rvo) || reg then some 1
  else if mes && !rvl then some 0
  else none

/-- The names of the row and the column — 299-313. -/
def cellOf (m : ℕ) (r : Row) : String × String :=
  if m = 0 then (r.rhs, r.lhs)
  else if m = 1 then if r.rel = "=~" then (r.rhs, r.lhs) else (r.lhs, r.rhs)
  else if m = 2 ∨ m = 3 then (r.lhs, r.rhs)
  else ("0", r.lhs)

/-- `dict.get`, as `Series.map` uses it: names that are not there give nan. -/
def place (l : List String) (x : String) : Option ℕ := if x ∈ l then some (l.idxOf x) else none

/-- The matrix and the cell of a row after `sort_table` — 336-354. -/
def cell (ext o : List String) (r : Row) : Option (ℕ × Option ℕ × Option ℕ) := do
  let m ← matOf ext o r
  let (a, b) := cellOf m r
  let rows := if m = 0 ∨ m = 3 then o else if m = 4 ∨ m = 5 then ["0"] else ext
  let cols := if m = 3 ∨ m = 4 then o else ext
  some (m, place rows a, place cols b)

/-! ### Numbers of the free parameters -/

/-- The first row with a label — 373. -/
def firstLabel (t : List Row) (l : String) : ℕ := t.findIdx fun r => r.label = some l

/-- The rows that get a number of their own — 366-376. -/
def counted (t : List Row) (i : ℕ) : Bool :=
  match t[i]? with
  | none => false
  | some r => !r.fixed && (match r.label with | none => true | some l => firstLabel t l = i)

/-- The numbers before labels are linked — 377-378. -/
def ownNumber (t : List Row) (i : ℕ) : ℕ := if counted t i then ((List.range (i + 1)).filter (counted t)).length else 0

/-- `index_params` — 364-381: the number of row `i`. -/
def freeNumber (t : List Row) (i : ℕ) : ℕ :=
  match t[i]? with
  | none => 0
  | some r => match r.label with
    | none => ownNumber t i
    | some l => ownNumber t (firstLabel t l)

end Verif.Sem.OldTable
