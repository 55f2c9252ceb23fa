import Verif.Sem.OldTable

/-!
Model of `update_ptable_with_data` (lines 383-411) and `starting_values` (lines 413-427) of `pystatsm/pysem/formula.py`.  `xv` is the sorted list of
the exogenous observed variables (384-386), `C` and `m` the sample covariance and mean by name.
-/

namespace Verif.Sem.OldTable

/-- The pairs of `tril_indices(n)` — 401-402, by rows; the code goes by columns, which `C267_rows` shows not to matter. -/
def dataPairs (xv : List String) : List (String × String) :=
  xv.zipIdx.flatMap fun x => (xv.take (x.2 + 1)).map fun r => (x.1, r)

/-- One covariance in one row — 403-407. -/
def setCov (C : String → String → ℚ) (x : String × String) (r : Row) : Row :=
  if ((r.lhs = x.1 ∧ r.rhs = x.2) ∨ (r.rhs = x.1 ∧ r.lhs = x.2)) ∧ r.rel = "~~" then { r with fixedval := some (C x.1 x.2) } else r

/-- One mean in one row — 408-411. -/
def setMean (m : String → ℚ) (x : String) (r : Row) : Row :=
  if (r.rel = "~" ∧ r.rhs = "1") ∧ r.lhs = x then { r with fixedval := some (m x) } else r

/-- The two loops — 399-411. -/
def dataRows (xv : List String) (C : String → String → ℚ) (m : String → ℚ) (t : List Row) : List Row :=
  xv.foldl (fun t x => t.map (setMean m x)) ((dataPairs xv).foldl (fun t x => t.map (setCov C x)) t)

/-- `update_ptable_with_data` — 383-411.  With an array of covariances and no variables line 391 indexes with an array of floats and raises; with an
array of means line 397 indexes with the names and raises, unless there are none. -/
def updateData (covFrame meanFrame : Bool) (xv : List String) (C : String → String → ℚ) (m : String → ℚ) (t : List Row) : Option (List Row) :=
  if !covFrame && xv.isEmpty then none
  else if !meanFrame && !xv.isEmpty then none
  else some (dataRows xv C m t)

/-- `starting_values` — 413-427; `mat` is the matrix of the row, `none` a nan. -/
def startValue (mat : ℕ) (r : Row) : Option ℚ :=
  let s0 : Option ℚ := if r.fixed then r.fixedval else some 0
  let s1 := if !r.fixed && decide (r.rel = "=~") then some (1 / 1000) else s0
  let s2 := if r.lhs = r.rhs ∧ r.rel = "~~" ∧ mat = 2 then some 1 else s1
  if r.lhs = r.rhs ∧ r.rel = "~~" ∧ mat = 3 then some (1 / 10) else s2

end Verif.Sem.OldTable
