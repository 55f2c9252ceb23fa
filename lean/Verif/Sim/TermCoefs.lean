import Verif.Sim.Linear
import Mathlib.Data.Finset.Sort

/-!
Model of `_classify_terms`, `_make_coef` and `make_coefs` of `pystatsm/pyglm2/model_sim.py` (lines 97-111, 124-133 and 172-187) for formulas of
numerical and categorical terms; `pyglm/glm_sim.py` has the same code.  A term is the list of its factors, of which only the type counts, and
the slice of its columns; the draw of `rng.choice` is a parameter.  The share `p_nnz` enters through the number `int(p_nnz * n_var)`.
-/

namespace Verif.Sim
open Finset

/-- A term: its factors (true for numerical), and its slice.  The intercept is the term without factors. -/
structure SimTerm where
  factors : List Bool
  start : ℕ
  stop : ℕ

/-- The loop of `_classify_terms`, lines 101-110, from the `k`-th term on. -/
def simClassGo : List SimTerm → ℕ → (ℕ → ℤ) → ℕ → ℤ
  | [], _, f => f
  | t :: ts, k, f =>
    simClassGo ts (k + 1) fun i => if t.start ≤ i ∧ i < t.stop then (if t.factors.all id then -1 else (k : ℤ)) else f i

/-- `_classify_terms`. -/
def simClass (terms : List SimTerm) : ℕ → ℤ := simClassGo terms 0 fun _ => 0

/-- `beta` after lines 128-132: zero outside the positions drawn, `b_nnz` in them. -/
def drawSign (sel : List ℕ) (nnz i : ℕ) : ℝ :=
  match sel.idxOf? i with
  | some k => if k < nnz / 2 then -1 else 1
  | none => 0

/-- `_make_coef`, lines 126-133: `draw` gives the `n_nnz` positions; `rng.choice` raises if there are too few. -/
def coefNum (nVar share : ℕ) (draw : ℕ → ℕ → List ℕ) : Option (ℕ → ℝ) :=
  let nnz := max share 1
  if nVar < nnz then none else some (drawSign (draw nVar nnz) nnz)

/-- The number of columns of a class. -/
def classCount (n : ℕ) (cls : ℕ → ℤ) (c : ℤ) : ℕ := ((range n).filter fun i => cls i = c).card

/-- The place of column `i` among the columns of its class: the entry of the right hand side that `beta[ix] = ...` gives it. -/
def classRank (cls : ℕ → ℤ) (i : ℕ) : ℕ := ((range i).filter fun j => cls j = cls i).card

/-- The right hand side for one class, lines 179-184. -/
noncomputable def classCoef (n : ℕ) (cls : ℕ → ℤ) (share : ℕ) (draw : ℕ → ℕ → List ℕ) (c : ℤ) : Option (ℕ → ℝ) :=
  if c = -1 then coefNum (classCount n cls c) share draw else some (coefCat (classCount n cls c))

/-- The loop of `make_coefs`, lines 178-184; `m` is the position in `u`, and `share m` is `int(p_nnz[m] * n_var)`. -/
noncomputable def coefLoop (n : ℕ) (cls : ℕ → ℤ) (share : ℕ → ℕ) (draw : ℕ → ℕ → List ℕ) : List ℤ → ℕ → (ℕ → ℝ) → Option (ℕ → ℝ)
  | [], _, b => some b
  | c :: u, m, b => (classCoef n cls (share m) draw c).bind fun v =>
    coefLoop n cls share draw u (m + 1) fun i => if cls i = c then v (classRank cls i) else b i

/-- `np.unique(self.term_class)`, line 175. -/
def classUnique (n : ℕ) (cls : ℕ → ℤ) : List ℤ := ((range n).image cls).sort (· ≤ ·)

/-- `term_name_slices["Intercept"]`. -/
def interceptSlice (terms : List SimTerm) : Option SimTerm := terms.find? fun t => t.factors.isEmpty

/-- `make_coefs`. -/
noncomputable def makeTermCoefs (n : ℕ) (terms : List SimTerm) (share : ℕ → ℕ) (draw : ℕ → ℕ → List ℕ) (zeroIntercept : Bool) :
    Option (ℕ → ℝ) := do
  let cls := simClass terms
  let b ← coefLoop n cls share draw (classUnique n cls) 0 fun _ => 0
  if zeroIntercept then
    let t ← interceptSlice terms
    some fun i => if t.start ≤ i ∧ i < t.stop then 0 else b i
  else some b

/-- The slices of a design matrix follow each other from `a` to `n`. -/
def Tiled : ℕ → List SimTerm → ℕ → Prop
  | a, [], n => a = n
  | a, t :: ts, n => t.start = a ∧ a ≤ t.stop ∧ Tiled t.stop ts n

end Verif.Sim
