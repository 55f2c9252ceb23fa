import Verif.Vec.Model
import Mathlib.Analysis.SpecialFunctions.Log.Basic
import Mathlib.Data.Real.Sign
import Mathlib.LinearAlgebra.Matrix.Determinant.Basic

/-!
Model of the starting values, bounds and constraint of `CovarianceStructure` of `pystatsm/pysem/cov_model.py`: `make_param_template` (lines 307-359),
`_constraint_func` (365-368) and `make_bounds` (370-374).  A matrix of free labels has natural numbers as entries, zero for a cell that is not free.  The
symmetric matrices, F and P, are also those with a diagonal.
-/

namespace Verif.Sem
open Matrix

/-- A cell is among `inds` — 328-331: for a symmetric matrix the upper triangle is dropped. -/
def covFree (sym : Bool) (free : ℕ → ℕ → ℕ) (r c : ℕ) : Prop := free r c ≠ 0 ∧ (sym = true → c ≤ r)

instance (sym : Bool) (free : ℕ → ℕ → ℕ) (r c : ℕ) : Decidable (covFree sym free r c) := by unfold covFree; infer_instance

/-- `mat_template` — 338-344. -/
noncomputable def covTmpl (sym : Bool) (free : ℕ → ℕ → ℕ) (fixed : ℕ → ℕ → ℝ) (loc : ℕ → ℕ → Bool) (r c : ℕ) : ℝ :=
  if covFree sym free r c then (if sym = true ∧ r = c then 1 else 1 / 100)
  else if loc r c then fixed r c else 0

/-- The symmetric matrix that `_invech` reads back from the entries that `_vech` takes — 354. -/
noncomputable def covSym (d : ℕ) (free : ℕ → ℕ → ℕ) (fixed : ℕ → ℕ → ℝ) (loc : ℕ → ℕ → Bool) : Matrix (Fin d) (Fin d) ℝ :=
  of fun i j => covTmpl true free fixed loc (max (i : ℕ) j) (min (i : ℕ) j)

/-- The number of columns that a matrix gives to `mat_inds_comb` — 333. -/
def combCount (rows cols : ℕ) (free : ℕ → ℕ → ℕ) : ℕ :=
  ((Finset.range rows ×ˢ Finset.range cols).filter fun x => free x.1 x.2 ≠ 0).card

/-- The number of its free parameters — 328-332. -/
def freeCount (sym : Bool) (rows cols : ℕ) (free : ℕ → ℕ → ℕ) : ℕ :=
  ((Finset.range rows ×ˢ Finset.range cols).filter fun x => covFree sym free x.1 x.2).card

/-- `_constraint_func` — 365-368. -/
noncomputable def covConstraint {d : ℕ} (S : Matrix (Fin d) (Fin d) ℝ) : ℝ :=
  let s := Real.sign S.det
  let l := Real.log |S.det|
  s * Real.exp l / (1 + Real.exp l)

/-- The lower bound of the parameter with label `a` — 371-372: `labels` is the column of all cells in order, `diag` says which are on a diagonal of F or P,
and only the first cell of the label counts. -/
def covLower (labels : List ℕ) (diag : ℕ → Bool) (a : ℕ) : Option ℕ := if diag (labels.idxOf a) then some 0 else none

end Verif.Sem
