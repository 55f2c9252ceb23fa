import Mathlib.Data.Real.Basic
import Mathlib.Data.List.Basic
/-!
# The lasso modification of least angle regression

Model of `_lasso_modification` and `lars_drop_var` of `pystatsm/pyglmnet/lars.py` (lines 86-97 and 47-56).

Simplifications: an active variable is its coefficient and its direction.  A direction of zero makes the quotient infinite or nan, which is never
the smallest; the quotient of Lean is then zero, which is left out as well.  The factor is the list of the variables whose rows it holds, so that
`chol_downdate` removes one of them.
-/
namespace Verif.Eln

/-- An entry of `sgn_change` — 87. -/
noncomputable def ldRatio (x : ℝ × ℝ) : ℝ := -x.1 / x.2

/-- `min_sgn_change` — 88-91. -/
noncomputable def ldMin (l : List (ℝ × ℝ)) (gam : ℝ) : ℝ :=
  match ((l.map ldRatio).filter fun r => decide (0 < r)).min? with
  | none => gam
  | some m => min m gam

/-- `_lasso_modification` — 86-97: `none` is the `False` of no drops. -/
noncomputable def lassoMod (l : List (ℝ × ℝ)) (gam : ℝ) : Option (List Bool) × ℝ :=
  if ldMin l gam < gam then (some (l.map fun x => decide (ldRatio x = ldMin l gam)), ldMin l gam) else (none, gam)

/-- `drop_ix` — 48. -/
def ldIx (drops : List Bool) : List ℕ := (List.range drops.length).filter fun k => drops.getD k false

/-- The variables of the factor after `for k in drop_ix: L = chol_downdate(L, k)` — 49-50. -/
def ldFactor {α : Type*} (L : List α) (drops : List Bool) : List α := (ldIx drops).foldl List.eraseIdx L

/-- `active[~drops]` — 53. -/
def ldActive {α : Type*} (active : List α) (drops : List Bool) : List α := ((active.zip drops).filter fun x => !x.2).map Prod.fst

end Verif.Eln
