import Mathlib.Data.Real.Sqrt
import Mathlib.Analysis.SpecialFunctions.Log.Basic
import Mathlib.Algebra.BigOperators.Field

/-!
Model of `handle_lars_setup` and `_lars_sumstats` of `pystatsm/pyglmnet/lars.py` (lines 58-69 and 145-166) over the reals, with a fixed number
`n` of observations and `p` of variables.  The inverse of `np.linalg.inv` enters through the coefficients `b` of the least squares fit.  The
path `betas` is a function of its rows.  A quotient by zero is zero where numpy gives an infinity or a nan; the theorems about quotients
assume the denominators positive, or speak of the denominator itself.
-/

namespace Verif.Eln
open Finset

variable {n p : ℕ}

/-- `np.mean` of a column. -/
noncomputable def lsMean (v : Fin n → ℝ) : ℝ := (∑ i, v i) / n

/-- `np.var` of a column, with divisor `n`. -/
noncomputable def lsVar (v : Fin n → ℝ) : ℝ := (∑ i, (v i - lsMean v) ^ 2) / n

/-- `v - np.mean(v, axis=0)`, lines 61-62. -/
noncomputable def lsCentre (v : Fin n → ℝ) : Fin n → ℝ := fun i => v i - lsMean v

/-- One column of the `X` returned by `handle_lars_setup`, lines 60-66. -/
noncomputable def lsColumn (intercept normalize standardize : Bool) (v : Fin n → ℝ) : Fin n → ℝ :=
  let v1 := if intercept then lsCentre v else v
  let v2 := if standardize then fun i => v1 i / √(lsVar v1) else v1
  if normalize then fun i => v2 i / √(n : ℝ) else v2

/-- The `y` returned by `handle_lars_setup`, line 62. -/
noncomputable def lsResponse (intercept : Bool) (y : Fin n → ℝ) : Fin n → ℝ := if intercept then lsCentre y else y

/-- The sum of squared residuals of one vector of coefficients, lines 157-158. -/
def lsSsr (X : Fin n → Fin p → ℝ) (y : Fin n → ℝ) (b : Fin p → ℝ) : ℝ := ∑ i, (y i - ∑ j, X i j * b j) ^ 2

/-- `np.sum(b != 0)`, line 159. -/
noncomputable def lsDf (b : Fin p → ℝ) : ℕ := open Classical in (univ.filter fun j => b j ≠ 0).card

/-- The values of `s2_method`. -/
inductive S2Method | ols | yvar | other

/-- `s2`, lines 146-155: `b` is the least squares solution of line 148, `last` is `betas[-1]`. -/
noncomputable def lsS2 (s2 : Option ℝ) (m : S2Method) (X : Fin n → Fin p → ℝ) (y : Fin n → ℝ) (b last : Fin p → ℝ) : ℝ :=
  match s2, m with
  | some s, _ => s
  | none, .ols => lsSsr X y b / n
  | none, .yvar => lsVar y
  | none, .other => lsSsr X y last / lsDf last

/-- `AIC`, line 161. -/
noncomputable def lsAic (s2 : ℝ) (X : Fin n → Fin p → ℝ) (y : Fin n → ℝ) (b : Fin p → ℝ) : ℝ := lsSsr X y b / s2 + 2 * lsDf b

/-- `BIC`, line 162. -/
noncomputable def lsBic (s2 : ℝ) (X : Fin n → Fin p → ℝ) (y : Fin n → ℝ) (b : Fin p → ℝ) : ℝ :=
  lsSsr X y b / s2 + Real.log n * lsDf b

/-- `Rsq`, line 163. -/
noncomputable def lsRsq (s2 : ℝ) (X : Fin n → Fin p → ℝ) (y : Fin n → ℝ) (b : Fin p → ℝ) : ℝ := 1 - lsSsr X y b / (s2 * n)

/-- The contract of line 148: `b` solves the normal equations. -/
def LsNormal (X : Fin n → Fin p → ℝ) (y : Fin n → ℝ) (b : Fin p → ℝ) : Prop :=
  ∀ j, ∑ i, X i j * (y i - ∑ k, X i k * b k) = 0

end Verif.Eln
