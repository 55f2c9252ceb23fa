import Mathlib.Data.Real.Basic
/-!
Model of `predict` of `pystatsm/pyglm/glm.py` (lines 90-101) and of `pystatsm/pyglm/betareg.py` (lines 184-191).

Simplifications: a design is its number of columns and its rows; `kind` is given in lower case, as `kind.lower()` makes it.  The inverse links are
given.
-/
namespace Verif.Glm

/-- A design. -/
structure OpMat where
  cols : ℕ
  rows : List (List ℝ)

/-- `X.dot(b)`: raises when the lengths differ. -/
noncomputable def opDot (X : OpMat) (b : List ℝ) : Option (List ℝ) :=
  if X.cols = b.length then some (X.rows.map fun x => (List.zipWith (· * ·) x b).sum) else none

/-- A vector, or the two columns of `"both"`. -/
inductive OpRes | vec (l : List ℝ) | both (l : List (ℝ × ℝ))

/-- The choice of the result — glm.py 95-101; of another kind `res` is unbound. -/
noncomputable def opKind (inv : ℝ → ℝ) (kind : String) (eta : List ℝ) : Option OpRes :=
  if kind = "lp" ∨ kind = "eta" ∨ kind = "linpred" then some (.vec eta)
  else if kind = "mean" ∨ kind = "mu" then some (.vec (eta.map inv))
  else if kind = "both" then some (.both (eta.zip (eta.map inv)))
  else none

/-- `predict` — glm.py 90-101: `nr` says that `scale_handling` is `"NR"`; `X0` and `params0` are those of the fit. -/
noncomputable def opPredict (nr : Bool) (inv : ℝ → ℝ) (X0 : OpMat) (params0 : List ℝ) (params : Option (List ℝ)) (kind : String) (X : Option OpMat) :
    Option OpRes :=
  let q := params.getD params0
  (opDot (X.getD X0) (if nr then q.dropLast else q)).bind (opKind inv kind)

/-- `predict` — betareg.py 184-191. -/
noncomputable def opBeta (invM invS : ℝ → ℝ) (X0 Z0 : OpMat) (theta0 : List ℝ) (theta : Option (List ℝ)) (X Z : Option OpMat) :
    Option (List ℝ × List ℝ) :=
  let t := theta.getD theta0
  let x := X.getD X0
  (opDot x (t.take x.cols)).bind fun m => (opDot (Z.getD Z0) (t.drop x.cols)).map fun s => (m.map invM, s.map invS)

end Verif.Glm
