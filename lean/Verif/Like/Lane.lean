import Verif.Like.OldOls
/-!
# Model of the Freedman-Lane test of `pyglm/ols.py`

Lines without a file name are of `pystatsm/pyglm/ols.py`.  `ixc` holds the columns that are not of interest, in ascending order, as
`np.setdiff1d` (line 182) gives them; the permutations drawn are a parameter.
-/
namespace Verif.Like.OldOls
open Matrix Verif.Fa
variable {n p q : ℕ}

/-- `self.tvalues`: the coefficients over their standard errors — 87, 142. -/
noncomputable def tValues (chol : ∀ k, Mat k k → Option (Mat k k)) (X : Mat n p) (y : Fin n → ℝ) : Option (Fin p → ℝ) := do
  let (b, se) ← fitMats (chol p) X y
  return fun j => b j / se j

/-- The response of a round of `_freedman_lane` — 183-188. -/
noncomputable def laneResponse (chol : ∀ k, Mat k k → Option (Mat k k)) (X : Mat n p) (ixc : Fin q → Fin p) (y : Fin n → ℝ)
    (perm : Equiv.Perm (Fin n)) : Option (Fin n → ℝ) := do
  let Xc := X.submatrix id ixc
  let (g, _) ← fitMats (chol q) Xc y
  let u := Xc *ᵥ g
  let r := y - u
  return u + fun i => r (perm i)

/-- The statistics of a round — 188-189, of all coefficients; the factors are those of the constructor (lines 46-47). -/
noncomputable def laneRound (chol : ∀ k, Mat k k → Option (Mat k k)) (X : Mat n p) (ixc : Fin q → Fin p) (y : Fin n → ℝ)
    (perm : Equiv.Perm (Fin n)) : Option (Fin p → ℝ) := do
  let z ← laneResponse chol X ixc y perm
  let L ← chol p (Xᵀ * X)
  let Linv ← inv? L
  let (b, se) ← fitY L Linv X z
  return fun j => b j / se j

/-- `_freedman_lane` — 176-195: the familywise and the plain value of the `j`-th variable of interest. -/
noncomputable def freedmanLane {m : ℕ} (chol : ∀ k, Mat k k → Option (Mat k k)) (X : Mat n p) (vars : Fin m → Fin p) (ixc : Fin q → Fin p)
    (y : Fin n → ℝ) (perms : List (Equiv.Perm (Fin n))) (j : Fin m) : Option (ℝ × ℝ) := do
  let tv ← tValues chol X y
  let ts ← perms.mapM (laneRound chol X ixc y)
  return Ols.tallies (fun k => |tv (vars k)|) (ts.map fun t k => |t (vars k)|) j

/-- A round of `_permutation_test` — 166-167: the statistics of the permuted response. -/
noncomputable def permRound (chol : ∀ k, Mat k k → Option (Mat k k)) (X : Mat n p) (y : Fin n → ℝ) (perm : Equiv.Perm (Fin n)) :
    Option (Fin p → ℝ) := do
  let L ← chol p (Xᵀ * X)
  let Linv ← inv? L
  let (b, se) ← fitY L Linv X fun i => y (perm i)
  return fun j => b j / se j

end Verif.Like.OldOls
