import Verif.Rank.Model
import Mathlib.Algebra.BigOperators.Group.List.Basic
import Mathlib.Algebra.Ring.Defs
/-!
# Model of equality constraints: `pysem2/model_base.py` `reduce_parameters`,
`pysem2/indexers.py` `equality_constraint_mat`, `pysem2/model_specification.py` transforms

The free table has one row per free parameter and group; `labels` is its `label` column.  Its
index is `0 .. n-1` (`get_free_table` resets it).
-/
namespace Verif.Sem
open Verif.Rank

section
variable {α : Type*} [LinearOrder α] [Inhabited α]

/-- `theta_index` of row `r` — model_base.py 442-448.  `labels` is a pandas Series, so
`arr[ind]` in `unique` keeps `ind` as index; `pd.Series(unique_values)` keeps it too, and
`label_to_ind` sends the label `u[k]` to `unique_labels.index[k] = ind[k]`. -/
def thetaIndex (labels : List α) (r : ℕ) : ℕ :=
  let (u, _, ind) := unique labels
  ind.getD (u.idxOf (labels.getD r default)) 0

/-- `transform_theta_to_free(theta) = theta[_unique_locs]` — model_specification.py 134-136. -/
def thetaToFree {R : Type*} (labels : List α) (theta : ℕ → R) : List R :=
  (unique labels).2.1.map theta

/-- `transform_free_to_theta(free) = free[_first_locs]` — model_specification.py 105-120. -/
def freeToTheta {R : Type*} [Zero R] (labels : List α) (free : List R) : List R :=
  (unique labels).2.2.map fun i => free.getD i 0

/-- Rows of the free table in group `i`. -/
def groupRows (group : List ℕ) (i : ℕ) : List ℕ :=
  (List.range group.length).filter fun r => group.getD r 0 = i

/-- `transform_free_to_group_free(free, i) = free[free_to_group_free[i]]` —
model_specification.py 122-124, model_base.py 453-459. -/
def freeToGroup {R : Type*} [Zero R] (labels : List α) (group : List ℕ) (free : List R) (i : ℕ) :
    List R :=
  (groupRows group i).map fun r => free.getD (thetaIndex labels r) 0

/-- `jac_group_free_to_free(g, i) = dfree_dgroup[i].dot(g)` — the sparse matrix has a one at
`(theta_index[rows[j]], j)`; result of length `n`. -/
def jacGroup {R : Type*} [AddCommMonoid R] (labels : List α) (group : List ℕ) (g : List R)
    (i : ℕ) : List R :=
  (List.range labels.length).map fun t =>
    (((groupRows group i).zip g).map fun rv => if thetaIndex labels rv.1 = t then rv.2 else 0).sum

/-- `jac_free_to_theta(x) = equality_constraint_mat(_first_locs).dot(x)` — indexers.py 195-202,
model_specification.py 145-150.  The matrix has shape `(m, max + 1)` with a one at
`(k, first_locs[k])`; the product raises unless `x` has length `max + 1`; `max` of an empty array
raises. -/
def jacTheta {R : Type*} [AddCommMonoid R] (locs : List ℕ) (x : List R) : Option (List R) :=
  match locs.max? with
  | none => none
  | some mx =>
    if x.length = mx + 1 then
      some ((List.range locs.length).map fun k =>
        (((List.range locs.length).zip locs).map fun rc =>
          if rc.1 = k then x.getD rc.2 0 else 0).sum)
    else none

/-- The reduction of a group gradient — sem.py 133. -/
def reduceGrad {R : Type*} [AddCommMonoid R] (labels : List α) (group : List ℕ) (g : List R)
    (i : ℕ) : Option (List R) :=
  jacTheta (unique labels).2.2 (jacGroup labels group g i)

end
end Verif.Sem
