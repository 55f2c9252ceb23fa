import Mathlib.Algebra.BigOperators.Intervals
import Mathlib.Data.Real.Basic
/-!
# Model of the construction of the random effects of `pylmm/model_matrices.py` and `pylmm/mlmm.py`

A term is the pair of a formula and a grouping factor, both numbered; `nv` is the number of columns of the design of a formula and
`ng` the number of levels of a factor.  A Python dictionary is the list of its items in the order of insertion.
-/
namespace Verif.Lmm.ReDesign

/-- `d[key] = v` of a dictionary. -/
def upd (d : List (ℕ × ℕ × ℕ)) (key : ℕ) (v : ℕ × ℕ) : List (ℕ × ℕ × ℕ) :=
  if d.any (fun e => e.1 == key) then d.map (fun e => if e.1 == key then (key, v) else e) else d ++ [(key, v)]

/-- `dim_dict` — model_matrices.py 50-54; mlmm.py 39-43. -/
def dims (ng nv : ℕ → ℕ) (groups : List (ℕ × ℕ)) : List (ℕ × ℕ × ℕ) :=
  groups.foldl (fun d g => upd d g.2 (ng g.2, nv g.1)) []

/-- The number of columns of `Z` — 55-57; 44-46. -/
def zCols (ng nv : ℕ → ℕ) (groups : List (ℕ × ℕ)) : ℕ := (groups.map fun g => ng g.2 * nv g.1).sum

/-- The order of `G` — 107-126; 79-98. -/
def gDim (d : List (ℕ × ℕ × ℕ)) : ℕ := (d.map fun e => e.2.1 * e.2.2).sum

/-- `sp.linalg.khatri_rao(Ji.T, Xi.T).T` — 55; 44: `J` has `nv` columns of `X` for every column. -/
def kr (nv : ℕ) (J X : ℕ → ℕ → ℝ) (i c : ℕ) : ℝ := J i (c / nv) * X i (c % nv)

/-- `dummy(x)`: the indicators of the levels. -/
def dummy (lev : ℕ → ℕ) (i g : ℕ) : ℝ := if lev i = g then 1 else 0

/-- `np.kron(Z, np.eye(k))` — mlmm.py 193. -/
def kronI (k : ℕ) (X : ℕ → ℕ → ℝ) (i c : ℕ) : ℝ := X (i / k) (c / k) * if i % k = c % k then 1 else 0

/-- Entry `t` of `row` — 118; 90. -/
def cooRow (nv t : ℕ) : ℕ := t / nv

/-- Entry `t` of `col` — 119-120; 91-92. -/
def cooCol (nv t : ℕ) : ℕ := t / (nv * nv) * nv + t % nv

/-- Entry `s` of `theta_i`, the covariance read column by column — 115, 117; 87, 89. -/
def thetaF (nv : ℕ) (S : ℕ → ℕ → ℝ) (s : ℕ) : ℝ := S (s % nv) (s / nv)

/-- Entry `t` of `data` — 121; 93. -/
def cooDat (nv : ℕ) (S : ℕ → ℕ → ℝ) (t : ℕ) : ℝ := thetaF nv S (t % (nv * nv))

/-- The matrix of the triples, `sps.csc_matrix((data, (row, col)))` — 122; 94: entries at the same place are added. -/
def coo (ng nv : ℕ) (S : ℕ → ℕ → ℝ) (r c : ℕ) : ℝ :=
  ∑ t ∈ Finset.range (ng * (nv * nv)), if cooRow nv t = r ∧ cooCol nv t = c then cooDat nv S t else 0

/-- The row of entry `t` of `G.data`, which is stored column by column with `nv` entries in each — lmm.py 106-115; mlmm.py 246-256. -/
def cscRow (nv t : ℕ) : ℕ := t / nv / nv * nv + t % nv

/-- The column of entry `t` of `G.data`. -/
def cscCol (nv t : ℕ) : ℕ := t / nv

/-- Entry `t` of `np.tile(theta_i, ng)` — mlmm.py 255. -/
def updDat (nv : ℕ) (S : ℕ → ℕ → ℝ) (t : ℕ) : ℝ := thetaF nv S (t % (nv * nv))

end Verif.Lmm.ReDesign
