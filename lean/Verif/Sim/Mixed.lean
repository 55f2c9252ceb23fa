import Mathlib.Data.Matrix.Mul
import Mathlib.Data.Real.Basic
import Mathlib.LinearAlgebra.Matrix.Trace
import Mathlib.Data.Nat.Count

/-!
# Model of the simulators of mixed models, `pylmm/sim_lmm.py` and `pylmm/sim_lmm2.py`

The block diagonal covariance matrix of all random effects is a full matrix `G`; both files multiply every block of it
by the same constant.  Draws are parameters.  Memberships are functions of the observation with values in `ℕ`.
-/

namespace Verif.Sim

open Matrix

variable {n q : ℕ}

/-- `re_var` of `get_var_comps` — sim_lmm.py 68-69: `np.mean(np.einsum("ij,jj,ij->i", Z, G, Z))`. -/
noncomputable def reVarOld (Z : Matrix (Fin n) (Fin q) ℝ) (G : Matrix (Fin q) (Fin q) ℝ) : ℝ :=
  (∑ i, ∑ j, Z i j * G j j * Z i j) / n

/-- `fe_var` of `get_var_comps` — sim_lmm.py 70. -/
noncomputable def feVarOld (eta : Fin n → ℝ) : ℝ := (∑ i, eta i * eta i) / n

/-- `np.var`. -/
noncomputable def npVar (x : Fin n → ℝ) : ℝ := (∑ i, (x i - (∑ k, x k) / n) ^ 2) / n

/-- `v_re` of `variance_components` — sim_lmm2.py 254-257. -/
noncomputable def reVarNew (Z : Matrix (Fin n) (Fin q) ℝ) (G : Matrix (Fin q) (Fin q) ℝ) : ℝ :=
  (∑ i, ∑ j, Z i j * (Z * G) i j) / n

/-- The constant `c` by which the covariance matrices are multiplied — sim_lmm.py 138; sim_lmm2.py 267. -/
noncomputable def scaleC (vfe vre rfe rre : ℝ) : ℝ := (vfe / vre) * (rre / rfe)

/-- The branch `var_ratios is not None` of `MixedModelSim.__init__`: the new `G` and the residual variance — sim_lmm.py 135-151. -/
noncomputable def rescaleOld (Z : Matrix (Fin n) (Fin q) ℝ) (G : Matrix (Fin q) (Fin q) ℝ) (eta : Fin n → ℝ)
    (rfe rre : ℝ) : Matrix (Fin q) (Fin q) ℝ × ℝ :=
  let vfe := feVarOld eta
  let vre := reVarOld Z G
  let G' := scaleC vfe vre rfe rre • G
  let rt := rre + rfe
  (G', (1.0 - rt) / rt * (reVarOld Z G' + feVarOld eta))

open Classical in
/-- `rescale_to_var_ratios` — sim_lmm2.py 261-276; the two errors are `none`. -/
noncomputable def rescaleNew (Z : Matrix (Fin n) (Fin q) ℝ) (G : Matrix (Fin q) (Fin q) ℝ) (eta : Fin n → ℝ)
    (rfe rre : ℝ) : Option (Matrix (Fin q) (Fin q) ℝ × ℝ) :=
  if rfe + rre ≥ 1.0 then none
  else
    let vfe := npVar eta
    let vre := reVarNew Z G
    if vre ≤ 0 then none
    else
      let c := scaleC vfe vre rfe rre
      let rt := rfe + rre
      some (c • G, (1.0 - rt) / rt * (vfe + vre * c))

/-- The residual standard deviation squared used by `simulate_response` — sim_lmm.py 183-189; `veta` is `eta.var()`,
`resid_scale` and `v_rs` are the optional arguments. -/
noncomputable def residVarUsed (rsq : Option ℝ) (residScale vrs : Option ℝ) (veta : ℝ) : ℝ :=
  match residScale, vrs with
  | none, none => let r := rsq.getD 0.64; (1 - r) / r * veta
  | none, some v => v
  | some s, _ => s ^ 2

/-- The last entry of `theta_true` after `__init__` — sim_lmm.py 56, 63 and 151: one, unless the ratios were given. -/
noncomputable def thetaResid (vrs : Option ℝ) : ℝ := vrs.getD 1

/-- `simulate_ranefs`: the drawn blocks are put together in the order in which the set of groupings is run through
(`order`) — sim_lmm.py 156-168. -/
def ranefsOld {α : Type} (blocks : ℕ → List α) (order : List ℕ) : List α := (order.map blocks).flatten

/-- `draw_ranefs` of the newer file: the blocks in the order of the terms — sim_lmm2.py 221-238. -/
def ranefsNew {α : Type} (blocks : ℕ → List α) (terms : ℕ) : List α := ((List.range terms).map blocks).flatten

/-- `np.vstack([Xty, Zty])` on the shapes: for a plain `y` both are one-dimensional, of lengths `p` and `q`, and become rows — sim_lmm.py 201-202. -/
def vstackShape (twoDim : Bool) (p q : ℕ) : Option (ℕ × ℕ) :=
  if twoDim then some (p + q, 1) else if p = q then some (2, p) else none

/-- A `Grouping` with `n_levels` and no membership — sim_lmm2.py 124-136. -/
def grouping (nObs nLevels : ℕ) (cycle : String) : Option (ℕ → ℕ) :=
  if nLevels = 0 then none
  else if nObs % nLevels ≠ 0 then none
  else
    let nPer := nObs / nLevels
    if cycle = "repeat" then some fun i => i / nPer
    else if cycle = "tile" then some fun i => i % nLevels
    else none

/-- Default groupings of the older simulator, `np.kron(np.arange(n_grp), np.ones(n_per))` — sim_lmm.py 118-119. -/
def groupingOld (nPer : ℕ) (i : ℕ) : ℕ := i / nPer

/-- Number of observations of level `p`, `mask.sum()` — sim_lmm2.py 155-156. -/
def cnt (nObs : ℕ) (parent : ℕ → ℕ) (p : ℕ) : ℕ := Nat.count (fun j => parent j = p) nObs

/-- Position of an observation among those of its own level: `child[mask] = v` gives the `r`-th of them entry `r` of `v`. -/
def rank (parent : ℕ → ℕ) (i : ℕ) : ℕ := Nat.count (fun j => parent j = parent i) i

/-- A `Nested` factor with `n_per_parent` — sim_lmm2.py 149-163; `maxLevel` is `parent.max()`, an error on no observations. -/
def nested (nObs k : ℕ) (parent : ℕ → ℕ) : Option (ℕ → ℕ) :=
  if nObs = 0 ∨ k = 0 then none
  else
    let maxLevel := (Finset.range nObs).sup parent
    if ∀ p ∈ Finset.range (maxLevel + 1), cnt nObs parent p % k = 0 then
      some fun i => parent i * k + rank parent i / (cnt nObs parent (parent i) / k)
    else none

end Verif.Sim
