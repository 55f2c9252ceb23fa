import Verif.Fa.OldScores
import Mathlib.Data.List.Sort
/-!
# Model of the setup and of the presentation of results in `pyfa/efa.py` and `pyfa/factor_analysis.py`
-/
namespace Verif.Fa.Old
open Matrix

variable {p m : ℕ}

/-- Which names `_process_data` has bound when it stores them — efa.py 57-74.  `none` is the `UnboundLocalError` for `cols`;
otherwise the source of `S`. -/
inductive Source | fromData | fromCov
deriving DecidableEq

def processData (givenX givenS givenN : Bool) : Option Source :=
  let cols : Option Source := none
  let cols := if givenX && !givenS then some .fromData else cols
  let cols := if !givenX && givenS && givenN then some .fromCov else cols
  cols

/-- `_get_n_factors('proportion')` — efa.py 76-84; `u` in descending order.  The division by the sum is `nan` for a zero sum, and
then no comparison holds. -/
noncomputable def nFactorsProp (u : List ℝ) (proportion : ℝ) : ℕ :=
  ((List.range u.length).filter fun k => decide ((u.take (k + 1)).sum / u.sum < proportion ∧ u.sum ≠ 0)).length + 1

/-- `_get_n_factors('eigmin')`. -/
noncomputable def nFactorsEig (u : List ℝ) (eigmin : ℝ) : ℕ := (u.filter fun x => decide (x > eigmin)).length

/-- `_init_psi` — efa.py 86-91: the columns `V[:, :n_facs]` are unit vectors. -/
noncomputable def psiInit (S : Mat p p) (V : Mat p m) : Fin p → ℝ := fun i => (S - V * Vᵀ) i i

/-! ## Order and signs of the factors -/

/-- `np.sign`. -/
noncomputable def npSign (x : ℝ) : ℝ := if x < 0 then -1 else if x > 0 then 1 else 0

/-- `order_loadings` — efa.py 372-380, for the permutation `order` returned by `argsort`. -/
noncomputable def orderL (order : Fin m ≃ Fin m) (L : Mat p m) : Mat p m :=
  let sign := fun j => npSign (∑ i, L i j)
  of fun i j => L i (order j) * sign j

noncomputable def orderT (order : Fin m ≃ Fin m) (L : Mat p m) (T : Mat m m) : Mat m m :=
  let sign := fun j => npSign (∑ i, L i j)
  of fun i j => T i (order j) * sign j

noncomputable def orderPhi (order : Fin m ≃ Fin m) (L : Mat p m) (Phi : Mat m m) : Mat m m :=
  let sign := fun j => npSign (∑ i, L i j)
  let Phi' : Mat m m := of fun i j => Phi (order j) (order i)
  of fun i j => sign i * Phi' i j * sign j

noncomputable def orderPerm (order : Fin m ≃ Fin m) (L : Mat p m) : Mat m m :=
  let sign := fun j => npSign (∑ i, L i j)
  of fun i j => (diagonal sign : Mat m m) i (order j)

/-- `_reorder_factors` — factor_analysis.py 513-556: `top j` is the row of the largest absolute loading of the reordered column. -/
noncomputable def reorderL (order : Fin m ≃ Fin m) (top : Fin m → Fin p) (L : Mat p m) : Mat p m :=
  let L' : Mat p m := of fun i j => L i (order j)
  let s := fun j => npSign (L' (top j) j)
  of fun i j => s j * L' i j

noncomputable def reorderT (order : Fin m ≃ Fin m) (top : Fin m → Fin p) (L : Mat p m) (T : Mat m m) : Mat m m :=
  let L' : Mat p m := of fun i j => L i (order j)
  let s := fun j => npSign (L' (top j) j)
  of fun i j => T i (order j) * s i

/-! ## Labels -/

/-- The labels of the correlations — efa.py 353-355. -/
def phiLabels (m : ℕ) : List (ℕ × ℕ) := (List.range m).flatMap fun i => (List.range i).map fun j => (i, j)

/-- The positions that `vecl` stacks, column by column: `params[ixs]` holds `vecl(Phi)`. -/
def veclPos (m : ℕ) : List (ℕ × ℕ) := (List.range m).flatMap fun j => ((List.range m).filter fun i => decide (j < i)).map fun i => (i, j)

end Verif.Fa.Old
