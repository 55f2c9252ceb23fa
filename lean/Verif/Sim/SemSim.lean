import Verif.Sem.Moments

/-!
# Model of `SimulatedSEM`, `pysem2/model_simulator.py`

A generator is a state `S` with a function giving a value and the next state.  The frames of pandas carry the labels of rows and
columns, which agree in every product; only their values are modelled.
-/

namespace Verif.Sim

open Matrix Verif.Sem

variable {p q : Type} [Fintype p] [DecidableEq p] [Fintype q] [DecidableEq q]

/-- `Sigma[i]` — model_simulator.py 76 and 83: `B` has been replaced by `(I - B)⁻¹`. -/
noncomputable def simSigma (θ : Mats p q) : Matrix p p ℝ :=
  let B := (1 - θ.B)⁻¹
  θ.L * B * (θ.F * Bᵀ) * θ.Lᵀ + θ.P

/-- `mu[i]` — model_simulator.py 84. -/
noncomputable def simMu (θ : Mats p q) : p → ℝ :=
  let B := (1 - θ.B)⁻¹
  (θ.L * B) *ᵥ θ.b + θ.a

/-- `simulate_group_sizes`: `rng.integers(low, high)` raises unless `low < high`; `draw` chooses one of the values — model_simulator.py 21-22. -/
def groupSize (lo hi : ℕ) (draw : ℕ → ℕ) : Option ℕ := if lo < hi then some (lo + draw (hi - lo)) else none

/-- A row of the table of parameters. -/
structure ParRow where
  mat : ℕ
  fixed : Bool
  lhs : ℕ
  rhs : ℕ
  start : ℝ

/-- The mask of `set_parameter` — model_simulator.py 47-49. -/
def maskOf (mat : ℕ) (diag : Bool) (r : ParRow) : Bool := r.mat == mat && !r.fixed && (!diag || r.lhs == r.rhs)

/-- `set_parameter` on one row; `u` is its draw from the unit interval — model_simulator.py 46-50. -/
noncomputable def setParameter (mat : ℕ) (diag : Bool) (lo hi : ℝ) (u : ℝ) (r : ParRow) : ParRow :=
  if maskOf mat diag r then { r with start := lo + (hi - lo) * u } else r

/-- `set_reasonable_params` on one row — model_simulator.py 52-56. -/
noncomputable def setReasonable (u : ℕ → ℝ) (r : ParRow) : ParRow :=
  setParameter 3 true 0.5 0.9 (u 3) (setParameter 2 true 2.0 3.0 (u 2) (setParameter 1 false 0.5 0.9 (u 1) (setParameter 0 false 0.8 0.9 (u 0) r)))

/-- `simulate` as far as the generators are concerned: parameters come from `self.rng` (state `s`), the data from the `rng` of the
module (state `m`) — model_simulator.py 8, 50 and 87. -/
def simulateRng {S Θ D : Type} (params : S → Θ × S) (data : Θ → S → D × S) (s m : S) : D × S × S :=
  let r := params s
  let d := data r.1 m
  (d.1, r.2, d.2)

end Verif.Sim
