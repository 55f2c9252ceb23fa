import Mathlib.Data.Real.Basic
import Mathlib.Data.Matrix.Mul
import Mathlib.Algebra.BigOperators.Field

/-!
Model of the coefficients of `get_start_values` of `pystatsm/pyglm2/glm.py` (lines 254-275; `pyglm/linear_model.py` 1643-1664 is the same).  Link,
derivative of the link and variance function are functions to `Option ℝ`; `none` is a nan or an infinity.  The weighted least squares fit
(`nwls` or `wls_qr`) enters through its normal equations.  `phi_init` is left out.
-/

namespace Verif.Glm
open Finset

variable {n p : ℕ}

/-- `mu_init` — 255-258. -/
noncomputable def startMu (binom : Bool) (w y : Fin n → ℝ) (i : Fin n) : ℝ :=
  if binom then (y i * w i + 1 / 2) / (w i + 1) else (y i + (∑ j, y j) / n) / 2

/-- A value with nan and infinities replaced by one — 262-264. -/
def orOne (v : Option ℝ) : ℝ := v.getD 1

/-- `we` — 265-267. -/
noncomputable def startW (dlink var : ℝ → Option ℝ) (mu : ℝ) : ℝ :=
  let den := orOne (var mu) * orOne (dlink mu) ^ 2
  open Classical in if den = 0 then 0 else 1 / den

/-- `z` — 268-271. -/
noncomputable def startZ (binom : Bool) (link dlink : ℝ → Option ℝ) (y mu : ℝ) : ℝ :=
  if binom then orOne (link mu) + (y - mu) * orOne (dlink mu) else orOne (link mu)

/-- `beta_init` — 272-275: a solution of the weighted normal equations. -/
def IsStart (binom : Bool) (link dlink var : ℝ → Option ℝ) (w y : Fin n → ℝ) (X : Fin n → Fin p → ℝ) (b : Fin p → ℝ) : Prop :=
  ∀ k, ∑ i, X i k * (startW dlink var (startMu binom w y i) *
    (startZ binom link dlink (y i) (startMu binom w y i) - ∑ l, X i l * b l)) = 0

end Verif.Glm
