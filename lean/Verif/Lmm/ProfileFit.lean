import Mathlib.Data.Real.Basic
import Mathlib.Data.Fin.Tuple.Basic
import Mathlib.Data.Matrix.Mul

/-!
Model of `_fit_with_fixed_tau` of pylmm/re_mod.py (lines 1348-1373): the refit with one component of the reparametrised covariance parameters held.
There are `n + 1` parameters, `k` is `fixed_idx`.  Assignment through the mask `free`, which is true everywhere but at `k`, and then at `k`, is
`Fin.insertNth`; selection through it is `Fin.succAbove`.  The functions `rvs`, `jacobian`, `loglike` and `gradient` and the result of
`scipy.optimize.minimize` are parameters.
-/

namespace Verif.Lmm

variable {n m : ℕ}

/-- `tau` in `fg` and `tau_r` — 1358-1360 and 1370-1372: nothing of `tau_init` is left. -/
def heldTau (k : Fin (n + 1)) (v : ℝ) (u : Fin n → ℝ) : Fin (n + 1) → ℝ := k.insertNth v u

/-- `tau[free]` — 1366. -/
def freeTau (k : Fin (n + 1)) (tau : Fin (n + 1) → ℝ) : Fin n → ℝ := fun j => tau (k.succAbove j)

/-- `bounds` — 1353-1354: the lower bounds, in the order of the free parameters. -/
noncomputable def heldBounds (k : Fin (n + 1)) (isVar : Fin (n + 1) → Bool) (j : Fin n) : Option ℝ :=
  if isVar (k.succAbove j) then some (1 / 1000000) else none

/-- The value of `fg` — 1361-1362. -/
def heldObj (ll : (Fin m → ℝ) → ℝ) (rvs : (Fin (n + 1) → ℝ) → Fin m → ℝ) (k : Fin (n + 1)) (v : ℝ) (u : Fin n → ℝ) : ℝ :=
  ll (rvs (heldTau k v u))

/-- The gradient of `fg` — 1363-1364. -/
def heldGrad (g : (Fin m → ℝ) → Fin m → ℝ) (jac : (Fin (n + 1) → ℝ) → Matrix (Fin m) (Fin (n + 1)) ℝ)
    (rvs : (Fin (n + 1) → ℝ) → Fin m → ℝ) (k : Fin (n + 1)) (v : ℝ) (u : Fin n → ℝ) : Fin n → ℝ :=
  freeTau k ((jac (heldTau k v u)).transpose.mulVec (g (rvs (heldTau k v u))))

/-- The pair returned — 1370-1373: `x` is `opt.x`, and `opt.fun` is the objective there. -/
def heldFit (ll : (Fin m → ℝ) → ℝ) (rvs : (Fin (n + 1) → ℝ) → Fin m → ℝ) (k : Fin (n + 1)) (v : ℝ) (x : Fin n → ℝ) : (Fin m → ℝ) × ℝ :=
  (rvs (heldTau k v x), heldObj ll rvs k v x)

end Verif.Lmm
