import Verif.Fa.OldEfa
import Verif.Fa.Concentrated
/-!
# Model of the concentrated likelihood in `pyfa/efa.py` and `pyfa/factor_analysis.py`

`np.linalg.eigh` of the whitened matrix is given as a pair `u, V` described by `EighOk`; `np.linalg.pinv` is a parameter
with the four equations of Moore and Penrose as its contract (numpy also drops singular values below a relative cutoff
of about `1e-15`, which is left out).
-/
namespace Verif.Fa.Old
open Matrix

variable {p m : ℕ}

/-- `X` is the Moore–Penrose inverse of `A`. -/
structure PenroseOk (A X : Mat p p) : Prop where
  a : A * X * A = A
  b : X * A * X = X
  c : (A * X)ᵀ = A * X
  d : (X * A)ᵀ = X * A

/-- `s.T * S * s` with `s = 1.0 / np.sqrt(psi[:, None])` — efa.py 153-154; factor_analysis.py 421-422. -/
noncomputable def whitC (S : Mat p p) (psi : Fin p → ℝ) : Mat p p :=
  let s : Fin p → ℝ := fun a => 1.0 / Real.sqrt (psi a)
  of fun a b => s b * S a b * s a

/-- `loglike` with `q = n_vars - n_facs` — efa.py 139-157; `loglike_canonical` — factor_analysis.py 419-424. -/
noncomputable def loglikeC (q : ℕ) (u : Fin p → ℝ) : ℝ :=
  ∑ i : Fin p, if (i : ℕ) < q then u i - Real.log (u i) - 1 else 0

/-- `gradient` — efa.py 177-194; `gradient_canonical` — factor_analysis.py 426-431. -/
noncomputable def gradientC (q : ℕ) (u : Fin p → ℝ) (V : Mat p p) (psi : Fin p → ℝ) : Fin p → ℝ := fun a =>
  (∑ i : Fin p, if (i : ℕ) < q then (1 - u i) * V a i ^ 2 else 0) / psi a

/-- The matrix `B` of `hessian` — efa.py 230-238; factor_analysis.py 439-445. -/
noncomputable def bC (pinv : Mat p p → Mat p p) (q : ℕ) (W : Mat p p) (u : Fin p → ℝ) (V : Mat p p) : Mat p p :=
  ∑ i : Fin p, if (i : ℕ) < q then
    (let A : Mat p p := of fun a b => V a i * V b i
     let b1 := (2 * u i - 1) • A
     let b2 := (2 * u i * (u i - 1)) • pinv (u i • (1 : Mat p p) - W)
     had (b1 + b2) A) else 0

/-- `hessian` — efa.py 214-240. -/
noncomputable def hessianC (pinv : Mat p p → Mat p p) (q : ℕ) (S : Mat p p) (u : Fin p → ℝ) (V : Mat p p) (psi : Fin p → ℝ) : Mat p p :=
  let Psi_inv : Mat p p := diagonal (fun a => 1 / psi a)
  Psi_inv * bC pinv q (whitC S psi) u V * Psi_inv

/-- `hessian_canonical` — factor_analysis.py 433-447, with the sign in line 446. -/
noncomputable def hessianCan (pinv : Mat p p → Mat p p) (q : ℕ) (S : Mat p p) (u : Fin p → ℝ) (V : Mat p p) (psi : Fin p → ℝ) : Mat p p :=
  let Psi_inv : Mat p p := diagonal (fun a => 1 / psi a)
  (-Psi_inv) * bC pinv q (whitC S psi) u V * Psi_inv

/-- `loadings_from_psi` — efa.py 262-281; factor_analysis.py 449-455; `1 ≤ m ≤ p`: column `j` of the slices `-m:`. -/
noncomputable def loadC (hm : m ≤ p) (u : Fin p → ℝ) (V : Mat p p) (psi : Fin p → ℝ) : Mat p m := of fun a j =>
  let k : Fin p := ⟨p - m + j, by omega⟩
  let w := Real.sqrt (u k - 1)
  Real.sqrt (psi a) * V a k * w

/-- `gradient_exp` — efa.py 196-212, given the gradient at `psi = exp(rho)`. -/
def gradientE (psi g : Fin p → ℝ) : Fin p → ℝ := fun a => psi a * g a

/-- `hessian_exp` — efa.py 242-260, given the gradient and the Hessian at `psi = exp(rho)`. -/
def hessianE (psi g : Fin p → ℝ) (H : Mat p p) : Mat p p := of fun a b =>
  let out := psi b * H a b * psi a
  if a = b then out + psi a * g a else out

end Verif.Fa.Old
