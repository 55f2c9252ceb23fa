import Verif.Fa.Align
import Mathlib.Analysis.SpecialFunctions.Exp
/-!
# Model of the concentrated path of `MLEstimator` — pyfa2/likelihood.py 84-146

`np.linalg.eigh` of the whitened matrix is given as a pair `u, V` described by `EighOk`.
-/
namespace Verif.Fa
open Matrix

variable {p : ℕ}

/-- `s = 1.0 / np.sqrt(psi)`. -/
noncomputable def rsq (psi : Fin p → ℝ) (a : Fin p) : ℝ := 1.0 / Real.sqrt (psi a)

/-- `s.T * S * s` — likelihood.py 86-87. -/
noncomputable def whit (S : Matrix (Fin p) (Fin p) ℝ) (psi : Fin p → ℝ) : Matrix (Fin p) (Fin p) ℝ :=
  Matrix.of fun a b => rsq psi b * S a b * rsq psi a

/-- `loglike_psi` — likelihood.py 85-88. -/
noncomputable def logPsi (r : ℕ) (u : Fin p → ℝ) : ℝ :=
  ∑ i : Fin p, if (i : ℕ) < r then u i - Real.log (u i) - 1 else 0

/-- `grad_psi` — likelihood.py 90-93. -/
noncomputable def gradPsi (r : ℕ) (u : Fin p → ℝ) (V : Matrix (Fin p) (Fin p) ℝ) (psi : Fin p → ℝ) (a : Fin p) : ℝ :=
  (∑ i : Fin p, if (i : ℕ) < r then (1 - u i) * V a i ^ 2 else 0) / psi a

/-- `pinv_term` — likelihood.py 104-107. -/
noncomputable def pinvTerm (u : Fin p → ℝ) (V : Matrix (Fin p) (Fin p) ℝ) (i : Fin p) : Matrix (Fin p) (Fin p) ℝ :=
  let inv : Fin p → ℝ := fun j => if |u i - u j| > 1e-12 then 1.0 / (u i - u j) else 0
  (Matrix.of fun a j => V a j * inv j : Matrix (Fin p) (Fin p) ℝ) * Vᵀ

/-- `hess_psi` — likelihood.py 95-111. -/
noncomputable def hessPsi (r : ℕ) (u : Fin p → ℝ) (V : Matrix (Fin p) (Fin p) ℝ) (psi : Fin p → ℝ) (a b : Fin p) : ℝ :=
  let B := ∑ i : Fin p, if (i : ℕ) < r then
    (let A := V a i * V b i
     let b1 := (2 * u i - 1) * A
     let b2 := 2 * u i * (u i - 1) * pinvTerm u V i a b
     (b1 + b2) * A) else 0
  1.0 / psi a * B * (1.0 / psi b)

/-- Element `k` of a vector, `0` outside. -/
def vent (u : Fin p → ℝ) (k : ℕ) : ℝ := if h : k < p then u ⟨k, h⟩ else 0

/-- `loadings_from_psi` — likelihood.py 113-117 for `1 ≤ m`: the slices `-m:` are the last `m` positions. -/
noncomputable def loadPsi (m : ℕ) (u : Fin p → ℝ) (V : Matrix (Fin p) (Fin p) ℝ) (psi : Fin p → ℝ) :
    Matrix (Fin p) (Fin m) ℝ :=
  Matrix.of fun a j => Real.sqrt (psi a) * entry V a (p - m + j) * Real.sqrt (vent u (p - m + j) - 1)

/-- `grad_exp` — likelihood.py 126-128, given `grad_psi` at `psi = exp(rho)`. -/
def gradExp (psi g : Fin p → ℝ) (a : Fin p) : ℝ := psi a * g a

/-- `hess_exp` — likelihood.py 130-137, given `grad_psi` and `hess_psi` at `psi = exp(rho)`. -/
def hessExp (psi dF : Fin p → ℝ) (H : Fin p → Fin p → ℝ) (a b : Fin p) : ℝ :=
  let out := psi b * H a b * psi a
  if a = b then out + psi a * dF a else out

end Verif.Fa
