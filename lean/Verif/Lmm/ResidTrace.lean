import Mathlib.LinearAlgebra.Matrix.Trace
import Mathlib.Data.Real.Basic
import Mathlib.LinearAlgebra.Matrix.NonsingularInverse

/-!
Model of `_resid_gradient_trace` of `pystatsm/pylmm/re_mod.py` (lines 820-851): the gradient with respect to one parameter of the residual covariance, which no
other function calls.  `Rinv` is `self.R` after line 821, `Ci` the inverse that `chol_fac.solve_A` applies, `dR` the derivative of the residual
covariance; `b` and `u` are the effects of lines 823-825.
-/

namespace Verif.Lmm
open Matrix

variable {n p q : ℕ}

/-- `T1` — 829, 836-842. -/
def rgT1 (Rinv dR : Matrix (Fin n) (Fin n) ℝ) (Ci : Matrix (Fin q) (Fin q) ℝ) (Z : Matrix (Fin n) (Fin q) ℝ) : ℝ :=
  let ZtR := Zᵀ * Rinv
  let T1A := trace Rinv
  let T1B := trace (Ci * (ZtR * dR * ZtRᵀ))
  T1A - T1B

/-- `T2` — 826-827, 843. -/
def rgT2 (Rinv dR : Matrix (Fin n) (Fin n) ℝ) (X : Matrix (Fin n) (Fin p) ℝ) (Z : Matrix (Fin n) (Fin q) ℝ) (y : Fin n → ℝ) (b : Fin p → ℝ)
    (u : Fin q → ℝ) : ℝ :=
  let Py := Rinv *ᵥ (y - X *ᵥ b - Z *ᵥ u)
  (dR *ᵥ Py) ⬝ᵥ Py

/-- `T3` — 828, 832, 844-850. -/
def rgT3 (reml : Bool) (Txx : Matrix (Fin p) (Fin p) ℝ) (Rinv dR : Matrix (Fin n) (Fin n) ℝ) (Ci : Matrix (Fin q) (Fin q) ℝ)
    (X : Matrix (Fin n) (Fin p) ℝ) (Z : Matrix (Fin n) (Fin q) ℝ) : ℝ :=
  let ZtR := Zᵀ * Rinv
  let M := Ci * (Zᵀ * Rinv * X)
  let XtR := (Rinv * X)ᵀ
  if reml then
    trace (Txx * ((dR * XtRᵀ)ᵀ * XtRᵀ + (-2 : ℝ) • ((ZtR * dR * XtRᵀ)ᵀ * M) + (ZtR * dR * ZtRᵀ * M)ᵀ * M))
  else 0

/-- `grad[i]` — 851. -/
def rgGrad (reml : Bool) (Txx : Matrix (Fin p) (Fin p) ℝ) (Rinv dR : Matrix (Fin n) (Fin n) ℝ) (Ci : Matrix (Fin q) (Fin q) ℝ)
    (X : Matrix (Fin n) (Fin p) ℝ) (Z : Matrix (Fin n) (Fin q) ℝ) (y : Fin n → ℝ) (b : Fin p → ℝ) (u : Fin q → ℝ) : ℝ :=
  rgT1 Rinv dR Ci Z - rgT2 Rinv dR X Z y b u - rgT3 reml Txx Rinv dR Ci X Z

end Verif.Lmm
