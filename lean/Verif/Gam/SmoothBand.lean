import Mathlib.Data.Real.Sqrt
import Mathlib.Data.Matrix.Mul
import Mathlib.LinearAlgebra.Matrix.PosDef

/-!
Model of the bands of smooth components: `get_smooth_comps` and `_eval_smooth` of `pystatsm/pygam/gam.py` (lines 497-533), `get_smooth_comps` of
`pygam/gauls.py` (804-836) and of `pygam/gaussian_additive_model.py` (212-226).  `X` is the basis of the smooth after `absorb_constraints`, one row for
each point; `ix` gives the places of its coefficients.  The quantile function of the normal distribution is a parameter.
-/

namespace Verif.Gam
open Matrix

variable {m k p : ℕ}

/-- `y` — gam.py 529. -/
def bandFit (X : Matrix (Fin m) (Fin k) ℝ) (beta : Fin p → ℝ) (ix : Fin k → Fin p) : Fin m → ℝ := X *ᵥ fun j => beta (ix j)

/-- `se` of gam.py — 530-532. -/
noncomputable def bandGam (X : Matrix (Fin m) (Fin k) ℝ) (V : Matrix (Fin p) (Fin p) ℝ) (ix : Fin k → Fin p) (z : ℝ) (i : Fin m) : ℝ :=
  √(∑ j, (X * V.submatrix ix ix) i j * X i j) * z

/-- `se` of gauls.py — 832-834 — and of gaussian_additive_model.py — 222-224. -/
noncomputable def bandGauls (X : Matrix (Fin m) (Fin k) ℝ) (V : Matrix (Fin p) (Fin p) ℝ) (ix : Fin k → Fin p) (z : ℝ) (i : Fin m) : ℝ :=
  √((X * V.submatrix ix ix * Xᵀ) i i) * z

/-- `z` — gam.py 518. -/
noncomputable def bandZ (ppf : ℝ → ℝ) (ci : ℝ) : ℝ := ppf (1 - (100 - ci) / 200)

/-- The columns `y` and `se` of the table of one smooth — gam.py 518-520. -/
noncomputable def bandTable (ppf : ℝ → ℝ) (ci : ℝ) (X : Matrix (Fin m) (Fin k) ℝ) (beta : Fin p → ℝ) (V : Matrix (Fin p) (Fin p) ℝ)
    (ix : Fin k → Fin p) (i : Fin m) : ℝ × ℝ := (bandFit X beta ix i, bandGam X V ix (bandZ ppf ci) i)

/-- The row of the basis as a vector over all coefficients. -/
def bandRow (X : Matrix (Fin m) (Fin k) ℝ) (ix : Fin k → Fin p) (i : Fin m) : Fin p → ℝ := fun a => ∑ j, if ix j = a then X i j else 0

end Verif.Gam
