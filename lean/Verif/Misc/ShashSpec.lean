import Mathlib.Analysis.SpecialFunctions.Arsinh
import Mathlib.Analysis.SpecialFunctions.Log.Basic

/-!
# The sinh-arcsinh density
-/

namespace Verif.Misc.Shash

/-- The arguments of the functions. -/
def args (y : ℝ) (θ : ℕ → ℝ) : List ℝ := [y, θ 0, θ 1, θ 2, θ 3]

/-- Scale and tail parameter are positive. -/
def Dom (θ : ℕ → ℝ) : Prop := 0 < θ 1 ∧ 0 < θ 2

/-- The log of the density `t cosh(x) / (s √(2π (1 + z²))) exp(- sinh(x)² / 2)` with
`z = (y - m) / s`, `x = t arcsinh(z) - v`, in the sense of Jones and Pewsey. -/
noncomputable def logDens (y m s t v : ℝ) : ℝ :=
  Real.log (t * Real.cosh (t * Real.arsinh ((y - m) / s) - v) /
    (s * √(2 * Real.pi * (1 + ((y - m) / s) ^ 2))) *
    Real.exp (-Real.sinh (t * Real.arsinh ((y - m) / s) - v) ^ 2 / 2))

end Verif.Misc.Shash
