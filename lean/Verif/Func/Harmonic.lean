import Verif.Func.Model
import Mathlib.Analysis.SpecialFunctions.Log.Basic

/-!
Model of `harmonic_exact` and `harmonic_asymptotic`, utilities/func_utils.py 486-519, in exact real arithmetic.
-/

namespace Verif.Func

/-- `harmonic_exact(n)` — 500-502; `fuel` is the recursion depth of `_harmonic`. -/
noncomputable def harmonicExact (fuel : ℕ) (n : ℤ) : Option ℝ := (harmonicFraction fuel n).map fun pq => (pq.1 : ℝ) / pq.2

/-- The constant of `harmonic_asymptotic` — 518. -/
noncomputable def gammaLit : ℝ := 57721566490153286060651209008240243104215933593992 / 10 ^ 50

/-- `harmonic_asymptotic(n)` for `0 < n`, with the constant as an argument — 519. -/
noncomputable def harmonicAsym (gam : ℝ) (n : ℕ) : ℝ :=
  gam + Real.log n + 1 / (2 * n) - 1 / (12 * (n : ℝ) ^ 2) + 1 / (120.8 * (n : ℝ) ^ 4)

end Verif.Func
