import Mathlib.Analysis.SpecialFunctions.Sqrt
import Mathlib.Data.Real.Sign
import Mathlib.Algebra.Order.BigOperators.Group.Finset

/-!
Model of the profile likelihood of pylmm/re_mod.py: `profile` (lines 1316-1346) for a variance component and `profile_confint` (lines 1412-1421).
The refit with one component held (`_fit_with_fixed_tau`, 1348-1373) is a parameter: the function that gives the minimised objective for each held
value.  For a variance the held value is also the entry of `thetas` (`_VarCorrReparam.rvs`, 953-960, copies it).
-/

namespace Verif.Lmm

/-- The ends of the grid — 1333-1335. -/
noncomputable def profBounds (tb se mle : ℝ) (isVar : Bool) : ℝ × ℝ :=
  let width := tb * max se (1 / 1000)
  (if isVar then max (mle - width) (1 / 1000000) else mle - width, mle + width)

/-- `np.linspace(lb, ub, n)` — 1336. -/
noncomputable def profGrid (lb ub : ℝ) (n k : ℕ) : ℝ := lb + k * ((ub - lb) / ((n : ℝ) - 1))

/-- `zetas` — 1339-1340. -/
noncomputable def profZeta (D : ℝ → ℝ) (llmax mle t0 : ℝ) : ℝ := √(max (D t0 - llmax) 0) * Real.sign (t0 - mle)

/-- The interval of the knots that is used: `searchsorted`, clipped, less one. -/
noncomputable def interpCell (y : ℕ → ℝ) (n : ℕ) (z : ℝ) : ℕ :=
  min (max ((Finset.range n).filter fun k => y k < z).card 1) (n - 1) - 1

/-- `interp1d(y, x, kind='linear', fill_value='extrapolate')` at one point, for increasing knots — 1419. -/
noncomputable def interpLin (y x : ℕ → ℝ) (n : ℕ) (z : ℝ) : ℝ :=
  let j := interpCell y n z
  let slope := (x (j + 1) - x j) / (y (j + 1) - y j)
  slope * (z - y j) + x j

/-- `profile_confint` for one parameter — 1413-1420: `z` is the normal quantile. -/
noncomputable def profConfint (y x : ℕ → ℝ) (n : ℕ) (z : ℝ) : ℝ × ℝ := (interpLin y x n (-z), interpLin y x n z)

/-- Both steps for a variance component. -/
noncomputable def varInterval (D : ℝ → ℝ) (llmax tb se mle : ℝ) (n : ℕ) (z : ℝ) : ℝ × ℝ :=
  let b := profBounds tb se mle true
  let x := profGrid b.1 b.2 n
  profConfint (fun k => profZeta D llmax mle (x k)) x n z

end Verif.Lmm
