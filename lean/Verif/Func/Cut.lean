import Mathlib.Data.Real.Archimedean
import Mathlib.Algebra.Order.Floor.Ring
import Mathlib.Algebra.Order.Interval.Finset.SuccPred
import Mathlib.Order.Interval.Finset.Nat

/-!
Model of `quantile_cut` of `pystatsm/utilities/func_utils.py`, lines 1010-1050, with default keyword arguments.  The values are real; `s` is the
array in ascending order, of length `N`, which is all that `np.quantile` uses.
-/

namespace Verif.Func

/-- `np.quantile(arr, q)` with linear interpolation: the value at the place `q (N - 1)` between two neighbours. -/
noncomputable def quantile (s : ℕ → ℝ) (N : ℕ) (q : ℝ) : ℝ :=
  let h := q * ((N : ℝ) - 1)
  let j := ⌊h⌋₊
  s j + (h - j) * (s (min (j + 1) (N - 1)) - s j)

/-- `quantile_cut(arr, n)` at a value `v`: `np.digitize` counts the cuts that are at most `v`; the cuts are the quantiles at `k / n` for
`0 < k < n` (lines 1044-1046). -/
noncomputable def quantileCut (s : ℕ → ℝ) (N n : ℕ) (v : ℝ) : ℕ :=
  open Classical in
  ((Finset.Ico 1 n).filter fun k : ℕ => quantile s N ((k : ℝ) / n) ≤ v).card

end Verif.Func
