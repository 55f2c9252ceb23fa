import Mathlib.Analysis.SpecialFunctions.Trigonometric.Basic
import Mathlib.Data.Real.Archimedean
import Mathlib.Data.Real.Sqrt

/-!
Model of `clockwise_spiral_fill_triangular` in `pystatsm/utilities/tf_utils.py` and of `r_lkj_cholesky` and `r_lkj` in
`pystatsm/utilities/random.py`.  One element of the batch is modelled; the draws of the generator are arguments.
-/

namespace Verif.Rand

/-- `n` (lines 26-27 of tf_utils.py): the side of a triangle of `m` entries.  Rounding of the square root is left out. -/
noncomputable def spiralN (m : ℕ) : ℕ := ⌊√(0.25 + 2 * (m : ℝ)) - 0.5⌋₊

/-- `y` (lines 28-29) before it is reshaped. -/
def spiralFlat {R : Type*} (x : List R) (n : ℕ) (upper : Bool) : List R :=
  let m := x.length
  let tail := x.drop ((m : ℤ) - ((n : ℤ) * n - m)).toNat
  if upper then x ++ tail.reverse else tail ++ x.reverse

/-- `clockwise_spiral_fill_triangular(x, upper)` (lines 23-34): `reshape` raises unless there are `n * n` entries. -/
noncomputable def spiralFill {R : Type*} [Zero R] (x : List R) (upper : Bool) : Option (ℕ → ℕ → R) :=
  let n := spiralN x.length
  let y := spiralFlat x n upper
  if y.length = n * n then
    some fun r c => if upper then (if r ≤ c then y.getD (r * n + c) 0 else 0) else (if c ≤ r then y.getD (r * n + c) 0 else 0)
  else none

/-- `normal_samples` (lines 228-229 of random.py). -/
def normalSamples (d : ℕ) (u : List ℝ) : List ℝ :=
  u.take d ++ [1] ++ (u.take (2 * d - 1)).drop d ++ [1, 1] ++ u.drop (2 * d - 1)

/-- `np.linalg.norm(mat_samples, axis=-1)` (line 231) of row `r`. -/
noncomputable def rowNorm (d : ℕ) (M : ℕ → ℕ → ℝ) (r : ℕ) : ℝ := √(∑ c ∈ Finset.range d, M r c ^ 2)

/-- The draws for one element of the batch: `norm`, the sign of `spherical_uniform(dim=1)`, the angle of
`spherical_uniform(dim=2)` and the normal samples `u`. -/
structure LkjDraw where
  norm : ℕ → ℝ
  sgn : Bool
  angle : ℝ
  u : List ℝ

/-- Rows `0` and `1` of `samples` (lines 218-222; tf_utils.py 13-17). -/
noncomputable def headRow (w : LkjDraw) (k c : ℕ) : ℝ :=
  if k = 0 then (if c = 0 then (if w.sgn then 1 else 0) * 2 - 1 else 0)
  else (if c = 0 then Real.cos w.angle else if c = 1 then Real.sin w.angle else 0)

/-- `direction` (lines 216-234): no rows raise in `np.stack`. -/
noncomputable def direction (d : ℕ) (w : LkjDraw) : Option (ℕ → ℕ → ℝ) :=
  if d = 0 then none
  else if 2 < d then do
    let M ← spiralFill (normalSamples d w.u) false
    pure fun k c => if k < 2 then headRow w k c else M k c / rowNorm d M k
  else some (headRow w)

/-- `r_lkj_cholesky(eta, dim)` (lines 204-242). -/
noncomputable def lkjChol (dim : ℕ) (w : LkjDraw) : Option (ℕ → ℕ → ℝ) := do
  let D ← direction (dim - 1) w
  pure fun r c =>
    if r = c then (if r = 0 then 1 else √(1 - w.norm (r - 1)))
    else if r = 0 then 0
    else if c = dim - 1 then 0
    else √(w.norm (r - 1)) * D (r - 1) c

/-- `r_lkj(eta, dim)` (lines 244-251). -/
noncomputable def lkj (dim : ℕ) (w : LkjDraw) : Option (ℕ → ℕ → ℝ) := do
  let L ← lkjChol dim w
  pure fun i j => if i = j then 1 else ∑ k ∈ Finset.range dim, L i k * L j k

end Verif.Rand
