import Mathlib.Algebra.Field.Defs
import Mathlib.Data.List.Range
/-!
# Model of `_solve_vander`, `solve_vander`, `_inv_vander` — linalg_operations.py 486-507

Arrays of length `n` are functions on `ℕ` of which only the first `n` values matter.  A slice
update `x[a:b] -= ...` reads the right-hand side before writing.
-/
namespace Verif.Lin

variable {K : Type*} [Field K]

/-- Line 489: `x[k+1:n] -= a[k] * x[k:n-1]`. -/
def vanderFwd (n : ℕ) (a : ℕ → K) (x : ℕ → K) (k : ℕ) : ℕ → K :=
  fun i => if k + 1 ≤ i ∧ i < n then x i - a k * x (i - 1) else x i

/-- Lines 491-492: `x[k:n] /= a[k:n] - a[:n-k]; x[k-1:n-1] -= x[k:n]`. -/
def vanderBack (n : ℕ) (a : ℕ → K) (x : ℕ → K) (k : ℕ) : ℕ → K :=
  let y := fun i => if k ≤ i ∧ i < n then x i / (a i - a (i - k)) else x i
  fun i => if k - 1 ≤ i ∧ i < n - 1 then y i - y (i + 1) else y i

/-- `_solve_vander(a, x, n)`. -/
def solveVander (n : ℕ) (a : ℕ → K) (x : ℕ → K) : ℕ → K :=
  let x := (List.range (n - 1)).foldl (vanderFwd n a) x
  (List.range' 1 (n - 1)).reverse.foldl (vanderBack n a) x

/-- `_inv_vander(a)`, entry `(i, j)`: row `i` starts as the unit vector at `n - i - 1`. -/
def invVander (n : ℕ) (a : ℕ → K) (i : ℕ) : ℕ → K :=
  solveVander n a fun j => if j = n - i - 1 then 1 else 0

end Verif.Lin
