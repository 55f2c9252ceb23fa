import Mathlib.LinearAlgebra.Matrix.PosDef
import Mathlib.Data.Finset.Sort
import Mathlib.Algebra.Order.Floor.Ring
import Verif.Fa.Rotation
/-!
# Model of `utilities/splines.py`: cubic regression splines and cyclic cubic splines

Knots are functions of the naturals together with their number; two-dimensional arrays are functions of two naturals, and the systems
of equations are Mathlib matrices. LAPACK's `ptsv` is a parameter-free contract: for a positive definite tridiagonal
matrix it gives the solution; otherwise (the code ignores `info`) the result is left open, `none`. Arithmetic is exact.
-/
namespace Verif.Spl
open Matrix

/-- `a[i, j] = v`. -/
def put (a : ℕ → ℕ → ℝ) (i j : ℕ) (v : ℝ) : ℕ → ℕ → ℝ := fun i' j' => if i' = i ∧ j' = j then v else a i' j'

/-- The `n × m` part of an array. -/
def mat (n m : ℕ) (a : ℕ → ℕ → ℝ) : Matrix (Fin n) (Fin m) ℝ := Matrix.of fun i j => a i j

/-- An array read at naturals (zero outside). -/
def rd {n m : ℕ} (A : Matrix (Fin n) (Fin m) ℝ) (i j : ℕ) : ℝ := if h : i < n ∧ j < m then A ⟨i, h.1⟩ ⟨j, h.2⟩ else 0

/-- `np.diff(knots)`. -/
def dif (k : ℕ → ℝ) (i : ℕ) : ℝ := k (i + 1) - k i

/-- The array `D` of `_cr_mats` — 14-23. -/
noncomputable def crD (n : ℕ) (h : ℕ → ℝ) : ℕ → ℕ → ℝ :=
  (List.range (n - 2)).foldl (fun D i =>
    put (put (put D i i (1 / h i)) i (i + 1) (-1 / h i - 1 / h (i + 1))) i (i + 2) (1 / h (i + 1))) fun _ _ => 0

/-- The diagonal `ldb` of `_cr_mats` — 17, 22. -/
noncomputable def crDiag (h : ℕ → ℝ) (i : ℕ) : ℝ := (h i + h (i + 1)) / 3

/-- The symmetric tridiagonal matrix with diagonal `d` and off-diagonal `e`, as `ptsv` reads it. -/
def tri (m : ℕ) (d e : ℕ → ℝ) : Matrix (Fin m) (Fin m) ℝ :=
  Matrix.of fun i j => if i = j then d i else if (j : ℕ) = i + 1 then e i else if (i : ℕ) = j + 1 then e j else 0

open Classical in
/-- `ptsv`. -/
noncomputable def ptsv {m p : ℕ} (d e : ℕ → ℝ) (b : Matrix (Fin m) (Fin p) ℝ) : Option (Matrix (Fin m) (Fin p) ℝ) :=
  if (tri m d e).PosDef then some ((tri m d e)⁻¹ * b) else none

/-- `crspline_penalty` — 209-217: `(S, F)`. -/
noncomputable def crPenalty (n : ℕ) (k : ℕ → ℝ) : Option (Matrix (Fin n) (Fin n) ℝ × (ℕ → ℕ → ℝ)) := do
  let h := dif k
  let D := mat (n - 2) n (crD n h)
  let BinvD ← ptsv (crDiag h) (fun i => h (i + 1) / 6) D
  let F : ℕ → ℕ → ℝ := fun i c => if i = 0 then 0 else if i ≤ n - 2 then rd BinvD (i - 1) c else 0
  some (Dᵀ * BinvD, F)

/-- `np.searchsorted(knots, x)`: the number of knots below `x` (the knots are sorted). -/
noncomputable def searchsorted (n : ℕ) (k : ℕ → ℝ) (x : ℝ) : ℕ := ((Finset.range n).filter fun i => k i < x).card

/-- The index of the interval — 136-138. -/
noncomputable def crIdx (n : ℕ) (k : ℕ → ℝ) (x : ℝ) : ℕ :=
  let s := searchsorted n k x
  if s = 0 then 0 else if s - 1 = n - 1 then n - 2 else s - 1

/-- `np.eye(n)[i, c]`. -/
def eye (i c : ℕ) : ℝ := if i = c then 1 else 0

/-- One row of `crspline_basis` — 135-146. -/
noncomputable def crRow (n : ℕ) (k : ℕ → ℝ) (F : ℕ → ℕ → ℝ) (x : ℝ) (c : ℕ) : ℝ :=
  let j := crIdx n k x
  let h := dif k j
  let dp := x - k j
  let dn := k (j + 1) - x
  dp / h * eye (j + 1) c + dn / h * eye j c + (dp ^ 3 / h - h * dp) / 6 * F (j + 1) c + (dn ^ 3 / h - h * dn) / 6 * F j c

/-- The function with coefficients `b`: `crspline_basis(x, knots, F).dot(b)`. -/
noncomputable def crFun (n : ℕ) (k : ℕ → ℝ) (F : ℕ → ℕ → ℝ) (b : ℕ → ℝ) (x : ℝ) : ℝ := ∑ c ∈ Finset.range n, crRow n k F x c * b c

/-- The two arrays of `_cc_mats` — 25-48, every write in the order of the code. Numba does not check bounds: for `n = 1` the
writes to column 1 are out of bounds, which is not modelled. -/
noncomputable def ccB (n : ℕ) (h : ℕ → ℝ) : ℕ → ℕ → ℝ :=
  let B := put (fun _ _ => 0) 0 0 ((h (n - 1) + h 0) / 3)
  let B := put B 0 1 (h 0 / 6)
  let B := put B 0 (n - 1) (h (n - 1) / 6)
  let B := (List.range' 1 (n - 2)).foldl (fun B i =>
    put (put (put B i (i - 1) (h (i - 1) / 6)) i i ((h (i - 1) + h i) / 3)) i (i + 1) (h i / 6)) B
  let B := put B (n - 1) (n - 2) (h (n - 2) / 6)
  let B := put B (n - 1) (n - 1) ((h (n - 2) + h (n - 1)) / 3)
  put B (n - 1) 0 (h (n - 1) / 6)

/-- See `ccB`. -/
noncomputable def ccD (n : ℕ) (h : ℕ → ℝ) : ℕ → ℕ → ℝ :=
  let D := put (fun _ _ => 0) 0 0 (-(1 / h 0 + 1 / h (n - 1)))
  let D := put D 0 1 (1 / h 0)
  let D := put D 0 (n - 1) (1 / h (n - 1))
  let D := (List.range' 1 (n - 2)).foldl (fun D i =>
    put (put (put D i (i - 1) (1 / h (i - 1))) i i (-(1 / h (i - 1) + 1 / h i))) i (i + 1) (1 / h i)) D
  let D := put D (n - 1) (n - 2) (1 / h (n - 2))
  let D := put D (n - 1) (n - 1) (-(1 / h (n - 2) + 1 / h (n - 1)))
  put D (n - 1) 0 (1 / h (n - 1))

/-- `ccspline_penalty` — 219-228, for `n + 1` knots: `(S, F)`. -/
noncomputable def ccPenalty (n : ℕ) (k : ℕ → ℝ) : Option (Matrix (Fin n) (Fin n) ℝ × Matrix (Fin n) (Fin n) ℝ) := do
  let h := dif k
  let D := mat n n (ccD n h)
  let Bi ← Fa.inv? (mat n n (ccB n h))
  let F := Bi * D
  let S := Dᵀ * F
  some ((1 / 2 : ℝ) • (S + Sᵀ), F)

/-- The index `j` of `ccspline_basis` before the last knot is wrapped — 148-150: `N` knots; the loop runs from the last knot
down to the second, so the first knot (from the second on) that is not below `x` wins. -/
noncomputable def ccIdx (N : ℕ) (k : ℕ → ℝ) (x : ℝ) : ℕ :=
  (List.range' 2 (N - 1)).reverse.foldl (fun j i => if x ≤ k (i - 1) then i - 1 else j) (searchsorted N k x - 1)

/-- One row of `ccspline_basis` — 148-165, for `n + 1` knots. -/
noncomputable def ccRow (n : ℕ) (k : ℕ → ℝ) (F : ℕ → ℕ → ℝ) (x : ℝ) (c : ℕ) : ℝ :=
  let j := ccIdx (n + 1) k x
  let j1 := j - 1
  let j := if j = n then 0 else j
  let c0 := dif k j1
  let amx := k (j1 + 1) - x
  let xmb := x - k j1
  F j1 c * (amx ^ 3 / (6 * c0)) + F j c * (xmb ^ 3 / (6 * c0)) - F j1 c * (c0 * amx / 6) - F j c * (c0 * xmb / 6) +
    eye j1 c * (amx / c0) + eye j c * (xmb / c0)

/-- `ccspline_basis(x, knots, F).dot(b)`. -/
noncomputable def ccFun (n : ℕ) (k : ℕ → ℝ) (F : ℕ → ℕ → ℝ) (b : ℕ → ℝ) (x : ℝ) : ℝ := ∑ c ∈ Finset.range n, ccRow n k F x c * b c

/-- `np.unique`: sorted without repetition. -/
noncomputable def unique (x : List ℝ) : List ℝ := x.toFinset.sort (· ≤ ·)

/-- One value of `np.quantile` (linear interpolation) of a sorted array. -/
noncomputable def quantile (xs : List ℝ) (q : ℝ) : ℝ :=
  let p := q * ((xs.length : ℝ) - 1)
  let lo := ⌊p⌋₊
  let hi := min (lo + 1) (xs.length - 1)
  xs.getD lo 0 + (xs.getD hi 0 - xs.getD lo 0) * (p - lo)

/-- `crspline_knots` — 106-109: knot `i` of `df` knots (`np.linspace(0, 1, df)[i]` is `i / (df - 1)`). -/
noncomputable def crKnots (x : List ℝ) (df i : ℕ) : ℝ := quantile (unique x) ((i : ℝ) / ((df : ℝ) - 1))

/-- `ccspline_knots` — 111-121: knot `i` of `nk` knots; the last and the first knot are written before the inner ones. -/
noncomputable def ccKnots (x : List ℝ) (nk i : ℕ) : ℝ :=
  let xu := unique x
  let n := xu.length
  let dx := ((n : ℝ) - 1) / ((nk : ℝ) - 1)
  if 1 ≤ i ∧ i < nk - 1 then
    let lb := ⌊dx * i⌋₊ + 1
    let rm := dx * i + 1 - lb
    xu.getD (lb - 1) 0 * (1 - rm) + xu.getD lb 0 * rm
  else if i = 0 then xu.getD 0 0 else xu.getD (n - 1) 0

end Verif.Spl
