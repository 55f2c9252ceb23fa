import Mathlib.Analysis.SpecialFunctions.Exp
import Mathlib.Analysis.SpecialFunctions.Pow.Real

/-!
Model of the structured correlation matrices of `pystatsm/utilities/cov_utils.py` (lines 99-284).  A matrix is a
function of two naturals with its size beside it; floating point is replaced by the reals.  A function that raises
is `none`.
-/

namespace Verif.Cov

/-- `a[i, j] = v` for the positions and values in order. -/
def assign (R : ℕ → ℕ → ℝ) (l : List ((ℕ × ℕ) × ℝ)) : ℕ → ℕ → ℝ :=
  l.foldl (fun R e i j => if i = e.1.1 ∧ j = e.1.2 then e.2 else R i j) R

/-- `np.eye`. -/
def eye (i j : ℕ) : ℝ := if i = j then 1 else 0

/-- `np.triu_indices(n, 1)`: pairs above the diagonal, row by row. -/
def triu1 (n : ℕ) : List (ℕ × ℕ) := (List.range n).flatMap fun i => (List.range' (i + 1) (n - (i + 1))).map fun j => (i, j)

/-- `np.tril_indices(n, -1)`: pairs below the diagonal, row by row. -/
def tril1 (n : ℕ) : List (ℕ × ℕ) := (List.range n).flatMap fun i => (List.range i).map fun j => (i, j)

/-- `get_ar1_corr` (lines 99-116): `rho**toeplitz(arange(n_var))`. -/
def ar1Corr (rho : ℝ) (i j : ℕ) : ℝ := rho ^ (max i j - min i j)

open Classical in
/-- `get_exchangeable_corr` (lines 118-139): the quotient raises for one variable. -/
noncomputable def exchCorr (n : ℕ) (c : ℝ) : Option (ℕ → ℕ → ℝ) :=
  if n = 1 then none else
  let lb := -1 / ((n : ℝ) - 1)
  if c < lb ∨ 1 < c then none else
  some (assign (assign eye ((tril1 n).map fun p => (p, c))) ((triu1 n).map fun p => (p, c)))

/-- `diag_indices(n, k)` (indexing_utils.py 15-38) for `k = -i` and `i ≥ 1`. -/
def diagLow (n i : ℕ) : List (ℕ × ℕ) := (List.range (n - i)).map fun a => (a + i, a)

/-- `diag_indices(n, i)` for `i ≥ 1`. -/
def diagUp (n i : ℕ) : List (ℕ × ℕ) := (List.range (n - i)).map fun a => (a, a + i)

/-- An array of values broadcast to `m` places: its length is `m` or one. -/
def bcast (m : ℕ) (v : List ℝ) : Option (List ℝ) :=
  if v.length = m then some v else if v.length = 1 then some (List.replicate m (v.getD 0 0)) else none

/-- One pass of the loop of `get_mdependent_corr` (lines 158-159) for diagonal `i`. -/
def mdepStep (n i : ℕ) (v : List ℝ) (R : ℕ → ℕ → ℝ) : Option (ℕ → ℕ → ℝ) :=
  (bcast (n - i) v).map fun w => assign (assign R ((diagLow n i).zip w)) ((diagUp n i).zip w)

/-- The loop from diagonal `i` on. -/
def mdepLoop (n : ℕ) : ℕ → List (List ℝ) → (ℕ → ℕ → ℝ) → Option (ℕ → ℕ → ℝ)
  | _, [], R => some R
  | i, v :: vs, R => (mdepStep n i v R).bind (mdepLoop n (i + 1) vs)

/-- `get_mdependent_corr` (lines 141-160): the size and the matrix; `np.max` of nothing raises. -/
def mdepCorr (off : List (List ℝ)) : Option (ℕ × (ℕ → ℕ → ℝ)) :=
  match (off.map List.length).max? with
  | none => none
  | some m => (mdepLoop (m + 1) 1 off eye).map fun R => (m + 1, R)

/-- `np.cumprod`. -/
def cumprod (v : List ℝ) : List ℝ := (List.range v.length).map fun k => (v.take (k + 1)).prod

/-- `get_antedependence1_corr` (lines 162-184): `[::-1]` swaps the two index arrays, so the values go below the
diagonal in the order of `triu_indices` and above it in the order of `tril_indices`. -/
def anteCorr (rho : List ℝ) : ℕ → ℕ → ℝ :=
  let n := rho.length + 1
  let r := (List.range (n - 1)).flatMap fun i => cumprod (rho.drop i)
  assign (assign eye (((triu1 n).map Prod.swap).zip r)) (((tril1 n).map Prod.swap).zip r)

/-- `get_factor_cov` (lines 186-207) for a vector `Psi`: `n` variables and `k` factors. -/
def factorCov (k : ℕ) (A Phi : ℕ → ℕ → ℝ) (Psi : ℕ → ℝ) (i j : ℕ) : ℝ :=
  (∑ b ∈ Finset.range k, (∑ a ∈ Finset.range k, A i a * Phi a b) * A j b) + if i = j then Psi i else 0

/-- `squareform` of a condensed vector for `n` points, which has the pairs above the diagonal row by row. -/
def squareform (n : ℕ) (v : ℕ → ℝ) (i j : ℕ) : ℝ :=
  if i < j then v ((triu1 n).idxOf (i, j)) else if j < i then v ((triu1 n).idxOf (j, i)) else 0

/-- The two cases of `get_spatialpower_corr`, `get_spatialexp_corr` and `get_spatialgaussian_corr` (lines 225-230,
245-250, 264-269) for the function `f` of the distance: a square matrix, or a condensed vector. -/
def spatialSq (f : ℝ → ℝ) (D : ℕ → ℕ → ℝ) (i j : ℕ) : ℝ := f (D i j)

/-- See `spatialSq`. -/
def spatialVec (f : ℝ → ℝ) (n : ℕ) (d : ℕ → ℝ) (i j : ℕ) : ℝ := squareform n (fun k => f (d k)) i j + if i = j then 1 else 0

/-- `rho**distances`. -/
noncomputable def powerFn (rho d : ℝ) : ℝ := rho ^ d

/-- `np.exp(-distances / theta)`. -/
noncomputable def expFn (theta d : ℝ) : ℝ := Real.exp (-d / theta)

/-- `np.exp(-distances / s**2)`. -/
noncomputable def gaussFn (s d : ℝ) : ℝ := Real.exp (-d / s ^ 2)

/-- `get_toeplitz_corr` (lines 271-284): `toeplitz(np.r_[1., rho])`. -/
def toepCorr (rho : List ℝ) (i j : ℕ) : ℝ := (1 :: rho).getD (max i j - min i j) 0

end Verif.Cov
