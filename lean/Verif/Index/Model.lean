import Verif.Np.Basic
import Mathlib.Data.Nat.Sqrt
import Mathlib.Data.Nat.Choose.Basic
import Mathlib.Data.List.Sort
/-!
# Model of `pystatsm/utilities/indexing_utils.py` (index arithmetic)

Integers that the code only uses in non-negative ranges are `ℕ`; where a subtraction in the
code could go negative on inputs outside the documented range the model uses `ℤ` (so that no
truncated subtraction hides a defect).
-/
namespace Verif.Index
open Verif.Np

/-- `tril_indices(n, k, order)` — indexing_utils.py 60-85 (square case `m=None`).
Order `'F'` calls `np.triu_indices(n, -k)[::-1]`, i.e. swaps the two index arrays. -/
def trilIndices (n : ℕ) (k : ℤ) (orderF : Bool) : List (ℕ × ℕ) :=
  if orderF then (npTriu n (k * -1)).map Prod.swap else npTril n k

/-- `triu_indices(n, k, order)` — indexing_utils.py 94-119 (square case). -/
def triuIndices (n : ℕ) (k : ℤ) (orderF : Bool) : List (ℕ × ℕ) :=
  if orderF then (npTril n (k * -1)).map Prod.swap else npTriu n k

/-- `vecl_inds(n)` — indexing_utils.py 40-58: boolean mask over the flattened C-order index
grid, `True` where `j > i`. -/
def veclMask (n : ℕ) : List Bool :=
  ((List.range n).flatMap fun i => (List.range n).map fun j => (i, j)).map
    fun ij => decide (ij.1 < ij.2)

/-- `vec_inds_reverse(i, m)` — indexing_utils.py 204-223. -/
def vecIndsReverse (i m : ℕ) : ℕ × ℕ := (i % m, i / m)

/-- `vec_inds_forwards(r, s, m)` — indexing_utils.py 225-243. -/
def vecIndsForwards (r s m : ℕ) : ℕ := s * m + r

/-- `largest_triangular(n)` — indexing_utils.py 246-264: `floor((-1 + sqrt(8 n + 1)) / 2)`.
`np.sqrt` then `floor` is modelled with the exact integer square root:
`floor((x-1)/2) = floor((floor x - 1)/2)`.  Argument in `ℤ`, as the callers may pass `-1`;
for negative argument `8n+1 < 0` and numpy gives NaN, modelled here by `toNat` (no property
below uses it). -/
def largestTriangular (n : ℤ) : ℤ := ((Nat.sqrt (8 * n + 1).toNat : ℤ) - 1) / 2

/-- `vech_inds_reverse(i, n)` — indexing_utils.py 272-304. -/
def vechIndsReverse (i n : ℤ) : ℤ × ℤ :=
  let q := n * (n + 1) / 2
  let r := q - i - 1
  let s := largestTriangular r
  let t := s * (s + 1) / 2
  let p := r - t
  let j := n - p - 1
  let k := n - s - 1
  (j, k)

/-- `vech_inds_forwards(r, s, m)` — indexing_utils.py 306-328. -/
def vechIndsForwards (r s m : ℤ) : ℤ := r + s * m - s * (s + 1) / 2

/-- `vecl_inds_reverse(i, n)` — indexing_utils.py 359-389. -/
def veclIndsReverse (i n : ℤ) : ℤ × ℤ :=
  let q := n * (n - 1) / 2
  let r := q - i - 1
  let s := largestTriangular r
  let t := s * (s + 1) / 2
  let p := r - t
  let j := n - p - 1
  let k := n - s - 2
  (j, k)

/-- `vecl_inds_forwards(r, s, m)` — indexing_utils.py 391-418 (the same function is repeated
in unconstrained_chol.py 11-41). -/
def veclIndsForwards (r s m : ℤ) : ℤ := r + s * m - s * (s + 1) / 2 - s - 1

/-- `kronecker_indices_forward(i, j, p, q)` — indexing_utils.py 331-357. -/
def kroneckerIndicesForward (i j p q : ℕ) : (ℕ × ℕ) × (ℕ × ℕ) :=
  ((i / p, j / q), (i % p, j % q))

/-- `kronecker_indices_reverse(r, s, t, u, p, q)` — indexing_utils.py 420-448. -/
def kroneckerIndicesReverse (r s t u p q : ℕ) : ℕ × ℕ := (p * r + t, q * s + u)

/-- `commutation_matrix_indices(m, n)` — indexing_utils.py 452-484: list of (row, column). -/
def commutationMatrixIndices (m n : ℕ) : List (ℕ × ℕ) :=
  (List.range (m * n)).map fun ii => (ii, (ii % n) * m + ii / n)

/-- `duplication_matrix_indices(n)` — indexing_utils.py 486-513: list of (row, column); the
first block is the lower triangle in column order, the second block the strict part
(`~dup`). -/
def duplicationMatrixIndices (n : ℕ) : List (ℕ × ℕ) :=
  let ij := trilIndices n 0 true
  let all := ij.map fun p =>
    let (i, j) := p
    (j * n + i, i * n + j, i + j * n - j * (j + 1) / 2)
  all.map (fun t => (t.1, t.2.2)) ++
    (all.filter fun t => decide (¬ t.1 = t.2.1)).map (fun t => (t.2.1, t.2.2))

/-- `elimination_matrix_indices(n)` — indexing_utils.py 515-535. -/
def eliminationMatrixIndices (n : ℕ) : List (ℕ × ℕ) :=
  (List.range (n * (n + 1) / 2)).zip ((trilIndices n 0 true).map fun p => p.2 * n + p.1)

/-- `vech_diag_indices(p)` — indexing_utils.py 810-813. -/
def vechDiagIndices (p : ℕ) : List ℤ :=
  (List.range p).map fun (i : ℕ) => (i : ℤ) * p - (i : ℤ) * ((i : ℤ) - 1) / 2

/-- `inv_tril_indices(n, k, order)` — indexing_utils.py 87-92, as a matrix `ℕ → ℕ → ℕ`
(entries outside `n × n` are irrelevant): positions of `tril_indices` are numbered from
`indexing` and the array is added to its own transpose. -/
def invTrilArr (l : List (ℕ × ℕ)) (start : ℕ) (i j : ℕ) : ℕ :=
  if (i, j) ∈ l then start + l.idxOf (i, j) else 0

def invTrilIndices (n : ℕ) (k : ℤ) (orderF : Bool) (indexing : ℕ) (i j : ℕ) : ℕ :=
  let arr := invTrilArr (trilIndices n k orderF) indexing
  arr i j + arr j i

end Verif.Index
