import Verif.Index.Model
import Mathlib.Algebra.Field.Defs
import Mathlib.Algebra.BigOperators.Group.Finset.Defs
/-!
# Model of vectorisation operators and of the special matrices

`pystatsm/utilities/linalg_operations.py` (vec, vech, vecl and inverses) and
`pystatsm/utilities/special_mats.py` (`_lmat`, `_kmat`, `_dmat`, `dpmat`, apply functions).
Entries live in an arbitrary commutative ring / field `R`.
-/
namespace Verif.Vec
open Verif.Np Verif.Index

variable {R : Type*}

/-! ## vec / vech / vecl -/

/-- `vec(X)`, `_vec(X)` — linalg_operations.py 324-325, 510-514: `reshape(-1, order='F')`. -/
def vec (X : ℕ → ℕ → R) (m n : ℕ) : List R :=
  (List.range n).flatMap fun j => (List.range m).map fun i => X i j

/-- `invec(x, n_rows, n_cols)`, `_invec` — linalg_operations.py 328-329, 516-520.
`reshape` raises when the sizes disagree: `none`. -/
def invec [Zero R] (x : List R) (nRows nCols : ℕ) : Option (ℕ → ℕ → R) :=
  if x.length = nRows * nCols then some (reshapeF 0 x nRows) else none

/-- The mask `(1 - np.tri(p, p, k=-1)).flatten() == 1` — linalg_operations.py 335-337:
`np.tri(p,p,k=-1)[i,j] = 1` iff `j ≤ i - 1`. -/
def vechMask (p : ℕ) : List Bool := flattenC (fun i j => decide (¬ (j : ℤ) ≤ (i : ℤ) + (-1))) p p

/-- The mask `(1 - np.tri(p, p)).flatten() == 1` — linalg_operations.py 361-363. -/
def veclMask' (p : ℕ) : List Bool := flattenC (fun i j => decide (¬ (j : ℤ) ≤ (i : ℤ) + 0)) p p

/-- `vech(X)` (numba version) — linalg_operations.py 332-339. -/
def vechMaskVersion (X : ℕ → ℕ → R) (p : ℕ) : List R :=
  maskSelect (flattenC (transpose X) p p) (vechMask p)

/-- `vecl(X)` (numba version) — linalg_operations.py 358-365. -/
def veclMaskVersion (X : ℕ → ℕ → R) (p : ℕ) : List R :=
  maskSelect (flattenC (transpose X) p p) (veclMask' p)

/-- `_vech(x)` — linalg_operations.py 522-526. -/
def vech (X : ℕ → ℕ → R) (m : ℕ) : List R := (npTriu m 0).map fun p => X p.2 p.1

/-- `_vecl(x)` and `lower_half_vec(x)` — linalg_operations.py 545-549, 598-602. -/
def vecl (X : ℕ → ℕ → R) (m : ℕ) : List R := (npTriu m 1).map fun p => X p.2 p.1

/-- `hv_size_to_mat_size` — linalg_operations.py 590-592: `int((sqrt(8 k + 1) - 1) // 2)`. -/
def hvSizeToMatSize (k : ℕ) : ℕ := (Nat.sqrt (8 * k + 1) - 1) / 2

/-- `lhv_size_to_mat_size` — linalg_operations.py 582-584: `int((sqrt(8 k + 1) + 1) // 2)`. -/
def lhvSizeToMatSize (k : ℕ) : ℕ := (Nat.sqrt (8 * k + 1) + 1) / 2

/-- `mat_size_to_hv_size` — linalg_operations.py 594-596. -/
def matSizeToHvSize (m : ℕ) : ℕ := m * (m + 1) / 2

/-- `mat_size_to_lhv_size` — linalg_operations.py 586-588. -/
def matSizeToLhvSize (m : ℕ) : ℕ := m * (m - 1) / 2

/-- `_invech(x)` — linalg_operations.py 528-543.  Three fancy assignments; numpy raises
(`none`) when the vector does not have the triangular length. -/
def invech [Zero R] (x : List R) : Option (ℕ × (ℕ → ℕ → R)) :=
  let m := hvSizeToMatSize x.length
  let idx := npTriu m 0
  if idx.length = x.length then
    let isDiag := idx.map fun p => decide (p.1 = p.2)
    let notDiag := isDiag.map (!·)
    let diagElem := maskSelect x isDiag
    let offElem := maskSelect x notDiag
    let idxo := maskSelect idx notDiag
    let idxd := maskSelect idx isDiag
    let res : ℕ → ℕ → R := fun _ _ => 0
    let res := scatter2 res (idxo.map Prod.swap) offElem
    let res := scatter2 res idxo offElem
    let res := scatter2 res idxd diagElem
    some (m, res)
  else none

/-- `_invecl(x)` — linalg_operations.py 565-579. -/
def invecl [Zero R] [One R] (x : List R) : Option (ℕ × (ℕ → ℕ → R)) :=
  let m := lhvSizeToMatSize x.length
  let idx := npTriu m 1
  if idx.length = x.length then
    let notDiag := idx.map fun p => !decide (p.1 = p.2)
    let offElem := maskSelect x notDiag
    let idxo := maskSelect idx notDiag
    let res : ℕ → ℕ → R := fun _ _ => 0
    let res := scatter2 res (idxo.map Prod.swap) offElem
    let res := scatter2 res idxo offElem
    let res := scatter2 res ((List.range m).map fun i => (i, i)) (List.replicate m 1)
    some (m, res)
  else none

/-- `inv_lower_half_vec(y)` — linalg_operations.py 604-612: strictly lower triangular matrix. -/
def invLowerHalfVec [Zero R] (y : List R) : Option (ℕ × (ℕ → ℕ → R)) :=
  let m := lhvSizeToMatSize y.length
  let idx := npTriu m 1
  if idx.length = y.length then some (m, scatter2 (fun _ _ => 0) (idx.map Prod.swap) y) else none

/-- `invech(v)` (numba version) — linalg_operations.py 341-356.  `rows` is
`int(round(.5 * (-1 + sqrt(1 + 8 len))))`; on the triangular lengths numpy accepts, the square
root is the odd integer `2 rows + 1`, so rounding is exact and the integer square root is used
here; any other length makes the masked assignment raise (`none`). -/
def invechMaskVersion [Field R] (v : List R) : Option (ℕ × (ℕ → ℕ → R)) :=
  let rows := (Nat.sqrt (1 + 8 * v.length) - 1) / 2
  let res : ℕ → ℕ → R := fun _ _ => 0
  (maskAssign (flattenC (transpose res) rows rows) (vechMask rows) v).map fun flat =>
    let Y := reshapeC 0 flat rows
    let Y := fun i j => Y i j + Y j i
    (rows, fun i j => Y i j - ((if i = j then 1 else 0) * Y i j) / 2)

/-- `invecl(v)` (numba version) — linalg_operations.py 367-380. -/
def inveclMaskVersion [Field R] (v : List R) : Option (ℕ × (ℕ → ℕ → R)) :=
  let rows := (1 + Nat.sqrt (1 + 8 * v.length)) / 2
  let res : ℕ → ℕ → R := fun _ _ => 0
  (maskAssign (flattenC (transpose res) rows rows) (veclMask' rows) v).map fun flat =>
    let Y := reshapeC 0 flat rows
    let Y := fun i j => Y i j + Y j i
    (rows, fun i j =>
      Y i j - (if i = j then 1 else 0) * Y i j + (if i = j then 1 else 0))

/-- `invech_chol(lvec)` — linalg_operations.py 383-388: fills the lower triangle. -/
def invechChol [Zero R] (l : List R) : Option (ℕ × (ℕ → ℕ → R)) :=
  let p := (Nat.sqrt (8 * l.length + 1) - 1) / 2
  let ab := npTriu p 0
  if ab.length = l.length then some (p, scatter2 (fun _ _ => 0) (ab.map Prod.swap) l) else none

/-! ## Sparse special matrices -/

/-- `k[a : a+len(v)] = v`. -/
def sliceAssign {α : Type*} (l : List α) (a : ℕ) (v : List α) : List α :=
  l.take a ++ v ++ l.drop (a + v.length)

/-- Entry of `csc_matrix((data, (rows, cols)))`: duplicates are summed (scipy contract). -/
def cooEntry [AddCommMonoid R] (t : List (R × ℕ × ℕ)) (i j : ℕ) : R :=
  ((t.filter fun e => decide (e.2.1 = i ∧ e.2.2 = j)).map fun e => e.1).sum

/-- Dense matrix–vector product with `n` columns. -/
def matVec [NonUnitalNonAssocSemiring R] (n : ℕ) (M : ℕ → ℕ → R) (x : ℕ → R) (i : ℕ) : R :=
  ∑ j ∈ Finset.range n, M i j * x j

/-- Column indices `k` of `_kmat(p, q)` — special_mats.py 42-53: the loop writes
`template + i` (with `template = arange(q) * p`) into slice `[i*q, (i+1)*q)`. -/
def kmatCols (p q : ℕ) : List ℕ :=
  let template := (List.range q).map (· * p)
  (List.range p).foldl (fun k i => sliceAssign k (i * q) (template.map (· + i)))
    (List.replicate (p * q) 0)

/-- `kmat(p, q)` — special_mats.py 42-58, as a triplet list. -/
def kmat [One R] (p q : ℕ) : List (R × ℕ × ℕ) :=
  ((List.range (p * q)).zip (kmatCols p q)).map fun rc => (1, rc.1, rc.2)

/-- Column indices of `_lmat(n)` — special_mats.py 23-34.  State: `(k, template, a)`. -/
def lmatCols (n : ℕ) : List ℕ :=
  ((List.range n).foldl
    (fun (st : List ℕ × List ℕ × ℕ) i =>
      let (k, template, a) := st
      (sliceAssign k a template, template.dropLast.map (· + n + 1), a + n - i))
    (List.replicate (n * (n + 1) / 2) 0, List.range n, 0)).1

/-- `lmat(n)` — special_mats.py 23-40. -/
def lmat [One R] (n : ℕ) : List (R × ℕ × ℕ) :=
  ((List.range (n * (n + 1) / 2)).zip (lmatCols n)).map fun rc => (1, rc.1, rc.2)

/-- `np.cumsum` of a list of integers. -/
def cumsum : List ℤ → List ℤ
  | [] => []
  | x :: xs => x :: (cumsum xs).map (x + ·)

/-- Column indices `d - 1` of `_dmat(n)` — special_mats.py 60-76.  State: `(d, r, a)`. -/
def dmatCols (n : ℕ) : List ℤ :=
  (((List.range n).foldl
    (fun (st : List ℤ × ℕ × ℕ) i =>
      let (d, r, a) := st
      let d := sliceAssign d r
        ((cumsum ((List.range i).map fun (t : ℕ) => (n : ℤ) - t)).map
          fun c => (i : ℤ) - n + c + 1)
      let r := r + i
      let d := sliceAssign d r ((List.range' a (n - i)).map fun (t : ℕ) => (t : ℤ) + 1)
      (d, r + n - i, a + n - i))
    (List.replicate (n ^ 2) 0, 0, 0)).1).map (· - 1)

/-- `dmat(n)` — special_mats.py 60-81. -/
def dmat [One R] (n : ℕ) : List (R × ℕ × ℕ) :=
  ((List.range (n ^ 2)).zip (dmatCols n)).map fun rc => (1, rc.1, rc.2.toNat)

/-- `dpmat(n)` — special_mats.py 89-94: the data vector is halved, the entries at positions
`0, n+1, 2(n+1), ...` (step slice of `arange(0, n**2, n+1)`) are reset to one, and the matrix is
transposed. -/
def dpmat [Field R] (n : ℕ) : List (R × ℕ × ℕ) :=
  ((List.range (n ^ 2)).zip (dmatCols n)).map fun rc =>
    (if rc.1 % (n + 1) = 0 then 1 else 1 * (1 / 2), rc.2.toNat, rc.1)

/-- `apply_kmat1`, `CommutationMatrix.apply` — special_mats.py 160-165, 339-345:
`A[indices]` with `indices = (ii % n) * m + ii // n`. -/
def applyKmat1 (A : ℕ → R) (m n : ℕ) : List R :=
  (List.range (m * n)).map fun ii => A ((ii % n) * m + ii / n)

/-- `apply_lmat1`, `EliminationMatrix.apply` — special_mats.py 190-196, 356-362. -/
def applyLmat1 (A : ℕ → R) (n : ℕ) : List R :=
  (trilIndices n 0 true).map fun ij => A (ij.2 * n + ij.1)

/-- `apply_dmat1(pre_mult=True)`, `DuplicationMatrix.apply` — special_mats.py 233-252, 386-396:
`out = A[rl] + A[cl]`, then entries with `il == jl` are halved. -/
def applyDmat1 [Field R] (A : ℕ → R) (n : ℕ) : List R :=
  (trilIndices n 0 true).map fun ij =>
    let out := A (ij.2 * n + ij.1) + A (ij.1 * n + ij.2)
    if ij.1 = ij.2 then out / 2 else out

/-- `DpMatrix.apply(pre_mult=True)` — special_mats.py 449-457: `(A[rl] + A[cl]) / 2`. -/
def applyDp [Field R] (A : ℕ → R) (n : ℕ) : List R :=
  (trilIndices n 0 true).map fun ij => (A (ij.2 * n + ij.1) + A (ij.1 * n + ij.2)) / 2

end Verif.Vec
