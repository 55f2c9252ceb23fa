import Verif.Vec.Model
import Mathlib.Analysis.SpecialFunctions.Pow.Real
/-!
# Model of the row-normalising transform — cov_transform.py 141-217 (and the identical `LHV` in
linalg_operations.py 643-720)

Arrays are functions of the index.  The row index lists are built as in `__init__`; `np.argsort`
(an unstable sort, so ties come in any order) is a parameter `srt`.
-/
namespace Verif.Transf
open Verif.Np Verif.Vec Real

/-- `row_inds` of `lhv_indices((n, n))`: `lower_half_vec` of `np.indices`. -/
def rowInds (n : ℕ) : List ℕ := vecl (fun i _ => i) n

/-- `np.cumsum(np.arange(n))` entry `i`. -/
def cumArange (i : ℕ) : ℕ := ((List.range (i + 1))).sum

/-- `lhv_ind_parts(n)` — linalg_operations.py 623-625. -/
def lhvIndParts (n : ℕ) : List (ℕ × ℕ) :=
  (List.range (n - 1)).map fun i => (cumArange i, cumArange (i + 1))

/-- `row_norm_inds` (147-149). -/
def rowNormInds (srt : List ℕ → List ℕ) (n : ℕ) : List (List ℕ) :=
  let rowSort := srt (rowInds n)
  (lhvIndParts n).map fun ab => (rowSort.drop ab.1).take (ab.2 - ab.1)

/-- A loop `for ii in row_norm_inds: res[ii] = v(ii)`. -/
def blockLoop {α : Type*} (rows : List (List ℕ)) (v : List ℕ → ℕ → α) (a : ℕ → α) : ℕ → α :=
  rows.foldl (fun a ii => fun p => if p ∈ ii then v ii p else a p) a

/-- `np.sum(x[ii]**2)`. -/
def sumSq (x : ℕ → ℝ) (ii : List ℕ) : ℝ := (ii.map fun q => x q ^ 2).sum

/-- `_fwd` (151-156). -/
noncomputable def rnFwd (rows : List (List ℕ)) (x : ℕ → ℝ) : ℕ → ℝ :=
  let rowNorms := blockLoop rows (fun ii _ => sqrt (sumSq x ii + 1)) (fun _ => 0)
  fun p => x p / rowNorms p

/-- `_rvs` (158-163). -/
noncomputable def rnRvs (rows : List (List ℕ)) (y : ℕ → ℝ) : ℕ → ℝ :=
  let diag := blockLoop rows (fun ii _ => sqrt (1 - sumSq y ii)) (fun _ => 0)
  fun p => y p / diag p

/-- A loop `for ii in row_norm_inds: res[ii, ii[:, None]] = V(ii)`; entry `(a, b)` of `V` lands in
cell `(ii[b], ii[a])`. -/
def blockLoop2 (rows : List (List ℕ)) (v : List ℕ → ℕ → ℕ → ℝ) : ℕ → ℕ → ℝ :=
  rows.foldl (fun a ii => fun p q => if p ∈ ii ∧ q ∈ ii then v ii q p else a p q) fun _ _ => 0

/-- `_jac_fwd` (165-173). -/
noncomputable def rnJacFwd (rows : List (List ℕ)) (x : ℕ → ℝ) : ℕ → ℕ → ℝ :=
  blockLoop2 rows fun ii a b =>
    let s := sqrt (sumSq x ii + 1)
    let v1 := 1 / s * (if a = b then 1 else 0)
    let v2 := 1 / s ^ 3 * x a * x b
    v1 - v2

/-- `_jac_rvs` (192-200). -/
noncomputable def rnJacRvs (rows : List (List ℕ)) (y : ℕ → ℝ) : ℕ → ℕ → ℝ :=
  blockLoop2 rows fun ii a b =>
    let s := sqrt (1 - sumSq y ii)
    let v1 := 1 / s * (if a = b then 1 else 0)
    let v2 := 1 / s ^ 3 * y a * y b
    v1 + v2

/-- The triple loops over one row. -/
def blockLoop3 (rows : List (List ℕ)) (v : List ℕ → ℕ → ℕ → ℕ → ℝ) : ℕ → ℕ → ℕ → ℝ :=
  rows.foldl (fun a ii => fun i j k => if i ∈ ii ∧ j ∈ ii ∧ k ∈ ii then v ii i j k else a i j k)
    fun _ _ _ => 0

/-- `1.0*(j==k)`. -/
def ind (j k : ℕ) : ℝ := if j = k then 1 else 0

/-- `_hess_fwd` (175-190). -/
noncomputable def rnHessFwd (rows : List (List ℕ)) (x : ℕ → ℝ) : ℕ → ℕ → ℕ → ℝ :=
  blockLoop3 rows fun ii i j k =>
    let s := sqrt (1 + sumSq x ii)
    let s3 := s ^ 3
    let s5 := s ^ 5
    let t1 := -1 * ind j k / s3 * x i
    let t2 := -1 * ind j i / s3 * x k
    let t3 := -1 * ind k i / s3 * x j
    let t4 := 3 / s5 * x j * x k * x i
    t1 + t2 + t3 + t4

/-- `_hess_rvs` (202-217). -/
noncomputable def rnHessRvs (rows : List (List ℕ)) (y : ℕ → ℝ) : ℕ → ℕ → ℕ → ℝ :=
  blockLoop3 rows fun ii i j k =>
    let s := sqrt (1 - sumSq y ii)
    let s3 := s ^ 3
    let s5 := s ^ 5
    let t1 := 1 * ind j k / s3 * y i
    let t2 := 1 * ind j i / s3 * y k
    let t3 := 1 * ind k i / s3 * y j
    let t4 := 3 / s5 * y i * y j * y k
    t1 + t2 + t3 + t4

end Verif.Transf
