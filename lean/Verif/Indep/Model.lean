import Verif.Robust.Disp
import Mathlib.Analysis.SpecialFunctions.Exp
import Mathlib.Analysis.SpecialFunctions.Sqrt
import Mathlib.Data.Fintype.Perm
import Mathlib.Data.Matrix.Basic

/-!
# `pystatsm/misc/independence_tests.py`

Distance correlation and the kernel independence criterion.

A sample is a function `Fin n → Fin m → ℝ`, one row per observation; both samples have the same number of rows
(otherwise numpy refuses to multiply the centred matrices).  One dimensional samples are reshaped to `m = 1`.
Floating point numbers are read as reals.  A division by zero, which is a `ZeroDivisionError` for the scalars of compiled
functions and `nan` for arrays, is `none`.  Random permutations are an argument.
-/

namespace Verif.Indep

open Verif.Robust

variable {n m k : ℕ}

abbrev Sq (n : ℕ) := Matrix (Fin n) (Fin n) ℝ

/-- `_row_sum` of `utilities/data_utils.py` (lines 24-29). -/
def rowSum (A : Matrix (Fin n) (Fin m) ℝ) (i : Fin n) : ℝ := ∑ j, A i j

/-- `_col_sum` of `utilities/data_utils.py` (lines 16-21). -/
def colSum (A : Matrix (Fin n) (Fin m) ℝ) (j : Fin m) : ℝ := ∑ i, A i j

/-- `_u_center_biased` (lines 12-23). -/
noncomputable def centerBiased (A : Matrix (Fin n) (Fin m) ℝ) : Option (Matrix (Fin n) (Fin m) ℝ) :=
  let tden := n * m
  if tden = 0 then none
  else some fun i j => A i j - rowSum A i / m - colSum A j / n + (∑ l, colSum A l) / (tden : ℕ)

/-- `_u_center_unbiased` (lines 27-37), for the square matrices it is used for; the denominators are Python integers. -/
noncomputable def centerUnbiased (A : Sq n) : Option (Sq n) :=
  let rden : ℤ := n - 2
  let cden : ℤ := n - 2
  let tden : ℤ := (n - 1) * (n - 2)
  if tden = 0 then none
  else some fun i j => if i = j then 0 else A i j - rowSum A i / rden - colSum A j / cden + (∑ l, colSum A l) / tden

/-- `A[i, j] = v`. -/
def setCell (A : Sq n) (i j : Fin n) (v : ℝ) : Sq n := fun a b => if a = i ∧ b = j then v else A a b

/-- `for i in range(n): for j in range(i): A[i, j] = A[j, i] = f(i, j)` from `np.zeros((n, n))`. -/
def fillLower (f : Fin n → Fin n → ℝ) : Sq n :=
  (List.finRange n).foldl (fun A i => ((List.finRange n).filter (· < i)).foldl
    (fun A j => setCell (setCell A i j (f i j)) j i (f i j)) A) 0

/-- `((X[i] - X[j])**2).sum()`. -/
def sqDiff (X : Fin n → Fin m → ℝ) (i j : Fin n) : ℝ := ∑ k, (X i k - X j k) ^ 2

/-- `euclidean_distance` (lines 40-46). -/
noncomputable def euclid (X : Fin n → Fin m → ℝ) : Sq n := fillLower fun i j => Real.sqrt (sqDiff X i j)

/-- `np.mean(A * B)`. -/
noncomputable def meanMul (A B : Sq n) : ℝ := (∑ i, ∑ j, A i j * B i j) / (n * n)

/-- The branch of `_dcorr` (lines 54-59). -/
noncomputable def center (unbiased : Bool) (A : Sq n) : Option (Sq n) := if unbiased then centerUnbiased A else centerBiased A

/-- `_dcorr` and `dcorr` (lines 50-73). -/
noncomputable def dcorr (X : Fin n → Fin m → ℝ) (Y : Fin n → Fin k → ℝ) (unbiased : Bool) : Option ℝ := do
  let Ax ← center unbiased (euclid X)
  let Ay ← center unbiased (euclid Y)
  let Vxx := meanMul Ax Ax
  let Vyy := meanMul Ay Ay
  let Sxy := meanMul Ax Ay
  if Real.sqrt (Vxx * Vyy) = 0 then none else some (Sxy / Real.sqrt (Vxx * Vyy))

/-- The correlations of the permuted samples (lines 80-81, 91-93). -/
noncomputable def permuted (X : Fin n → Fin m → ℝ) (Y : Fin n → Fin k → ℝ) (unbiased : Bool) (σs : List (Equiv.Perm (Fin n))) :
    Option (List ℝ) := σs.mapM fun σ => dcorr X (fun i => Y (σ i)) unbiased

open Classical in
/-- `_dcorr_permutation_test` (lines 76-84), which is `dcorr_permutation_test` without samples (line 105). -/
noncomputable def permTest (X : Fin n → Fin m → ℝ) (Y : Fin n → Fin k → ℝ) (unbiased : Bool) (σs : List (Equiv.Perm (Fin n))) :
    Option (ℝ × ℝ) := do
  let r ← dcorr X Y unbiased
  let rp ← permuted X Y unbiased σs
  let c := rp.countP fun v => |v| > |r|
  some (r, (c : ℝ) / n)

open Classical in
/-- `dcorr_permutation_test` with samples (lines 101-103); the mean of no samples is `nan`. -/
noncomputable def permTestSamples (X : Fin n → Fin m → ℝ) (Y : Fin n → Fin k → ℝ) (unbiased : Bool)
    (σs : List (Equiv.Perm (Fin n))) : Option (ℝ × List ℝ × ℝ) := do
  let r ← dcorr X Y unbiased
  let rp ← permuted X Y unbiased σs
  if rp = [] then none else some (r, rp, ((rp.countP fun v => |r| < |v|) : ℝ) / rp.length)

/-- `_gauss_kernel` (lines 110-119). -/
noncomputable def gaussKernel (X : Fin n → Fin m → ℝ) (bw : ℝ) : Option (Sq n) :=
  let v := 2 * bw ^ 2
  if v = 0 then none else some fun i j => Real.exp (-(fillLower (sqDiff X) i j) / v)

/-- The values written by the loop of `_median_bandwith` (lines 126-130), in order. -/
def pairSq (X : Fin n → Fin m → ℝ) : List ℝ :=
  (List.finRange n).flatMap fun i => ((List.finRange n).filter (· < i)).map fun j => sqDiff X i j

/-- `w` of `_median_bandwith` (lines 124-130): an array of `q` zeros of which the first entries are overwritten; writing
beyond the end is an error. -/
def medianBuf (X : Fin n → Fin m → ℝ) : Option (List ℝ) :=
  let q := n * (n + 1) / 2 - n
  if (pairSq X).length ≤ q then some (pairSq X ++ List.replicate (q - (pairSq X).length) 0) else none

/-- `_median_bandwith` (lines 122-132). -/
noncomputable def medianBw (X : Fin n → Fin m → ℝ) : Option ℝ := do
  let w ← medianBuf X
  let v ← npMedian w
  some (Real.sqrt (v * (1 / 2)))

/-- `_dhsic` (lines 136-144). -/
noncomputable def dhsicStat (X : Fin n → Fin m → ℝ) (Y : Fin n → Fin k → ℝ) (bwx bwy : ℝ) : Option ℝ := do
  let Kx ← gaussKernel X bwx
  let Ky ← gaussKernel Y bwy
  if n = 0 then none
  else
    let a := ∑ i, ∑ j, Kx i j * Ky i j
    let b := 1 / (n : ℝ) ^ 4 * (∑ i, ∑ j, Kx i j) * ∑ i, ∑ j, Ky i j
    let c := ∑ j, 2 / (n : ℝ) ^ 3 * colSum Kx j * colSum Ky j
    some (1 / (n : ℝ) ^ 2 * a + b - c)

/-- The argument `bw`. -/
inductive Bw where
  | median
  | nvars
  | list (l : List ℝ)
  | other

/-- The bandwidths chosen by `dhsic` (lines 151-158); any other argument leaves them unassigned. -/
noncomputable def bandwidths (X : Fin n → Fin m → ℝ) (Y : Fin n → Fin k → ℝ) : Bw → Option (ℝ × ℝ)
  | .median => do
    let bx ← medianBw X
    let byy ← medianBw Y
    some (bx, byy)
  | .nvars => if n = 0 then none else some (Real.sqrt (1 / n / 2), Real.sqrt (1 / n / 2))
  | .list [a, b] => some (a, b)
  | .list _ => none
  | .other => none

/-- `dhsic` (lines 146-161). -/
noncomputable def dhsic (X : Fin n → Fin m → ℝ) (Y : Fin n → Fin k → ℝ) (bw : Bw) : Option (ℝ × ℝ × ℝ) := do
  let b ← bandwidths X Y bw
  let s ← dhsicStat X Y b.1 b.2
  some (s, b.1, b.2)

open Classical in
/-- `dhsic_test` (lines 165-178): the statistic, the samples and the p-value. -/
noncomputable def dhsicTest (X : Fin n → Fin m → ℝ) (Y : Fin n → Fin k → ℝ) (bw : Bw) (σs : List (Equiv.Perm (Fin n))) :
    Option (ℝ × List ℝ × ℝ) := do
  let r ← dhsic X Y bw
  let s ← σs.mapM fun σ => dhsicStat X (fun i => Y (σ i)) r.2.1 r.2.2
  if s = [] then none else some (r.1, s, ((s.countP fun v => |v| > |r.1|) : ℝ) / s.length)

end Verif.Indep
