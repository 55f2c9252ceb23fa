import Verif.Vec.Model
import Mathlib.Algebra.Order.Field.Basic
import Mathlib.Algebra.Order.BigOperators.Group.Finset
import Mathlib.Data.List.Sort
/-!
# Estimators of dispersion (pystatsm/pyrobust/dispersion_estimators.py)

A one-dimensional array is a list over an ordered field. The local `vech`, `invech` (lines 19-42) are those of linalg_operations.py 332-356
(`Verif.Vec.vechMaskVersion`, `invechMaskVersion`). The constants `sqrt(pi) / 2`, `PHI75`, `PHI58` are parameters `c`. An index out of
bounds, or a negative one, is `none`.
-/
namespace Verif.Robust
open Verif.Np Verif.Vec

set_option linter.unusedSectionVars false

variable {R : Type} [Field R] [LinearOrder R]

/-- `np.sort`. -/
def npSort (x : List R) : List R := x.mergeSort (fun a b => decide (a ≤ b))

/-- `np.partition(x, k)[k]`, `x[np.argsort(x)[k]]`: the order statistic with index `k`. -/
def kth (x : List R) (k : ℕ) : Option R := (npSort x)[k]?

/-- `np.median`: the mean of the two middle order statistics. -/
def npMedian (x : List R) : Option R := do
  let a ← kth x ((x.length - 1) / 2)
  let b ← kth x (x.length / 2)
  pure ((a + b) / 2)

/-- `m * c` if `corrected`. -/
def corr (corrected : Bool) (c m : R) : R := if corrected then m * c else m

/-- `np.fabs(np.subtract.outer(x, x))`. -/
def outerDiff (x : List R) : ℕ → ℕ → R := fun i j => |x.getD i 0 - x.getD j 0|

/-- `gmd` (lines 45-53). -/
def gmd (c : R) (x : List R) (corrected : Bool) : R :=
  let ab := npTril x.length (-1)
  let m := (ab.map fun p => |x.getD p.1 0 - x.getD p.2 0|).sum
  corr corrected c (m / (ab.length : R))

/-- `gmd2` (lines 57-65). -/
def gmd2 (c : R) (x : List R) (corrected : Bool) : R :=
  let n := x.length
  let m := (vechMaskVersion (outerDiff x) n).sum
  let d := ((n : R) * ((n : R) - 1)) / 2
  corr corrected c (m / d)

/-- `gmd3` (lines 69-85) for one column. -/
def gmd3 (c : R) (x : List R) (corrected : Bool) : R :=
  let n := x.length
  let m := (List.range' 1 (n - 1)).foldl (fun m i => (List.range i).foldl (fun m j => m + |x.getD i 0 - x.getD j 0|) m) 0
  let d := ((n : R) * ((n : R) - 1)) / 2
  corr corrected c (m / d)

/-- `np.median(D, axis=1)` of an `n` by `n` matrix. -/
def rowMedians (D : ℕ → ℕ → R) (n : ℕ) : Option (List R) := (List.range n).mapM fun i => npMedian ((List.range n).map (D i))

/-- `sn_estimator` (lines 89-94). -/
def snEstimator (c : R) (x : List R) (corrected : Bool) : Option R := do
  let r ← rowMedians (outerDiff x) x.length
  let m ← npMedian r
  pure (corr corrected c m)

/-- `sn_estimator2` (lines 97-104). -/
def snEstimator2 (c : R) (x : List R) (corrected : Bool) : Option R := do
  let D ← invechMaskVersion ((npTriu x.length 0).map fun p => |x.getD p.1 0 - x.getD p.2 0|)
  let r ← rowMedians D.2 D.1
  let m ← npMedian r
  pure (corr corrected c m)

/-- `k` of `qn_estimator` (lines 110-111): `h = ceil(n / 2) + 1`, `k = h (h - 1) / 2`. -/
def qnK (n : ℕ) : ℕ :=
  let h := (n + 1) / 2 + 1
  h * (h - 1) / 2

/-- The distances of distinct points (lines 108-109). -/
def pairDists (x : List R) : List R := (npTril x.length (-1)).map fun p => |x.getD p.1 0 - x.getD p.2 0|

/-- `qn_estimator` (lines 106-115). -/
def qnEstimator (c : R) (x : List R) (corrected : Bool) : Option R := (kth (pairDists x) (qnK x.length)).map (corr corrected c)

/-- `qn_estimator2` (lines 118-126). -/
def qnEstimator2 (c : R) (x : List R) (corrected : Bool) : Option R :=
  (kth (vechMaskVersion (outerDiff x) x.length) (qnK x.length)).map (corr corrected c)

/-- `_median_1d` (lines 132-141). -/
def medianLow (x : List R) : Option R := kth x ((x.length + 1) / 2 - 1)
def medianHigh (x : List R) : Option R := kth x (x.length / 2)

/-- The factors for at most nine observations (lines 178, 292). -/
def snTable : List R := [743 / 1000, 1851 / 1000, 954 / 1000, 1351 / 1000, 993 / 1000, 1198 / 1000, 1005 / 1000, 1131 / 1000]

/-- The finite sample correction (lines 171-179, 285-293); Python reads the last entry for `n = 1`. -/
def snCorr (n : ℕ) (s : R) : Bool → R
  | false => s
  | true =>
    if n > 9 then (if n % 2 = 1 then s * (n / (n - 9 / 10)) else s * 1)
    else if n = 1 then s * snTable.getD 7 0 else s * snTable.getD (n - 2) 0

/-- `sn_naive` (lines 161-180). -/
def snNaive (x : List R) (corrected : Bool) : Option (R × List R) := do
  let a2 ← x.mapM fun v => medianHigh (x.map fun w => |v - w|)
  let m ← medianLow a2
  pure (snCorr x.length (11926 / 10000 * m) corrected, a2)

/-- `x[k]`. -/
def rd (x : List R) (k : ℤ) : Option R := if 0 ≤ k then x[k.toNat]? else none

/-- The loop of `_sn_a` and `_sn_b` (lines 205-223, 241-259), which differ in `mA`, `mB` only. -/
def snLoop (mA mB : ℕ → Option R) (Amin Amax lA rA lB rB : ℕ) : Option (ℕ × ℕ) :=
  if lA < rA then
    if lA + (rA - lA + 1 - 1) / 2 < Amin then
      snLoop mA mB Amin Amax (lA + (rA - lA + 1 - 1) / 2 + (1 - (rA - lA + 1) % 2)) rA lB (lB + (rA - lA + 1 - 1) / 2)
    else if lA + (rA - lA + 1 - 1) / 2 > Amax then
      snLoop mA mB Amin Amax lA (lA + (rA - lA + 1 - 1) / 2) (lB + (rA - lA + 1 - 1) / 2 + (1 - (rA - lA + 1) % 2)) rB
    else
      match mA (lA + (rA - lA + 1 - 1) / 2), mB (lB + (rA - lA + 1 - 1) / 2) with
      | some a, some b =>
        if a ≥ b then
          snLoop mA mB Amin Amax lA (lA + (rA - lA + 1 - 1) / 2) (lB + (rA - lA + 1 - 1) / 2 + (1 - (rA - lA + 1) % 2)) rB
        else snLoop mA mB Amin Amax (lA + (rA - lA + 1 - 1) / 2 + (1 - (rA - lA + 1) % 2)) rA lB (lB + (rA - lA + 1 - 1) / 2)
      | _, _ => none
  else some (lA, lB)
termination_by rA - lA
decreasing_by all_goals omega

/-- One pass of `_sn_a`, `_sn_b` (lines 199-229, 235-265): the value stored in `a[i-1]`. -/
def snBody (mA mB : ℕ → ℕ → Option R) (nA nB : ℕ) : Option R := do
  let ndiff := nB - nA
  let Amin := ndiff / 2 + 1
  let Amax := ndiff / 2 + nA
  let l ← snLoop (mA Amin) (mB Amin) Amin Amax 1 nB 1 nB
  if l.1 > Amax then mB Amin l.2
  else do
    let a ← mA Amin l.1
    let b ← mB Amin l.2
    pure (min a b)

/-- The differences of `_sn_a` (lines 218-219, 227-228): to the left of `x[i-1]` and to the right. -/
def snA (x : List R) (i Amin t : ℕ) : Option R := do
  let u ← rd x ((i : ℤ) - 1)
  let v ← rd x ((i : ℤ) - t + Amin - 2)
  pure (u - v)
def snB (x : List R) (i _Amin t : ℕ) : Option R := do
  let u ← rd x ((t : ℤ) + i - 1)
  let v ← rd x ((i : ℤ) - 1)
  pure (u - v)

/-- The differences of `_sn_b` (lines 253-254, 263-264): to the right of `x[i-1]` and to the left. -/
def snA' (x : List R) (i Amin t : ℕ) : Option R := do
  let u ← rd x ((i : ℤ) + t - Amin)
  let v ← rd x ((i : ℤ) - 1)
  pure (u - v)
def snB' (x : List R) (i _Amin t : ℕ) : Option R := do
  let u ← rd x ((i : ℤ) - 1)
  let v ← rd x ((i : ℤ) - t - 1)
  pure (u - v)

/-- `_sn_a` (lines 197-230). -/
def snFoldA (x a : List R) (n k1 : ℕ) : Option (List R) :=
  (List.range' 2 (k1 + 1 - 2)).foldlM (fun a i => (snBody (snA x i) (snB x i) (i - 1) (n - i)).map (a.set (i - 1))) a

/-- `_sn_b` (lines 233-266). -/
def snFoldB (x a : List R) (n k1 : ℕ) : Option (List R) :=
  (List.range' (k1 + 1) (n - (k1 + 1))).foldlM (fun a i => (snBody (snA' x i) (snB' x i) (n - i) (i - 1)).map (a.set (i - 1))) a

/-- `sn` (lines 269-294). -/
def sn (x : List R) (corrected : Bool) : Option (R × List R) := do
  let x := npSort x
  let n := x.length
  let a := x.map fun _ => (0 : R)
  let k1 := (n + 1) / 2
  let u ← rd x (n / 2 : ℕ)
  let v ← rd x 0
  let a := a.set 0 (u - v)
  let a ← snFoldA x a n k1
  let a ← snFoldB x a n k1
  let u ← rd x ((n : ℤ) - 1)
  let v ← rd x ((k1 : ℤ) - 1)
  let a := a.set (n - 1) (u - v)
  let m ← kth a (k1 - 1)
  pure (snCorr n (11926 / 10000 * m) corrected, a)

/-- `mad` (lines 184-191), `axis=None`. -/
def mad (cn : R) (x : List R) : Option R := do
  let m ← npMedian x
  let r ← npMedian (x.map fun v => |v - m|)
  pure (r * cn)

end Verif.Robust
