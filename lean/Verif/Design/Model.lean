import Mathlib.Data.Prod.Lex
import Mathlib.Data.List.Sort
import Mathlib.Data.List.Dedup
import Mathlib.Data.Int.Order.Basic
import Mathlib.Algebra.BigOperators.Intervals
import Mathlib.Data.Real.Basic
import Mathlib.Data.Matrix.Mul
import Mathlib.LinearAlgebra.Matrix.NonsingularInverse
/-!
# Model of `pystatsm/utilities/complexdesign/`

A row of the data frame is `(stratum, psu, payload)`; the group key of a row is the pair
`(stratum, psu)` ordered lexicographically (`sort_values([strata, psuind])`).
-/
namespace Verif.Design

/-- Group key. -/
abbrev Key := ℤ ×ₗ ℤ

/-- Stratum of a key. -/
def strOf (k : Key) : ℤ := (ofLex k).1

/-- Sorted distinct values: the index of a pandas `groupby(...).size()`. -/
def groups {κ : Type*} [LinearOrder κ] (l : List κ) : List κ := l.dedup.insertionSort (· ≤ ·)

/-- Group sizes, in the order of `groups`: the values of `groupby(...).size()`. -/
def sizes {κ : Type*} [LinearOrder κ] (l : List κ) : List ℕ := (groups l).map fun k => l.count k

/-- `_sizes_to_ptr(sizes)` — sample_design.py 30-33: entry `k` is the sum of the first `k` sizes. -/
def sizesToPtr (sizes : List ℕ) (k : ℕ) : ℕ := (sizes.take k).sum

/-- `IndexLayout` — sample_design.py 20-27. -/
structure Layout where
  nStr : ℕ
  nGrp : ℕ
  indStr : ℕ → ℕ
  indPsu : ℕ → ℕ
  nPsuPerStr : ℕ → ℕ
  ssf : ℕ → ℝ

/-- PSU counts per stratum, in stratum order — `sizes.groupby(strata).size()`. -/
def psuPerStr (keys : List Key) : List ℕ :=
  sizes ((groups keys).map strOf)

/-- Rows per PSU, in key order — `df.groupby([strata, psuind]).size()`. -/
def obsPerPsu (keys : List Key) : List ℕ := sizes keys

/-- `_build_layout(df, strata, psuind, fpc)` — sample_design.py 76-98.  `fpc` is the array of
sampling fractions in stratum order (`None` is the zero function); the shape check is not
modelled. -/
noncomputable def buildLayout (keys : List Key) (fpc : ℕ → ℝ) : Layout where
  nStr := (psuPerStr keys).length
  nGrp := (obsPerPsu keys).length
  indStr := sizesToPtr (psuPerStr keys)
  indPsu := sizesToPtr (obsPerPsu keys)
  nPsuPerStr := fun h => (psuPerStr keys).getD h 0
  ssf := fun h =>
    let n := (psuPerStr keys).getD h 0
    if 1 < n then (1 - fpc h) * n / ((n : ℝ) - 1) else 0

/-- One pass of the stratum loop of `_grouped_cov` — 13-16.  `block` is a view, so `psu_sum`
itself is centred in place.  State `(psu_sum, out)`. -/
noncomputable def covStep (L : Layout) (st : (ℕ → ℕ → ℝ) × (ℕ → ℕ → ℝ)) (h : ℕ) :
    (ℕ → ℕ → ℝ) × (ℕ → ℕ → ℝ) :=
  let lo := L.indStr h
  let hi := L.indStr (h + 1)
  let P : ℕ → ℕ → ℝ := fun k c =>
    if lo ≤ k ∧ k < hi then
      st.1 k c - (∑ k' ∈ Finset.Ico lo hi, st.1 k' c) / L.nPsuPerStr h
    else st.1 k c
  (P, fun a b => st.2 a b + (∑ k ∈ Finset.Ico lo hi, P k a * P k b) * L.ssf h)

/-- `_grouped_cov(X, ...)` — sample_design.py 7-17. -/
noncomputable def groupedCov (U : ℕ → ℕ → ℝ) (L : Layout) : ℕ → ℕ → ℝ :=
  let psuSum : ℕ → ℕ → ℝ := fun k c => ∑ r ∈ Finset.Ico (L.indPsu k) (L.indPsu (k + 1)), U r c
  ((List.range L.nStr).foldl (covStep L) (psuSum, fun _ _ => 0)).2

/-- `SampleDesign.meat(U)` — 138-144: `keys` are the keys of the rows of the sorted frame. -/
noncomputable def meat (keys : List Key) (fpc : ℕ → ℝ) (U : ℕ → ℕ → ℝ) : ℕ → ℕ → ℝ :=
  groupedCov U (buildLayout keys fpc)

/-! ## Singleton strata -/

/-- Number of distinct PSUs of a stratum. -/
def nPsu {υ : Type*} (rows : List (ℤ × ℤ × υ)) (s : ℤ) : ℕ :=
  (((rows.filter fun r => r.1 = s).map fun r => r.2.1).dedup).length

/-- The strata with exactly one PSU, in index order — sample_design.py 59-61. -/
def singletons {υ : Type*} (rows : List (ℤ × ℤ × υ)) : List ℤ :=
  (groups (rows.map fun r => r.1)).filter fun s => nPsu rows s = 1

/-- `_has_singletons(df, strata, psuind)` — 47-49. -/
def hasSingletons {υ : Type*} (rows : List (ℤ × ℤ × υ)) : Bool :=
  (groups (rows.map fun r => r.1)).any fun s => nPsu rows s = 1

/-- `df[strata].max()`. -/
def maxStr {υ : Type*} (rows : List (ℤ × ℤ × υ)) : ℤ :=
  ((rows.map fun r => r.1).max?).getD 0

/-- `_aggregate_singletons(df, strata, psuind)` — 52-73 (row order is kept). -/
def aggregateSingletons {υ : Type*} (rows : List (ℤ × ℤ × υ)) : List (ℤ × ℤ × υ) :=
  let sing := singletons rows
  if sing.length = 0 then rows
  else
    let newStratum := maxStr rows + 1
    rows.map fun r =>
      if r.1 ∈ sing then (newStratum, (sing.idxOf r.1 : ℤ), r.2.2) else r

/-! ## Weighted least squares and the sandwich -/

section wls
variable {n p : Type*} [Fintype n] [Fintype p] [DecidableEq p]

/-- `WLSAdapter.fit` — replication.py 23-34: `bread`. -/
noncomputable def wlsBread (X : Matrix n p ℝ) (w : n → ℝ) : Matrix p p ℝ :=
  (X.transpose * Matrix.of fun i j => X i j * w i)⁻¹

/-- `beta`. -/
noncomputable def wlsBeta (X : Matrix n p ℝ) (w y : n → ℝ) : p → ℝ :=
  (wlsBread X w).mulVec (((Matrix.of fun i j => X i j * w i).transpose).mulVec y)

/-- `score_i = WX * (y - X beta)[:, None]`. -/
noncomputable def wlsScore (X : Matrix n p ℝ) (w y : n → ℝ) : Matrix n p ℝ :=
  Matrix.of fun i j => X i j * w i * (y i - X.mulVec (wlsBeta X w y) i)

/-- `design_sandwich(A, U, design)` — sample_design.py 164-168, given the meat. -/
def sandwich (A M : Matrix p p ℝ) : Matrix p p ℝ := A * (M * A)

end wls

end Verif.Design
