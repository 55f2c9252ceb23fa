import Mathlib.Algebra.Field.Basic
import Mathlib.Data.List.Sort
import Mathlib.Data.List.Dedup
import Mathlib.Algebra.BigOperators.Group.Finset.Basic
import Mathlib.Data.Real.Sqrt
import Verif.Func.Model
/-!
# Model of `pystatsm/utilities/data_utils.py`
-/
namespace Verif.Data

/-! ## Welford updates -/

section welford
variable {α : Type*} [Field α]

/-- `_welford_update(x, n, mean, sumsq)` — data_utils.py 327-334 (one coordinate; the array
operations are elementwise). -/
def welfordUpdate (x : α) (st : ℕ × α × α) : ℕ × α × α :=
  let n := st.1 + 1
  let d1 := x - st.2.1
  let mean := st.2.1 + d1 / (n : α)
  let d2 := x - mean
  (n, mean, st.2.2 + d1 * d2)

/-- `_welford_variance(arr, n, mean, sumsq)` with `n = len(arr)` — 337-342: the counter `i` is
the index of the next row, so the rows are consumed in order. -/
def welfordVarianceLoop (arr : List α) : α × α :=
  (arr.foldl (fun st x => welfordUpdate x st) (0, 0, 0)).2

/-- `welford_variance(arr, axis=0, unbiased)` — 345-355, one coordinate. -/
def welfordVariance (arr : List α) (unbiased : Bool) : α × α :=
  let r := welfordVarianceLoop arr
  (r.1, r.2 / ((arr.length : α) - (if unbiased then 1 else 0)))

/-- `_welford_cov_cross(X, Y, ...)` — 358-366: one column of `X` against one of `Y`; state
`(i, x_mean, y_mean, xy_prod)`. -/
def welfordCovCross (xy : List (α × α)) : α × α × α :=
  (xy.foldl (fun (st : ℕ × α × α × α) p =>
    let i1 : α := ((st.1 + 1 : ℕ) : α)
    let dx := p.1 - st.2.1
    let xm := st.2.1 + dx / i1
    let ym := st.2.2.1 + (p.2 - st.2.2.1) / i1
    let dy := p.2 - ym
    (st.1 + 1, xm, ym, st.2.2.2 + dx * dy)) (0, 0, 0, 0)).2

/-- `_welford_cov(X, ...)` — 370-376: a pair of columns of `X`; state
`(i, mean_a, mean_b, prod_ab)`. -/
def welfordCov (xy : List (α × α)) : α × α × α :=
  (xy.foldl (fun (st : ℕ × α × α × α) p =>
    let i1 : α := ((st.1 + 1 : ℕ) : α)
    let da := p.1 - st.2.1
    let db := p.2 - st.2.2.1
    (st.1 + 1, st.2.1 + da / i1, st.2.2.1 + db / i1,
      st.2.2.2 + da * db * (st.1 : α) / i1)) (0, 0, 0, 0)).2

/-- `welford_cov(arr1, arr2)` — 379-391 — mean vector, arrays given by their columns' Welford
means: `np.r_[mean2, mean1]`. -/
def welfordCovMean (mean1 mean2 : List α) : List α := mean2 ++ mean1

/-- Index permutation of `np.swapaxes(arr, 0, axis)`: entry `idx` of the swapped array is entry
`swapIdx idx axis` of the original. -/
def swapIdx (idx : List ℕ) (axis : ℕ) : List ℕ :=
  (idx.set 0 (idx.getD axis 0)).set axis (idx.getD 0 0)

/-- The stream seen by `welford_variance(arr, axis)` at output position `t` (345-355): entries
`swapaxes(arr, 0, axis)[(i, *t)]`, `i = 0, .., n-1`. -/
def axisStream (arr : List ℕ → α) (axis n : ℕ) (t : List ℕ) : List α :=
  (List.range n).map fun i => arr (swapIdx (i :: t) axis)

end welford

/-! ## Dummy coding -/

/-- `np.unique(x)`: sorted distinct values. -/
def levels (l : List ℕ) : List ℕ := l.dedup.insertionSort (· ≤ ·)

/-- `_dummy(x, fullrank, categories)` — data_utils.py 228-239: entry `(r, c)` of the result and
its number of columns. -/
def dummyCols (fullrank : Bool) (categories : List ℕ) : ℕ :=
  if fullrank then categories.length else categories.length - 1

def dummyEntry (fullrank : Bool) (x categories : List ℕ) (r c : ℕ) : ℕ :=
  if c < dummyCols fullrank categories ∧ r < x.length ∧ x[r]? = categories[c]? then 1 else 0

/-- `_dummy_encode(x, categories)` — 246-257: row and column indices, category by category. -/
def dummyEncodeIdx (x categories : List ℕ) : List (ℕ × ℕ) :=
  categories.zipIdx.flatMap fun ci =>
    ((List.range x.length).filter fun r => x[r]? = some ci.1).map fun r => (r, ci.2)

/-- `dummy_encode(x, categories)` — 260-266: the csc matrix built from the triplets with `n_rows`
ones; `none` when the index and data lengths differ (scipy's `ValueError`). Duplicate positions
would be summed. -/
def dummyEncode (x categories : List ℕ) : Option (ℕ → ℕ → ℕ) :=
  let idx := dummyEncodeIdx x categories
  if idx.length = x.length then some fun r c => idx.count (r, c) else none

/-! ## Sign changes -/

/-- `np.sign(x - b)` as an integer. -/
def sgn (x b : ℤ) : ℤ := Int.sign (x - b)

/-- Loop of `_sign_change_1d` from position `i` on the remaining elements: the value of the loop
variable when the loop ends. -/
def signLoop (s b : ℤ) : (i : ℕ) → List ℤ → ℕ
  | i, [] => i - 1
  | i, x :: xs => if sgn x b ≠ s then i else signLoop s b (i + 1) xs

/-- `_sign_change_1d(arr, b)` — data_utils.py 268-275.  `none`: empty array, or a single element
(the loop variable is never bound). -/
def signChange (arr : List ℤ) (b : ℤ) : Option ℕ :=
  match arr with
  | [] => none
  | [_] => none
  | x :: xs => some (signLoop (sgn x b) b 1 xs - 1)

/-- Loop of `_kth_sign_change_1d`: `j` is the counter. -/
def kthLoop (s b : ℤ) (k : ℕ) : (j i : ℕ) → List ℤ → ℕ
  | _, i, [] => i - 1
  | j, i, x :: xs =>
    let j := if sgn x b ≠ s then j + 1 else j
    if j = k then i else kthLoop s b k j (i + 1) xs

/-- `_kth_sign_change_1d(arr, b, k)` — data_utils.py 286-296. -/
def kthSignChange (arr : List ℤ) (b : ℤ) (k : ℕ) : Option ℕ :=
  match arr with
  | [] => none
  | [_] => none
  | x :: xs => some (kthLoop (sgn x b) b k 0 1 xs - 1)

/-! ## Cross tabulation -/

/-- `np.ndindex(shape)`: all index tuples in C order. -/
def ndindex : List ℕ → List (List ℕ)
  | [] => [[]]
  | s :: shape => (List.range s).flatMap fun i => (ndindex shape).map (i :: ·)

/-- `expand_crosstab(table)` — data_utils.py 412-431: each index tuple repeated as often as its
count, in C order. -/
def expandCrosstab (shape : List ℕ) (table : List ℕ → ℕ) : List (List ℕ) :=
  (ndindex shape).flatMap fun ii => List.replicate (table ii) ii

/-- Column `d` of a list of rows. -/
def column (rows : List (List ℕ)) (d : ℕ) : List ℕ := rows.map fun r => r.getD d 0

/-- Levels of each of the `dims` columns. -/
def tabLevels (dims : ℕ) (rows : List (List ℕ)) : List (List ℕ) :=
  (List.range dims).map fun d => levels (column rows d)

/-- `return_inverse` of `np.unique`: the level number of an entry in each column. -/
def levelIndex (lev : List (List ℕ)) (r : List ℕ) : List ℕ :=
  List.zipWith (fun l v => l.idxOf v) lev r

/-- `cross_tabulate(arr)` — data_utils.py 394-399: shape, counts and levels; `np.add.at` adds one
per row at its tuple of level numbers. -/
def crossTabulate (dims : ℕ) (rows : List (List ℕ)) : List ℕ × (List ℕ → ℕ) × List (List ℕ) :=
  let lev := tabLevels dims rows
  (lev.map List.length, fun idx => (rows.map (levelIndex lev)).count idx, lev)

/-! ## extremal_indices -/

/-- Contract of `np.argpartition(arr, kth)` on a 1-d array: a permutation of the positions such
that everything before position `kth` is no larger, everything after no smaller. -/
def IsArgpartition {α : Type*} [LE α] (a : ℕ → α) (n kth : ℕ) (p : List ℕ) : Prop :=
  p.Perm (List.range n) ∧ ∀ i ∈ p.take kth, ∀ j ∈ p.drop kth, a i ≤ a j

/-- `extremal_indices(arr, n, largest)` on a 1-d array of length `len` — data_utils.py 434-438;
`p` is the result of the `argpartition` call.  `[-n:]` with `n = 0` is the whole array. -/
def extremalIndices (p : List ℕ) (n : ℕ) (largest : Bool) : List ℕ :=
  if largest then (if n = 0 then p else p.drop (p.length - n)) else p.take n

/-! ## Centring, scaling, correlation (real arrays `X i j`, `n` rows) -/

noncomputable section
variable (n : ℕ) (X Y : ℕ → ℕ → ℝ)

/-- `np.mean(X, axis=0)`, `_col_mean` — data_utils.py 15-34. -/
def colMean (j : ℕ) : ℝ := (∑ i ∈ Finset.range n, X i j) / n

/-- `np.std(X, axis=0)`, `_col_std` — 36-42 (population standard deviation). -/
def colStd (j : ℕ) : ℝ :=
  Real.sqrt ((∑ i ∈ Finset.range n, (X i j - colMean n X j) ^ 2) / n)

/-- `center(X)` — 44-47. -/
def center : ℕ → ℕ → ℝ := fun i j => X i j - colMean n X j

/-- `standardize(X)` — 49-52. -/
def standardize : ℕ → ℕ → ℝ := fun i j => X i j / colStd n X j

/-- `csd(X)` — 54-56: `center(standardize(X))`. -/
def csd : ℕ → ℕ → ℝ := center n (standardize n X)

/-- `cov_nb(X)` — 58-63. -/
def covNb (a b : ℕ) : ℝ := (∑ i ∈ Finset.range n, center n X i a * center n X i b) / n

/-- `corr_nb(X)` — 65-70. -/
def corrNb (a b : ℕ) : ℝ := (∑ i ∈ Finset.range n, csd n X i a * csd n X i b) / n

/-- `_csd(arr)` — 72-81. -/
def csd' : ℕ → ℕ → ℝ := fun i j =>
  (X i j - colMean n X j) /
    Real.sqrt ((∑ i ∈ Finset.range n, (X i j - colMean n X j) * (X i j - colMean n X j)) / n)

/-- `cov(X, Y)` — 83-90. -/
def cov (a b : ℕ) : ℝ := (∑ i ∈ Finset.range n, center n X i a * center n Y i b) / n

/-- `corr(X, Y)` — 92-101: centred first, then divided by the standard deviation of the centred
columns. -/
def corr (a b : ℕ) : ℝ :=
  (∑ i ∈ Finset.range n, standardize n (center n X) i a * standardize n (center n Y) i b) / n

/-- `normalize_xtrx(X, R)` — 103-118 (`R` is n by n). -/
def normalizeXtrx (R : ℕ → ℕ → ℝ) : ℕ → ℕ → ℝ := fun i j =>
  X i j / Real.sqrt (∑ i ∈ Finset.range n, ∑ k ∈ Finset.range n, X i j * R i k * X k j)

/-- `scale_diag(A, s)`, `_scale_diag` — 129-139: `s.T * A * s` with `s` a column. -/
def scaleDiag (A : ℕ → ℕ → ℝ) (s : ℕ → ℝ) : ℕ → ℕ → ℝ := fun i j => s j * A i j * s i

/-- `norm_diag(A)` — 147-150. -/
def normDiag (A : ℕ → ℕ → ℝ) : ℕ → ℕ → ℝ :=
  scaleDiag A fun i => Real.sqrt (1 / A i i)

/-- `flip_signs(V)` — 153-157; `j c` is `np.argmax(np.abs(V), axis=0)` in column `c`. -/
def flipSigns (V : ℕ → ℕ → ℝ) (j : ℕ → ℕ) : ℕ → ℕ → ℝ := fun i c =>
  V i c * Verif.Func.npSign (V (j c) c)

end

end Verif.Data
