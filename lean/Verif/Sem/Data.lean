import Mathlib.Data.Real.Basic
import Mathlib.Data.List.Sort
import Mathlib.Data.Finset.Sort
import Mathlib.Algebra.BigOperators.Group.Finset.Basic
/-!
# Model of `ModelData` — pysem/model_data.py and pysem2/model_data.py

The two classes have the same code but for `subset_and_order`, where only the newer also cuts the data down.
Data: `X i j` is the value of variable `j` in row `i`, `none` if missing.
-/
namespace Verif.Sem

/-! ## Groups -/

section
variable {α : Type} [LinearOrder α]

/-- `np.unique(group_vec)` — model_data.py 75. -/
def mdIds (n : ℕ) (grp : ℕ → α) : List α := ((List.range n).map grp).dedup.insertionSort (· ≤ ·)

/-- `group_vec.replace(remap)` — model_data.py 76-77: the number of the group of a row. -/
def mdNum (n : ℕ) (grp : ℕ → α) (r : ℕ) : ℕ := (mdIds n grp).idxOf (grp r)

/-- `data.groupby(group_vec).indices[i]` — model_data.py 78. -/
def mdRows (n : ℕ) (grp : ℕ → α) (i : ℕ) : Finset ℕ := (Finset.range n).filter fun r => mdNum n grp r = i

/-- `len(group_indices)` — model_data.py 84. -/
def mdGroups (n : ℕ) (grp : ℕ → α) : ℕ := (mdIds n grp).length

end

/-! ## Moments -/

/-- Rows in which variable `j` is there. -/
def mdHas (rows : Finset ℕ) (X : ℕ → ℕ → Option ℝ) (j : ℕ) : Finset ℕ := rows.filter fun i => (X i j).isSome = true

/-- Mean of variable `j` over some rows. -/
noncomputable def mdMeanOver (rows : Finset ℕ) (X : ℕ → ℕ → Option ℝ) (j : ℕ) : ℝ :=
  (∑ i ∈ rows, (X i j).getD 0) / rows.card

/-- `group_data.mean()` — model_data.py 96: missing values are left out. -/
noncomputable def mdMean (rows : Finset ℕ) (X : ℕ → ℕ → Option ℝ) (j : ℕ) : ℝ := mdMeanOver (mdHas rows X j) X j

/-- Sum of products about the means, over some rows. -/
noncomputable def mdSscp (rows : Finset ℕ) (X : ℕ → ℕ → Option ℝ) (j k : ℕ) : ℝ :=
  ∑ i ∈ rows, ((X i j).getD 0 - mdMeanOver rows X j) * ((X i k).getD 0 - mdMeanOver rows X k)

/-- `group_data.cov(ddof=ddof)` — model_data.py 95, for a frame with `p` columns.  pandas: without missing values
in any column `np.cov(mat.T, ddof=ddof)`; otherwise for each pair the rows in which both are there, with divisor one
less than their number whatever `ddof`. -/
noncomputable def mdCov (p ddof : ℕ) (rows : Finset ℕ) (X : ℕ → ℕ → Option ℝ) (j k : ℕ) : ℝ :=
  if ∀ i ∈ rows, ∀ c < p, (X i c).isSome = true then mdSscp rows X j k / ((rows.card : ℝ) - ddof)
  else
    let both := mdHas (mdHas rows X j) X k
    mdSscp both X j k / ((both.card : ℝ) - 1)

/-! ## Shapes after `subset_and_order` -/

/-- Numbers of columns of `data` and of `sample_cov` after `subset_and_order(variables)` in a model with `k` of `p`
variables — pysem2/model_data.py 43-53 (`newer = true`), pysem/model_data.py 43-51. -/
def mdSubset (newer : Bool) (p k : ℕ) : ℕ × ℕ := (if newer then k else p, k)

/-! ## Sample statistics -/

/-- What a sample statistic can be. -/
inductive MdKind | frame | series | array1 | array2 | other
  deriving DecidableEq

/-- `_to_dataframe_and_array` — model_data.py 59-69: kind of the array.  A one-dimensional array has no `shape[1]`;
for anything else `arr` is unbound. -/
def mdToArr : MdKind → Option MdKind
  | .frame => some .array2
  | .series => some .array2
  | .array2 => some .array2
  | .array1 => none
  | .other => none

/-- A statistic passed in: one for a single group, or a dictionary with keys `0, 1, …`. -/
inductive MdArg
  | one (k : MdKind)
  | dict (l : List MdKind)

/-- Number of observations: absent, an integer, or a dictionary. -/
inductive MdN | absent | int | dict

/-- `ModelData(sample_cov=…, sample_mean=…)` with dictionaries — model_data.py 22-41: `sample_cov[0].columns` needs
a frame. -/
def mdInit (cov mean : List MdKind) : Option Unit :=
  match cov with
  | .frame :: _ => do
    let _ ← cov.mapM mdToArr
    let _ ← (mean.take cov.length).mapM mdToArr
    some ()
  | _ => none

/-- The two dictionaries — model_data.py 106-114. -/
def mdDicts (cov mean : MdArg) (n : MdN) : Option (List MdKind × List MdKind) :=
  match cov, mean, n with
  | .dict c, .dict m, .absent => some (c, m)
  | .dict c, .dict m, .dict => some (c, m)
  | .one c, .one m, .absent => if (c = .frame ∨ c = .array1 ∨ c = .array2) ∧ m ≠ .other then some ([c], [m]) else none
  | .one c, .one m, .int => if (c = .frame ∨ c = .array1 ∨ c = .array2) ∧ m ≠ .other then some ([c], [m]) else none
  | _, _, _ => none

/-- `from_samplestats` — model_data.py 103-124. -/
def mdFromStats (cov mean : MdArg) (n : MdN) : Option Unit := do
  let (c, m) ← mdDicts cov mean n
  let c ← c.mapM mdToArr
  let m ← (m.take c.length).mapM mdToArr
  mdInit c m

end Verif.Sem
