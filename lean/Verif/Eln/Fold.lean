import Mathlib.Data.List.Sort
import Mathlib.Data.List.Dedup
/-!
# Model of `kfold_indices` and `process_cv` of `pyglmnet/eln_utils.py`

The random permutations are parameters.  `none`: the code raises.
-/
namespace Verif.Eln

/-- Size of part `i` of `np.array_split(l, k)` for a list of length `m`. -/
def partSize (m k i : ℕ) : ℕ := m / k + if i < m % k then 1 else 0

/-- `np.array_split(l, k)`. -/
def arraySplit {ι : Type*} (l : List ι) (k : ℕ) : Option (List (List ι)) :=
  if k = 0 then none
  else some ((List.range k).map fun i =>
    (l.drop ((List.range i).map (partSize l.length k)).sum).take (partSize l.length k i))

/-- The loop making the pairs — eln_utils.py 40-43; `np.concatenate` of an empty list raises. -/
def foldPairs {ι : Type*} (k : ℕ) (splits : List (List ι)) : Option (List (List ι × List ι)) :=
  (List.range k).mapM fun i => do
    let v ← splits[i]?
    let others := (List.range k).filter (· ≠ i)
    if others = [] then none
    else
      let fit ← others.mapM fun j => splits[j]?
      pure (fit.flatten, v)

/-- `splits` of `kfold_indices(n, k, y, categorical=False)` — 36-39; `perm` is the random permutation (`id` if none). -/
def plainSplits (n k : ℕ) (perm : List ℕ → List ℕ) : Option (List (List ℕ)) := arraySplit (perm (List.range n)) k

/-- `np.unique(y)`. -/
def uniq (y : List ℕ) : List ℕ := y.dedup.insertionSort (· ≤ ·)

/-- `fold_indices` — 25-32: the positions of each class, in the order of the classes. -/
def classIndices (y : List ℕ) (perm : List ℕ → List ℕ) : List (List ℕ) :=
  (uniq y).map fun c => perm ((List.range y.length).filter fun t => y[t]? = some c)

/-- `list(zip(*[...]))` of lists of length `k`, and `np.concatenate` of each tuple — 33-34. -/
def zipConcat {ι : Type*} (k : ℕ) (parts : List (List (List ι))) : Option (List (List ι)) :=
  if parts = [] then some []
  else (List.range k).mapM fun i => do
    let tup ← parts.mapM fun pt => pt[i]?
    pure tup.flatten

/-- `splits` of `kfold_indices(n, k, y, categorical=True)`. -/
def classSplits (y : List ℕ) (k : ℕ) (perm : List ℕ → List ℕ) : Option (List (List ℕ)) := do
  let parts ← (classIndices y perm).mapM fun ii => arraySplit ii k
  zipConcat k parts

/-- `kfold_indices` — 22-44. -/
def kfold (n k : ℕ) (y : List ℕ) (categorical : Bool) (perm : List ℕ → List ℕ) : Option (List (List ℕ × List ℕ)) := do
  let splits ← if categorical then classSplits y k perm else plainSplits n k perm
  foldPairs k splits

end Verif.Eln
