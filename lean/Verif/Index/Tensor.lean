import Verif.Index.Ordered
import Mathlib.Data.Nat.Factorial.Basic
import Mathlib.Data.List.Sort

/-!
Model of `multiset_permutations`, `fill_tensor` and `array_match` of `pystatsm/utilities/indexing_utils.py` (lines 570-597 and 772-782).
-/

namespace Verif.Index

/-- One turn of the `while` loop (lines 576-587): the value of `seq` at the next `yield`, or `none` when the generator returns.  When the
search for `i` finds nothing the variable keeps the last value of its loop, which is `0`. -/
def nextPerm (seq : List ℕ) : Option (List ℕ) :=
  let iIndices := (List.range seq.length).reverse
  let kIndices := iIndices.drop 1
  (kIndices.find? fun k => seq.getD k 0 < seq.getD (k + 1) 0).map fun k =>
    let kVal := seq.getD k 0
    let i := (iIndices.find? fun i => kVal < seq.getD i 0).getD 0
    let sw := (seq.set k (seq.getD i 0)).set i kVal
    sw.take (k + 1) ++ (sw.drop (k + 1)).reverse

/-- The successive values of `seq`, for at most `fuel` further turns of the loop. -/
def runPerm : ℕ → List ℕ → List (List ℕ)
  | 0, s => [s]
  | fuel + 1, s =>
    match nextPerm s with
    | none => [s]
    | some t => s :: runPerm fuel t

/-- What a loop over `multiset_permutations(seq)` (lines 570-587) sees at each turn.  The fuel is never used up (`C241_perms`). -/
def multisetPerms (seq : List ℕ) : List (List ℕ) := runPerm seq.length.factorial (seq.insertionSort (· ≤ ·))

/-- What `list(multiset_permutations(seq))` holds: the generator yields one list object and changes it in place (lines 576 and 586-587), so
every element is the last state of it. -/
def collectPerms (seq : List ℕ) : List (List ℕ) :=
  let states := multisetPerms seq
  states.map fun _ => states.getLastD []

/-- `tensor[(..., *perm)] = v`: an index outside the shape raises. -/
def tensorSet {α : Type} (shape : List ℕ) (T : List ℕ → α) (p : List ℕ) (v : α) : Option (List ℕ → α) :=
  if p.length = shape.length ∧ ∀ t ∈ p.zip shape, t.1 < t.2 then some (Function.update T p v) else none

/-- `fill_tensor(arr, shape)` (lines 590-597) for one position of the leading axes; `none` when an index is out of range. -/
def fillTensor {α : Type} [Zero α] (arr : List α) (shape : List ℕ) : Option (List ℕ → α) :=
  (List.range arr.length).foldlM (fun T i => do
    let index ← (ascendingIndices shape)[i]?
    (multisetPerms index).foldlM (fun T p => tensorSet shape T p (arr.getD i 0)) T) fun _ => 0

/-- `np.searchsorted(sorted_x, y)` for one value: the number of smaller entries. -/
def searchLeft (sx : List ℕ) (y : ℕ) : ℕ := (sx.filter (· < y)).length

/-- `yindex` (lines 773-776) for one value of `y`; `index` is the result of `np.argsort(x)`. -/
def yIndex (x index : List ℕ) (y : ℕ) : ℕ :=
  let sx := index.map fun i => x.getD i 0
  index.getD (min (searchLeft sx y) (index.length - 1)) 0

/-- `array_match(x, y)` (lines 772-782) without the mask; `np.take` from an empty array raises unless nothing is taken. -/
def arrayMatch (x index y : List ℕ) : Option (List ℕ) :=
  if index = [] ∧ y ≠ [] then none
  else some ((y.filter fun v => x.getD (yIndex x index v) 0 = v).map (yIndex x index))

/-- `array_match(x, y, mask=True)`: the positions with their masks. -/
def arrayMatchMask (x index y : List ℕ) : Option (List (ℕ × Bool)) :=
  if index = [] ∧ y ≠ [] then none
  else some (y.map fun v => (yIndex x index v, decide (x.getD (yIndex x index v) 0 ≠ v)))

/-- The contract of `np.argsort`: a permutation of the positions that sorts the array. -/
def ArgsortOK (x index : List ℕ) : Prop :=
  index.Perm (List.range x.length) ∧ (index.map fun i => x.getD i 0).Pairwise (· ≤ ·)

end Verif.Index
