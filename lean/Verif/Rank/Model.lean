import Mathlib.Data.Nat.Choose.Basic
import Mathlib.Data.List.Sort
import Mathlib.Data.List.Dedup
/-!
# Model of ranking functions in `pystatsm/utilities/indexing_utils.py`

Ascending-tuple ranking, (co)lexicographic ravel / unravel, and `unique`.
Index arrays are `List ℕ`; `none` is a Python exception.
-/
namespace Verif.Rank

/-- `comb_numba(n, k)` — indexing_utils.py 538-548, over `ℤ` (`//` is floor division). -/
def combNumba (n k : ℤ) : ℤ :=
  if k < 0 ∨ k > n then 0
  else if k = 0 ∨ k = n then 1
  else
    let k := min k (n - k)
    (List.range k.toNat).foldl (fun (c : ℤ) (i : ℕ) => c * (n - (i : ℤ)) / ((i : ℤ) + 1)) 1

/-- `np.sort`. -/
def npSort (l : List ℕ) : List ℕ := l.mergeSort (fun a b => decide (a ≤ b))

/-- `ascending_indices_forward(inds)` — indexing_utils.py 551-556.  The lambda is a closure, so
it sees the sorted `inds`.  `scipy.special.comb` (float, then `int`) is modelled by the exact
binomial coefficient. -/
def ascendingForward (inds : List ℕ) : ℕ :=
  let n := inds.length
  let inds := npSort inds
  ((List.range' 1 n).map fun r => Nat.choose (r + inds.getD (r - 1) 0 - 1) r).sum

/-- `colex_ascending_indices_forward(inds)` — indexing_utils.py 710-720 (and the textually
identical `colex_descending_indices_forward`, 741-751). -/
def colexAscendingForward (inds : List ℕ) : ℤ :=
  let n := inds.length
  let inds := npSort inds
  ((List.range' 1 n).map fun (r : ℕ) => combNumba ((r : ℤ) + (inds.getD (r - 1) 0 : ℕ) - 1) r).sum

/-- `np.max(np.nonzero(x))`: last position holding `True`; raises on none. -/
def lastTrue (l : List Bool) : Option ℕ :=
  (((List.range l.length).filter fun i => l.getD i false)).getLast?

/-- `ascending_indices_reversed(m, n, p)` — indexing_utils.py 558-567.  The loop runs
`k = n, ..., 1` filling `a[k-1]`; the model recurses on `k` and appends.  `v - s[u]` never goes
negative because `u` is chosen with `v >= s[u]`. -/
def ascendingReversed (p : ℕ) : (k v : ℕ) → Option (List ℕ)
  | 0, _ => some []
  | k + 1, v =>
    let s := (List.range p).map fun j => Nat.choose (k + 1 + j - 1) (k + 1)
    (lastTrue (s.map fun x => decide (v ≥ x))).bind fun u =>
      (ascendingReversed p k (v - s.getD u 0)).map fun a => a ++ [u]

/-- `_colex_ascending_indices_reverse_nb(m, n, p)` — indexing_utils.py 723-732, with
`comb_numba`, over `ℤ`. -/
def colexAscendingReverse (p : ℕ) : (k : ℕ) → (v : ℤ) → Option (List ℕ)
  | 0, _ => some []
  | k + 1, v =>
    let s := (List.range p).map fun (j : ℕ) => combNumba ((k : ℤ) + 1 + j - 1) (k + 1)
    (lastTrue (s.map fun x => decide (v ≥ x))).bind fun u =>
      (colexAscendingReverse p k (v - s.getD u 0)).map fun a => a ++ [u]

/-- `colex_descending_indices_reverse` — indexing_utils.py 753-769: same, reversed. -/
def colexDescendingReverse (p k : ℕ) (v : ℤ) : Option (List ℕ) :=
  (colexAscendingReverse p k v).map List.reverse

/-! ## Ravel / unravel -/

/-- `np.cumprod`. -/
def cumprod : List ℕ → List ℕ
  | [] => []
  | x :: xs => x :: (cumprod xs).map (x * ·)

/-- `colex_index_forward(index, shape)` — indexing_utils.py 600-621; `index[0]` raises on the
empty index. -/
def colexForward (index shape : List ℕ) : Option ℕ :=
  match index with
  | [] => none
  | i0 :: rest =>
    if index.length = shape.length then
      some ((List.zipWith (· * ·) rest (cumprod shape).dropLast).sum + i0)
    else none

/-- `lex_index_forward(index, shape)` — indexing_utils.py 655-678: same on reversed arrays. -/
def lexForward (index shape : List ℕ) : Option ℕ := colexForward index.reverse shape.reverse

/-- Loop `for j in range(len(shape)-1, 0, -1): index[j], a = divmod(a, prod[j-1])` then
`index[0] = a`; `prods` is `prod` reversed (so its head is `prod[j-1]` for the current `j`);
the result accumulates `index[j:]`. -/
def colexReverseLoop : (prods : List ℕ) → (a : ℕ) → (acc : List ℕ) → List ℕ
  | [], a, acc => a :: acc
  | q :: qs, a, acc => colexReverseLoop qs (a % q) (a / q :: acc)

/-- `colex_index_reverse(i, shape)` — indexing_utils.py 624-652.  Shapes are assumed non-empty
with positive sides (division by a zero product raises or is meaningless otherwise). -/
def colexReverse (i : ℕ) (shape : List ℕ) : List ℕ :=
  colexReverseLoop ((cumprod shape).dropLast.reverse) i []

/-- Loop `for j in range(len(shape)-1): index[j], a = divmod(a, prod[j])`, `index[-1] = a`. -/
def lexReverseLoop : (prods : List ℕ) → (a : ℕ) → List ℕ
  | [], a => [a]
  | q :: qs, a => a / q :: lexReverseLoop qs (a % q)

/-- `lex_index_reverse(i, shape)` — indexing_utils.py 680-708:
`prod = cumprod(shape[::-1])[::-1][1:]`. -/
def lexReverse (i : ℕ) (shape : List ℕ) : List ℕ :=
  lexReverseLoop ((cumprod shape.reverse).reverse.drop 1) i

/-! ## unique -/

section
variable {α : Type*} [LinearOrder α]

/-- numpy contract of `np.unique(arr, return_index=True, return_inverse=True)`: sorted distinct
values, first position of each, and position of every element in the sorted distinct values. -/
def npUnique (arr : List α) : List α × List ℕ × List ℕ :=
  let us := arr.dedup.mergeSort (fun a b => decide (a ≤ b))
  (us, us.map fun x => arr.idxOf x, arr.map fun x => us.idxOf x)

/-- `np.argsort` (values here are distinct, so the algorithm's stability is immaterial). -/
def argsort [Inhabited α] (u : List α) : List ℕ :=
  (List.range u.length).mergeSort (fun i j => decide (u.getD i default ≤ u.getD j default))

/-- `unique(arr)` — indexing_utils.py 793-803.  Returns `(u, inv, ind)`.  The loop over the
dictionary items writes `inv[inverse == k] = v`. -/
def unique [Inhabited α] (arr : List α) : List α × List ℕ × List ℕ :=
  let (_, ind, inverse) := npUnique arr
  let ind := npSort ind
  let u := ind.map fun i => arr.getD i default
  let d := (List.range u.length).zip (argsort u)
  let inv := d.foldl
    (fun inv kv => List.zipWith (fun old invr => if invr = kv.1 then kv.2 else old) inv inverse)
    inverse
  (u, inv, ind)

end
end Verif.Rank
