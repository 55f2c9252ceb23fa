import Mathlib.Algebra.Order.Floor.Defs
import Mathlib.Algebra.Order.Floor.Ring
import Mathlib.Algebra.Order.Field.Basic
import Mathlib.Data.Rat.Floor
import Mathlib.Data.List.Sort
/-!
# Model of `pystatsm/utilities/func_utils.py`

Arrays are lists; reals are an arbitrary ordered field with a floor function.
-/
namespace Verif.Func

/-! ## partition_set -/

/-- The `while sol[step] <= maximum` loop of `get_part`, func_utils.py 228-230.  `body` is the
recursive call; `fuel` bounds the iterations (the property file shows `maximum + 1` is enough,
the loop then ends by its condition). State: `(sol, res)`. -/
def partLoop (step maximum : ℕ) (body : List ℕ × List (List ℕ) → List ℕ × List (List ℕ)) :
    (fuel : ℕ) → List ℕ × List (List ℕ) → List ℕ × List (List ℕ)
  | 0, st => st
  | fuel + 1, st =>
    if st.1.getD step 0 ≤ maximum then
      let st := body st
      partLoop step maximum body fuel (st.1.set step (st.1.getD step 0 + 1), st.2)
    else st

/-- `get_part(arr, sol, size, step, maximum, res)` — func_utils.py 206-231; the first argument
is `size - step`.  `sol` and `res` are mutated in place, so the call returns both. -/
def getPart : (k : ℕ) → (step maximum : ℕ) → List ℕ × List (List ℕ) → List ℕ × List (List ℕ)
  | 0, _, _, st => (st.1, st.2 ++ [st.1])
  | k + 1, step, maximum, st =>
    let st := (st.1.set step 1, st.2)
    let st := partLoop step maximum (getPart k (step + 1) maximum) (maximum + 1) st
    getPart k (step + 1) (maximum + 1) st

/-- `partition_set(n)` — func_utils.py 233-252. -/
def partitionSet (n : ℕ) : List (List ℕ) := (getPart n 0 0 (List.replicate n 0, [])).2

/-! ## soft_threshold -/

section field
variable {α : Type*} [Field α] [LinearOrder α]

/-- `np.sign`. -/
def npSign (x : α) : α := if x < 0 then -1 else if x = 0 then 0 else 1

/-- `soft_threshold(x, t)` — func_utils.py 254-272 (elementwise). -/
def softThreshold (x t : α) : α := max (|x| - t) 0 * npSign x

/-! ## sum_preserving_round, allocate_from_proportions -/

variable [FloorRing α]

/-- `np.round` (half to even). -/
def npRound (x : α) : ℤ :=
  if x - ⌊x⌋ < 1 / 2 then ⌊x⌋
  else if 1 / 2 < x - ⌊x⌋ then ⌊x⌋ + 1
  else if ⌊x⌋ % 2 = 0 then ⌊x⌋ else ⌊x⌋ + 1

/-- numpy slice `a[-k:]` for an integer `k`: `k > 0` takes the last `k` (all if longer), `k = 0`
is `a[0:]`, everything, `k < 0` drops the first `-k`. -/
def lastSlice {β : Type*} (a : List β) (k : ℤ) : List β :=
  if 0 < k then a.drop (a.length - k.toNat) else a.drop (-k).toNat

/-- `sum_preserving_round(arr)` — func_utils.py 294-316.  `argsort` is the result of
`np.argsort(arr_fract)`, a parameter because ties are broken by an unspecified rule.  The fancy
assignment increments exactly the listed positions (they are distinct). -/
def sumPreservingRound (argsort : List ℕ) (arr : List α) : List ℤ :=
  let arrFloor := arr.map fun x => ⌊x⌋
  let sumDiff := npRound (arr.sum - ((arrFloor.sum : ℤ) : α))
  let ind := lastSlice argsort sumDiff
  arrFloor.mapIdx fun i f => if i ∈ ind then f + 1 else f

/-- `arr[inds] = arr[inds] + vals` for distinct `inds`, numpy fancy assignment (one value per
index, right-hand side read before writing). -/
def addAt (arr : List α) (inds : List ℕ) (vals : List α) : List α :=
  (inds.zip vals).foldl (fun a iv => a.set iv.1 (arr.getD iv.1 0 + iv.2)) arr

/-- `sum_preserving_min(arr, min_)` — func_utils.py 319-344.  `argsort` is `np.argsort(arr)`. -/
def sumPreservingMin (argsort : List ℕ) (arr : List α) (m : α) : List α :=
  let diffs := (arr.filter fun x => decide (x < m)).map fun x => x - m
  let nLt := diffs.length
  if 0 < nLt then
    let arrSort := lastSlice argsort nLt
    let arr := arr.map fun x => if x < m then x - (x - m) else x
    addAt arr arrSort diffs
  else arr

/-- `sizes_to_inds(sizes)` — func_utils.py 346-360: `np.r_[0, np.cumsum(sizes)]`. -/
def sizesToInds (sizes : List ℤ) : List ℤ := sizes.scanl (· + ·) 0

/-- `sizes_to_slice_vals(sizes)` — func_utils.py 362-377. -/
def sizesToSliceVals (sizes : List ℤ) : List (ℤ × ℤ) :=
  let inds := sizesToInds sizes
  inds.dropLast.zip inds.tail

/-- `allocate_from_proportions(n, proportions)` — func_utils.py 398-421.  `none` is the
`ValueError`; `tol` is the literal `1e-12`; `sort1`, `sort2` are the two `argsort` results. -/
def allocateFromProportions (tol : α) (sort1 sort2 : List α → List ℕ) (n : ℕ) (props : List α) :
    Option (List ℤ × List (ℤ × ℤ)) :=
  if |1 - props.sum| > tol then none
  else
    let k := props.map (· * (n : α))
    let k := sumPreservingMin (sort1 k) k 1
    let k := sumPreservingRound (sort2 (k.map fun x => x - ⌊x⌋)) k
    some (k, sizesToSliceVals k)

end field

/-! ## handle_default_kws -/

/-- A dictionary: association list with distinct keys, insertion ordered. -/
abbrev Dict (κ υ : Type*) := List (κ × υ)

/-- `d[k] = v`. -/
def Dict.put {κ υ : Type*} [DecidableEq κ] (d : Dict κ υ) (k : κ) (v : υ) : Dict κ υ :=
  if d.any (fun e => e.1 = k) then d.map (fun e => if e.1 = k then (k, v) else e)
  else d ++ [(k, v)]

/-- `handle_default_kws(kws, default_kws)` — func_utils.py 424-442: `{**default_kws, **kws}`. -/
def handleDefaultKws {κ υ : Type*} [DecidableEq κ] (kws : Option (Dict κ υ))
    (defaults : Dict κ υ) : Dict κ υ :=
  let kws := kws.getD []
  kws.foldl (fun d e => Dict.put d e.1 e.2) (defaults.foldl (fun d e => Dict.put d e.1 e.2) [])

/-! ## harmonic numbers -/

/-- `_harmonic(a, b)` — func_utils.py 445-466.  `fuel` is the recursion depth available
(`none`: Python's `RecursionError`). -/
def harmonic : (fuel : ℕ) → (a b : ℤ) → Option (ℤ × ℤ)
  | 0, _, _ => none
  | fuel + 1, a, b =>
    if b - a = 1 then some (1, a)
    else
      let m := (a + b) / 2
      (harmonic fuel a m).bind fun pq =>
        (harmonic fuel m b).map fun rs => (pq.1 * rs.2 + pq.2 * rs.1, pq.2 * rs.2)

/-- `harmonic_fraction(n)` — func_utils.py 468-483. -/
def harmonicFraction (fuel : ℕ) (n : ℤ) : Option (ℤ × ℤ) := harmonic fuel 1 (n + 1)

/-- `triangular_number(n, offset)` — func_utils.py 1083-1088. -/
def triangularNumber (n offset : ℤ) : ℤ := (n + offset) * n / 2

end Verif.Func
