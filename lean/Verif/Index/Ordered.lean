import Verif.Index.Model
import Mathlib.Data.List.Lex

/-!
Model of `pystatsm/utilities/ordered_indices.pyx` and of `convert_acm` of `pystatsm/pylvcorr/polychoric2.py`.  Tuples are lists; Python
compares tuples as `<` compares lists.
-/

namespace Verif.Index

/-- `itertools.product(*[range(s) for s in shape])`: the last index runs fastest. -/
def prodRange : List ℕ → List (List ℕ)
  | [] => [[]]
  | s :: rest => (List.range s).flatMap fun i => (prodRange rest).map (i :: ·)

/-- `monotonic` (lines 66-83). -/
def monotonic (ascending strict : Bool) : List ℕ → Bool
  | x :: y :: rest =>
    if ascending then
      if strict then
        if x ≥ y then false else monotonic ascending strict (y :: rest)
      else
        if x > y then false else monotonic ascending strict (y :: rest)
    else
      if strict then
        if x ≤ y then false else monotonic ascending strict (y :: rest)
      else
        if x < y then false else monotonic ascending strict (y :: rest)
  | _ => true

/-- `sorted(l, key=lambda x: tuple(reversed(x)))`; the keys are distinct. -/
def sortRev (l : List (List ℕ)) : List (List ℕ) := l.insertionSort fun x y => x.reverse ≤ y.reverse

/-- `generate_indices` (lines 85-112). -/
def generateIndices (shape : List ℕ) (ascending firstFastest strict : Bool) : List (List ℕ) :=
  let filtered := (prodRange shape).filter (monotonic ascending strict)
  if !firstFastest then sortRev filtered else filtered

/-- `ascending_indices` (lines 18-40). -/
def ascendingIndices (shape : List ℕ) : List (List ℕ) :=
  ((prodRange shape).filter (monotonic true false)).insertionSort (· ≤ ·)

/-- `descending_indices` (lines 43-64): sorted in reverse. -/
def descendingIndices (shape : List ℕ) : List (List ℕ) :=
  ((prodRange shape).filter (monotonic false false)).insertionSort (· ≥ ·)

/-- A row of two indices as a pair. -/
def toPair : List ℕ → ℕ × ℕ
  | [i, j] => (i, j)
  | _ => (0, 0)

/-- `np.sort` of two numbers. -/
def sort2 (x : ℕ × ℕ) : ℕ × ℕ := if x.1 ≤ x.2 then x else (x.2, x.1)

/-- `convert_acm` (polychoric2.py lines 527-568): the entry of `acm` that goes to each pair of positions, in the order of `ix2`.  `lexsort`
sorts by its last row first, and the inner rank of a key is the number of smaller keys. -/
def convertIndex (p : ℕ) : List ((ℕ × ℕ) × (ℕ × ℕ)) :=
  let p2 := p * (p - 1) / 2
  let ix1 := (generateIndices [p, p] false false true).map toPair
  let ix2 := (generateIndices [p2, p2] false false false).map toPair
  let iy1 := (generateIndices [p, p] true false true).map toPair
  let toIi := fun x : ℕ × ℕ => iy1.idxOf (sort2 x)
  let pairs := ix2.map fun t => sort2 (toIi (ix1.getD t.1 (0, 0)), toIi (ix1.getD t.2 (0, 0)))
  let keys := pairs.map fun t =>
    let ab := iy1.getD t.1 (0, 0)
    let cd := iy1.getD t.2 (0, 0)
    [cd.2, cd.1, ab.2, ab.1]
  let flat := Verif.Np.npTril p2 0
  ix2.zip (keys.map fun k => flat.getD (keys.filter (· < k)).length (0, 0))

/-- The matrix that `convert_acm` returns. -/
def convertAcm {R : Type*} [Zero R] (p : ℕ) (acm : ℕ → ℕ → R) (i j : ℕ) : R :=
  match (convertIndex p).find? fun t => t.1 = (i, j) ∨ t.1 = (j, i) with
  | some t => acm t.2.1 t.2.2
  | none => 0

end Verif.Index
