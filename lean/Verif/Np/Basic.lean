import Mathlib.Data.Nat.Notation
import Mathlib.Data.Int.Notation
import Mathlib.Logic.Function.Basic
/-!
# Contracts of the numpy primitives used by the modelled code

A one-dimensional array is a `List`; a two-dimensional array is a function of two natural
indices together with its (explicitly passed) shape.
-/
namespace Verif.Np

/-- `np.triu_indices(n, k)` as the list of `(row, col)` pairs in C order: the row-major
positions with `col - row ≥ k`.  (numpy contract: `nonzero(~tri(n, n, k-1))`.) -/
def npTriu (n : ℕ) (k : ℤ) : List (ℕ × ℕ) :=
  (List.range n).flatMap fun (i : ℕ) =>
    ((List.range n).filter fun (j : ℕ) => decide ((i : ℤ) + k ≤ (j : ℤ))).map fun j => (i, j)

/-- `np.tril_indices(n, k)`: row-major positions with `col - row ≤ k`. -/
def npTril (n : ℕ) (k : ℤ) : List (ℕ × ℕ) :=
  (List.range n).flatMap fun (i : ℕ) =>
    ((List.range n).filter fun (j : ℕ) => decide ((j : ℤ) ≤ (i : ℤ) + k)).map fun j => (i, j)

/-- C-order flattening of an `m × n` array. -/
def flattenC {α : Type*} (X : ℕ → ℕ → α) (m n : ℕ) : List α :=
  (List.range m).flatMap fun i => (List.range n).map fun j => X i j

/-- Transpose. -/
def transpose {α : Type*} (X : ℕ → ℕ → α) : ℕ → ℕ → α := fun i j => X j i

/-- `a[mask]` for a boolean mask. -/
def maskSelect {α : Type*} : List α → List Bool → List α
  | x :: xs, b :: bs => if b then x :: maskSelect xs bs else maskSelect xs bs
  | _, _ => []

/-- `a[mask] = v` for a boolean mask: masked positions take the values of `v` in order.
numpy raises when the number of `True`s differs from `len(v)`; that case is `none`. -/
def maskAssign {α : Type*} : List α → List Bool → List α → Option (List α)
  | [], [], [] => some []
  | x :: xs, b :: bs, vs =>
    if b then
      match vs with
      | v :: vs => (maskAssign xs bs vs).map (v :: ·)
      | [] => none
    else (maskAssign xs bs vs).map (x :: ·)
  | _, _, _ => none

/-- `a[rows, cols] = vals` (fancy assignment; when a cell occurs twice the last value wins). -/
def scatter2 {α : Type*} (a : ℕ → ℕ → α) (idx : List (ℕ × ℕ)) (vals : List α) : ℕ → ℕ → α :=
  (idx.zip vals).foldl (fun a p => fun i j => if (i, j) = p.1 then p.2 else a i j) a

/-- C-order reshape of a flat list with `n` columns (entries outside the list are `d`). -/
def reshapeC {α : Type*} (d : α) (l : List α) (n : ℕ) : ℕ → ℕ → α := fun i j => l.getD (i * n + j) d

/-- F-order reshape of a flat list with `m` rows. -/
def reshapeF {α : Type*} (d : α) (l : List α) (m : ℕ) : ℕ → ℕ → α := fun i j => l.getD (j * m + i) d

end Verif.Np
