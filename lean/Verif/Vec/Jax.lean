import Verif.Vec.Model
/-!
# Vectorisation under `jax.jit`

Code: utilities/jax_linalg.py 12-45.

Under `jit` an array argument has a static shape and a traced value, and what `jax.numpy` computes from static numbers is
traced too; `int` of a traced number raises.  `jit = false` is the function without its decorator.  `hasUpdate` says
whether `jax.ops.index_update` exists; it was removed from jax.
-/
namespace Verif.Vec
open Verif.Np Verif.Index
variable {R : Type}

/-- A number: known while tracing, or not. -/
inductive JNum
  | static (n : ℕ)
  | traced

/-- `int(x)`. -/
def jInt : JNum → Option ℕ
  | .static n => some n
  | .traced => none

/-- An argument of the function, or the result of a function of `jax.numpy`. -/
def jVal (jit : Bool) (n : ℕ) : JNum := if jit then .traced else .static n

/-- `jax_vec(X)` — jax_linalg.py 12-17. -/
def jaxVec (X : ℕ → ℕ → R) (m n : ℕ) : List R := (List.range n).flatMap fun j => (List.range m).map fun i => X i j

/-- `jax_invec(x, n_rows, n_cols)` — jax_linalg.py 19-24. -/
def jaxInvec [Zero R] (jit : Bool) (x : List R) (nRows nCols : ℕ) : Option (ℕ → ℕ → R) := do
  let r ← jInt (jVal jit nRows)
  let c ← jInt (jVal jit nCols)
  if x.length = r * c then some (reshapeF 0 x r) else none

/-- `jax_vech(X)` — jax_linalg.py 26-34: entries of the flattened transpose. -/
def jaxVech [Zero R] (X : ℕ → ℕ → R) (m : ℕ) : List R :=
  (npTriu m 0).map fun p => (flattenC (transpose X) m m).getD (p.1 * m + p.2) 0

/-- `jax_invech(v)` — jax_linalg.py 36-45.  The rounded square root is exact on triangular lengths; for other lengths the
update raises. -/
def jaxInvech [AddGroup R] (jit hasUpdate : Bool) (v : List R) : Option (ℕ × (ℕ → ℕ → R)) := do
  let rows ← jInt (jVal jit ((Nat.sqrt (1 + 8 * v.length) - 1) / 2))
  if hasUpdate = true ∧ (npTriu rows 0).length = v.length then
    let res := scatter2 (fun _ _ => 0) (npTriu rows 0) v
    some (rows, fun i j => res i j + res j i - if i = j then res i j else 0)
  else none

end Verif.Vec
