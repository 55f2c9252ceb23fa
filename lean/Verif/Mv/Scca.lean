import Mathlib.Data.Real.Sqrt
import Mathlib.Data.Matrix.Mul
import Mathlib.Algebra.BigOperators.Field
import Verif.Func.Model
import Verif.Fa.Rotation

/-!
Sparse canonical correlation analysis, /repo/pystatsm/pyscca/scca.py.

Simplifications: real arithmetic in place of floating point; `np.sum(x**2)**0.5` is the real square root;
vectors have a fixed length `p`.
-/

open Matrix

namespace Verif.Mv

section vectors
variable {p : ℕ}

/-- `l2_penalty` — scca.py 140-153. -/
noncomputable def l2pen (x : Fin p → ℝ) : ℝ := max (√(∑ i, x i ^ 2)) 0.05

/-- `l1_constraint` — scca.py 156-169. -/
noncomputable def l1con (x : Fin p → ℝ) : ℝ := ∑ i, |x i / l2pen x|

/-- `sft` — scca.py 172-187. -/
noncomputable def sft (x : Fin p → ℝ) (t : ℝ) : Fin p → ℝ := fun i => max (|x i| - t) 0 * Verif.Func.npSign (x i)

/-- `np.max(np.abs(v))`; raises for an empty vector, hence `NeZero p`. -/
noncomputable def maxAbs [NeZero p] (v : Fin p → ℝ) : ℝ := Finset.univ.sup' ⟨0, Finset.mem_univ _⟩ fun i => |v i|

/-- The loop of `threshold_search` — scca.py 223-231; the first argument counts the iterations left. -/
noncomputable def searchLoop (v : Fin p → ℝ) (c tol : ℝ) : ℕ → ℝ → ℝ → ℝ
  | 0, ls, rs => (rs + ls) / 2
  | k + 1, ls, rs =>
    if l1con (sft v ((ls + rs) / 2)) < c then
      if (ls + rs) / 2 - ls < tol then ((ls + rs) / 2 + ls) / 2 else searchLoop v c tol k ls ((ls + rs) / 2)
    else
      if rs - (ls + rs) / 2 < tol then (rs + (ls + rs) / 2) / 2 else searchLoop v c tol k ((ls + rs) / 2) rs

/-- `threshold_search` — scca.py 191-231. -/
noncomputable def thresholdSearch [NeZero p] (v : Fin p → ℝ) (c : ℝ) (nIters : ℕ := 10000) (d : ℝ := 1e-6) (tol : ℝ := 1e-7) : ℝ :=
  if l2pen v = 0 ∨ ∑ i, |v i / l2pen v| ≤ c then 0
  else searchLoop v c tol nIters 0 (maxAbs v - d)

/-- One half step: threshold, then normalise — scca.py 277-279 and 284-286. -/
noncomputable def sparsify [NeZero p] (z : Fin p → ℝ) (c : ℝ) : Fin p → ℝ :=
  fun i => sft z (thresholdSearch z c) i / l2pen (sft z (thresholdSearch z c))

end vectors

section fit
variable {n p q : ℕ} [NeZero p] [NeZero q]

/-- The loop of `_scca_vec` — scca.py 275-290, from iteration `i` with `k + 1` iterations left (`k = n_iters - 1 - i`).
Returns `wx, wy, dwx, i`. -/
noncomputable def sccaLoop (S : Matrix (Fin p) (Fin q) ℝ) (cx cy tol : ℝ) : ℕ → ℕ → (Fin p → ℝ) → (Fin q → ℝ) →
    (Fin p → ℝ) × (Fin q → ℝ) × ℝ × ℕ
  | 0, i, wx, wy =>
    (sparsify (S *ᵥ wy) cx, sparsify (sparsify (S *ᵥ wy) cx ᵥ* S) cy, ∑ a, |sparsify (S *ᵥ wy) cx a - wx a|, i)
  | k + 1, i, wx, wy =>
    if ∑ a, |sparsify (S *ᵥ wy) cx a - wx a| < tol then
      (sparsify (S *ᵥ wy) cx, sparsify (sparsify (S *ᵥ wy) cx ᵥ* S) cy, ∑ a, |sparsify (S *ᵥ wy) cx a - wx a|, i)
    else sccaLoop S cx cy tol k (i + 1) (sparsify (S *ᵥ wy) cx) (sparsify (sparsify (S *ᵥ wy) cx ᵥ* S) cy)

/-- `_scca_vec` — scca.py 233-290; for `n_iters = 0` the variable `dwx` is undefined and the return raises. -/
noncomputable def sccaVec (S : Matrix (Fin p) (Fin q) ℝ) (wx : Fin p → ℝ) (wy : Fin q → ℝ) (cx cy : ℝ) (nIters : ℕ) (tol : ℝ) :
    Option ((Fin p → ℝ) × (Fin q → ℝ) × ℝ × ℕ) :=
  match nIters with
  | 0 => none
  | k + 1 => some (sccaLoop S cx cy tol k 0 wx wy)

/-- `Xt - np.outer(vx, uX) / np.sum(vx**2)` with `vx = Xt w`, `uX = vx' Xt` — scca.py 351-354 and 453, 459-461. -/
noncomputable def deflate {p : ℕ} (Xt : Matrix (Fin n) (Fin p) ℝ) (w : Fin p → ℝ) : Matrix (Fin n) (Fin p) ℝ :=
  fun a j => Xt a j - (Xt *ᵥ w) a * ((Xt *ᵥ w) ᵥ* Xt) j / ∑ b, (Xt *ᵥ w) b ^ 2

/-- The loop of `_scca` — scca.py 345-354: the list of the weights, component by component. -/
noncomputable def sccaComps (wx : Fin p → ℝ) (wy : Fin q → ℝ) (cx cy : ℝ) (nIters : ℕ) (tol : ℝ) :
    ℕ → Matrix (Fin n) (Fin p) ℝ → Matrix (Fin n) (Fin q) ℝ → Option (List ((Fin p → ℝ) × (Fin q → ℝ)))
  | 0, _, _ => some []
  | k + 1, Xt, Yt => do
    let r ← sccaVec (Xtᵀ * Yt) wx wy cx cy nIters tol
    let rest ← sccaComps wx wy cx cy nIters tol k (deflate Xt r.1) (deflate Yt r.2.1)
    some ((r.1, r.2.1) :: rest)

/-- The deflated data matrix after the listed weights. -/
noncomputable def deflated {p : ℕ} : List (Fin p → ℝ) → Matrix (Fin n) (Fin p) ℝ → Matrix (Fin n) (Fin p) ℝ
  | [], X => X
  | w :: ws, X => deflated ws (deflate X w)

/-- `wxi[np.abs(wxi)<1e-12] = 0.0` — scca.py 456-457. -/
noncomputable def chop (x : ℝ) : ℝ := if |x| < 1e-12 then 0 else x

/-- The loop of `orthogonalize_components` for one of the two sides — scca.py 451-462; `Q` is `inv(X'X) X'`. -/
noncomputable def orthoLoop {p : ℕ} (Q : Matrix (Fin p) (Fin n) ℝ) : List (Fin p → ℝ) → Matrix (Fin n) (Fin p) ℝ → List (Fin p → ℝ)
  | [], _ => []
  | w :: ws, Xt => (fun i => chop (((Q * Xt) *ᵥ w) i)) :: orthoLoop Q ws (deflate Xt w)

/-- `orthogonalize_components` for one of the two sides — scca.py 441-462; a singular `X'X` raises. -/
noncomputable def orthoComps {p : ℕ} (X : Matrix (Fin n) (Fin p) ℝ) (ws : List (Fin p → ℝ)) : Option (List (Fin p → ℝ)) := do
  let G ← Verif.Fa.inv? (Xᵀ * X)
  some (orthoLoop (G * Xᵀ) ws X)

end fit

/-! ## the choice of the penalty -/

/-- `vech` of a square array `k` by `k` (lower triangle, column by column) as a list — utilities/linalg_operations.py 333-339. -/
def vechL {R : Type} (k : ℕ) (A : ℕ → ℕ → R) : List R :=
  (List.range k).flatMap fun j => (List.range (k - j)).map fun d => A (j + d) j

/-- `rt[i, j][[0, 2]]` of the score of a penalty — scca.py 499 and 582: entries 0 and 2 of the half vectorised
correlations of the `k` components; an index out of bounds raises. -/
def lmaxEntries {R : Type} (k : ℕ) (A : ℕ → ℕ → R) : Option (R × R) := do
  let a ← (vechL k A)[0]?
  let b ← (vechL k A)[2]?
  some (a, b)

/-- The initial weights of `permutation_test` — scca.py 511-514 and 524-527. -/
noncomputable def permInit {p q : ℕ} (wx : Fin p → ℝ) (wy : Fin q → ℝ) : (Fin p → ℝ) × (Fin q → ℝ) :=
  let wx' := fun i => wx i / √(∑ a, wx a ^ 2)
  (wx', fun i => wy i / √(∑ a, wx' a ^ 2))

end Verif.Mv
