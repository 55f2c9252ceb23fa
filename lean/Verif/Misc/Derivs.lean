import Verif.Misc.Expr
import Mathlib.Analysis.Calculus.Deriv.Basic

/-!
# What an array of derivatives must hold

The arrays returned by the functions of `/repo/pystatsm/misc/` hold the derivatives of order `n` in
`p` parameters at the index tuples `i₁ ≤ i₂ ≤ … ≤ iₙ`, in lexicographic order.
-/

namespace Verif.Misc

/-- Nondecreasing tuples of length `n` from `lo, …, p - 1`, in lexicographic order. -/
def multi (p : ℕ) : ℕ → ℕ → List (List ℕ)
  | _, 0 => [[]]
  | lo, n + 1 => (List.range' lo (p - lo)).flatMap fun i => (multi p i n).map fun l => i :: l

example : multi 3 0 2 = [[0, 0], [0, 1], [0, 2], [1, 1], [1, 2], [2, 2]] := by decide

/-- Entry `j` of an array, `0` if it was not computed. -/
def entry (o : Option (List ℝ)) (j : ℕ) : ℝ := (o.getD []).getD j 0

/-- At `θ` the array `b` is computed, has one entry for each tuple of length `n`, and the entry of
`i₁ ≤ … ≤ iₙ` is the derivative in parameter `iₙ` of the entry of `i₁ ≤ … ≤ iₙ₋₁` in the array `a`
of the order before. -/
def IsNext (p n : ℕ) (a b : (ℕ → ℝ) → Option (List ℝ)) (θ : ℕ → ℝ) : Prop :=
  ∃ D, b θ = some D ∧ D.length = (multi p 0 n).length ∧
    ∀ k I, (multi p 0 n)[k]? = some I →
      HasDerivAt
        (fun x => entry (a (Function.update θ (I.getLastD 0) x))
          ((multi p 0 (n - 1)).idxOf I.dropLast))
        (D.getD k 0) (θ (I.getLastD 0))

end Verif.Misc
