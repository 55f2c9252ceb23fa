import Verif.Vec.Model
import Mathlib.Analysis.SpecialFunctions.Pow.Real
/-!
# Model of `CorrCholesky` — param_transforms.py 754-783

`np.linalg.cholesky` is a parameter: `none` for the `LinAlgError`.
-/
namespace Verif.Transf
open Verif.Vec Real

/-- `CorrCholesky._fwd` (774-778). -/
def corrFwd (chol : ℕ → (ℕ → ℕ → ℝ) → Option (ℕ → ℕ → ℝ)) (x : List ℝ) : Option (List ℝ) := do
  let R ← invecl x
  let L ← chol R.1 R.2
  return vecl L R.1

/-- The matrix `L` of `CorrCholesky._rvs` with its completed diagonal (781-782).
`np.linalg.norm(L, axis=-1) ** 2` is the row sum of squares. -/
noncomputable def corrL (n : ℕ) (Y : ℕ → ℕ → ℝ) : ℕ → ℕ → ℝ :=
  fun i j => if i = j then sqrt (1 - ∑ c ∈ Finset.range n, Y i c ^ 2) else Y i j

/-- `R = L Lᵀ` (783). -/
noncomputable def corrR (n : ℕ) (Y : ℕ → ℕ → ℝ) : ℕ → ℕ → ℝ :=
  fun i j => ∑ c ∈ Finset.range n, corrL n Y i c * corrL n Y j c

/-- `CorrCholesky._rvs` (780-785). -/
noncomputable def corrRvs (y : List ℝ) : Option (List ℝ) := do
  let Y ← invLowerHalfVec y
  return vecl (corrR Y.1 Y.2) Y.1

end Verif.Transf
