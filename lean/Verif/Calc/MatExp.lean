import Mathlib.Analysis.SpecialFunctions.Exp
import Mathlib.LinearAlgebra.Matrix.Kronecker

/-!
Model of `dmat_exp` of `pystatsm/utilities/linalg_operations.py` (lines 722-735): the derivative of the matrix exponential.  `u` and `V` are the
eigenvalues and eigenvectors that `np.linalg.eig` returns; the position `n * i + j` is the pair `(i, j)`.
-/

namespace Verif.Calc
open Matrix
open scoped Kronecker

variable {n : ℕ}

/-- `arr` — 725-732, for eigenvalues that differ. -/
noncomputable def dmArr (u : Fin n → ℝ) (x : Fin n × Fin n) : ℝ :=
  if x.1 ≠ x.2 then (Real.exp (u x.1) - Real.exp (u x.2)) / (u x.1 - u x.2) else Real.exp (u x.1)

/-- `dmat_exp` — 722-735.  Two equal eigenvalues give a nan in `arr`, and nan in all entries of the product: `none`. -/
noncomputable def dmatExp (u : Fin n → ℝ) (V : Matrix (Fin n) (Fin n) ℝ) : Option (Matrix (Fin n × Fin n) (Fin n × Fin n) ℝ) :=
  open Classical in
  if ∃ i j, i ≠ j ∧ u i = u j then none
  else
    let W := V ⊗ₖ V
    some (W * diagonal (dmArr u) * Wᵀ)

end Verif.Calc
