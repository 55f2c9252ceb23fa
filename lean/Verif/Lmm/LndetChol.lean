import Mathlib.Analysis.SpecialFunctions.Log.Basic
import Mathlib.LinearAlgebra.Matrix.Determinant.Basic

/-!
Model of `lndet_gmat_chol` of `pystatsm/pylmm/model_matrices.py` (lines 137-146): the log determinant of the covariance of the random effects from the
Cholesky parameters of the terms.  `th k i j` is the entry of the parameters of term `k` at row `i` and column `j` below or on the diagonal.
-/

namespace Verif.Lmm
open Matrix

variable {K : ℕ} {nv : Fin K → ℕ}

/-- `invech_chol` — the lower triangle, zeros above (143). -/
def lcFactor {n : ℕ} (t : Fin n → Fin n → ℝ) : Matrix (Fin n) (Fin n) ℝ := fun i j => if j ≤ i then t i j else 0

/-- `Sigma_i` — 144. -/
def lcSigma {n : ℕ} (t : Fin n → Fin n → ℝ) : Matrix (Fin n) (Fin n) ℝ := lcFactor t * (lcFactor t)ᵀ

/-- `lndet_gmat_chol` — 137-146.  `none` is minus infinity, which `slogdet` gives for a singular matrix; every term has a group. -/
noncomputable def lndetChol (ng : Fin K → ℕ) (th : ∀ k, Fin (nv k) → Fin (nv k) → ℝ) : Option ℝ :=
  open Classical in
  if ∀ k, (lcSigma (th k)).det ≠ 0 then some (∑ k, ng k * Real.log |(lcSigma (th k)).det|) else none

end Verif.Lmm
