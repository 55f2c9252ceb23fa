import Mathlib.Data.Matrix.Basic
import Mathlib.LinearAlgebra.Matrix.NonsingularInverse
import Mathlib.Analysis.Real.Sqrt
/-!
# Model of the canonical correlation simulator

`pyscca/cca_sim.py`.  `eighs` is a parameter with the contract `EighSpec`.
-/
namespace Verif.Sim
open Matrix
variable {p q k : ℕ}

/-- Contract of `eighs`: orthonormal eigenvectors in the columns. -/
structure EighSpec (S : Matrix (Fin p) (Fin p) ℝ) (e : Fin p → ℝ) (U : Matrix (Fin p) (Fin p) ℝ) : Prop where
  ortho : Uᵀ * U = 1
  eig : S * U = U * diagonal e

/-- `A0 * np.sqrt(1/x_eig)` — cca_sim.py 54-55. -/
noncomputable def whitenCols (e : Fin p → ℝ) (U : Matrix (Fin p) (Fin p) ℝ) : Matrix (Fin p) (Fin p) ℝ :=
  fun i j => U i j * Real.sqrt (1 / e j)

/-- `B_inv[:self.n_xvars]` — cca_sim.py 57-59. -/
noncomputable def topRows (h : p ≤ q) (Binv : Matrix (Fin q) (Fin q) ℝ) : Matrix (Fin p) (Fin q) ℝ :=
  fun i j => Binv (Fin.castLE h i) j

/-- `Sxy` of `_set_corrmats_from_rho` — cca_sim.py 61. -/
noncomputable def sxyRho (h : p ≤ q) (A : Matrix (Fin p) (Fin p) ℝ) (B : Matrix (Fin q) (Fin q) ℝ)
    (rho : Fin p → ℝ) : Matrix (Fin p) (Fin q) ℝ :=
  (Aᵀ)⁻¹ * diagonal rho * topRows h B⁻¹

/-- `normalize_wrt_corr` — cca_sim.py 13-16. -/
noncomputable def normCorr (X : Matrix (Fin p) (Fin k) ℝ) (S : Matrix (Fin p) (Fin p) ℝ) :
    Matrix (Fin p) (Fin k) ℝ :=
  fun i j => X i j / Real.sqrt (∑ a, ∑ b, X a j * S a b * X b j)

/-- `Sxy` of `_set_corrmats_from_coefs` — cca_sim.py 33-36. -/
noncomputable def sxyCoefs (Sxx : Matrix (Fin p) (Fin p) ℝ) (Syy : Matrix (Fin q) (Fin q) ℝ)
    (X : Matrix (Fin p) (Fin k) ℝ) (Y : Matrix (Fin q) (Fin k) ℝ) (rho : Fin k → ℝ) :
    Matrix (Fin p) (Fin q) ℝ :=
  Sxx * (normCorr X Sxx * diagonal rho * (normCorr Y Syy)ᵀ) * Syy

/-- The quadratic form of `np.block([[Sxx, Sxy], [Sxy.T, Syy]])` — cca_sim.py 37, 62. -/
noncomputable def blockForm (Sxx : Matrix (Fin p) (Fin p) ℝ) (Syy : Matrix (Fin q) (Fin q) ℝ)
    (Sxy : Matrix (Fin p) (Fin q) ℝ) (x : Fin p → ℝ) (y : Fin q → ℝ) : ℝ :=
  x ⬝ᵥ Sxx *ᵥ x + x ⬝ᵥ Sxy *ᵥ y + (y ⬝ᵥ Sxyᵀ *ᵥ x + y ⬝ᵥ Syy *ᵥ y)

end Verif.Sim
