import Verif.Calc.Matrix
import Mathlib.Data.Fin.Tuple.Basic
import Mathlib.Algebra.BigOperators.Fin
/-!
# Regressions with two linear predictors: stacked parameters, weighted cross products, blocks
-/
namespace Verif.Reg
open Matrix

variable {n p q : ℕ}

/-- `theta[:p]`. -/
def fstPart (theta : Fin (p + q) → ℝ) : Fin p → ℝ := fun j => theta (Fin.castAdd q j)

/-- `theta[p:]`. -/
def sndPart (theta : Fin (p + q) → ℝ) : Fin q → ℝ := fun j => theta (Fin.natAdd p j)

/-- `np.concatenate([a, b])`. -/
def concat (a : Fin p → ℝ) (b : Fin q → ℝ) : Fin (p + q) → ℝ := Fin.append a b

/-- `np.block([[A, B], [B.T, C]])`. -/
def block (A : Matrix (Fin p) (Fin p) ℝ) (B : Matrix (Fin p) (Fin q) ℝ) (B' : Matrix (Fin q) (Fin p) ℝ) (C : Matrix (Fin q) (Fin q) ℝ) :
    Matrix (Fin (p + q)) (Fin (p + q)) ℝ :=
  fun i j => Fin.addCases (fun i => Fin.append (A i) (B i) j) (fun i => Fin.append (B' i) (C i) j) i

/-- `wdcrossp(X, w, r)` for a vector `r` (linalg_operations.py 245-247). -/
def wdv (X : Matrix (Fin n) (Fin p) ℝ) (w r : Fin n → ℝ) : Fin p → ℝ := fun j => ∑ i, X i j * w i * r i

/-- `wdcrossp(X, w, Y)` for a matrix `Y` (linalg_operations.py 245-247). -/
def wdm (X : Matrix (Fin n) (Fin p) ℝ) (w : Fin n → ℝ) (Y : Matrix (Fin n) (Fin q) ℝ) : Matrix (Fin p) (Fin q) ℝ :=
  fun j k => ∑ i, X i j * w i * Y i k

end Verif.Reg
