import Verif.Fa.Rotation
/-!
# Model of the Wald and score statistics of `pyglm2/likelihood_model.py`

`np.linalg.inv` raises on a singular matrix: `Verif.Fa.inv?`.  Only the statistic is modelled; the p-value is a fixed
function of it.
-/
namespace Verif.Like
open Matrix Verif.Fa
variable {k q n : ℕ}

/-- The matrix `M` shared by both tests — likelihood_model.py 500-501, 543-544. -/
noncomputable def testM (C : Matrix (Fin q) (Fin k) ℝ) (A B : Matrix (Fin k) (Fin k) ℝ) :
    Option (Matrix (Fin q) (Fin q) ℝ) :=
  let V := A * (B * A)
  inv? (C * V * Cᵀ)

/-- `_wald_test` — 497-503. -/
noncomputable def wald (theta theta0 : Fin k → ℝ) (C : Matrix (Fin q) (Fin k) ℝ) (A B : Matrix (Fin k) (Fin k) ℝ) :
    Option ℝ := do
  let M ← testM C A B
  let a := C *ᵥ (theta - theta0)
  pure (a ⬝ᵥ (M *ᵥ a))

/-- `_score_test` — 541-546. -/
noncomputable def score (D : Fin k → ℝ) (C : Matrix (Fin q) (Fin k) ℝ) (A B : Matrix (Fin k) (Fin k) ℝ) :
    Option ℝ := do
  let M ← testM C A B
  let a := C *ᵥ (A *ᵥ D)
  pure (a ⬝ᵥ (M *ᵥ a))

/-- `grad_unconstrained_cov`, `grad_constrained_cov` of `ll_tests` — regression_model.py 593-594. -/
def gradCov (G : Matrix (Fin n) (Fin k) ℝ) : Matrix (Fin k) (Fin k) ℝ := Gᵀ * G

/-- `grad_constrained` — 592. -/
def gradSum (G : Matrix (Fin n) (Fin k) ℝ) : Fin k → ℝ := fun j => ∑ i, G i j

/-- One pass of the loop of `ll_tests` after the constrained fit — regression_model.py 587-608: the two statistics
from the two Hessians and the two arrays of per-observation gradients. -/
noncomputable def llTest (C : Matrix (Fin q) (Fin k) ℝ) (th th0 : Fin k → ℝ) (H H0 : Matrix (Fin k) (Fin k) ℝ)
    (G G0 : Matrix (Fin n) (Fin k) ℝ) : Option (ℝ × ℝ) := do
  let A ← inv? H
  let A0 ← inv? H0
  let w ← wald th th0 C A (gradCov G)
  let s ← score (gradSum G0) C A0 (gradCov G0)
  pure (w, s)

/-- `jac[np.arange(m), zero_indices] = 1.0` — optimizer_utils.py 89-90. -/
def selMat (z : Fin q → Fin k) : Matrix (Fin q) (Fin k) ℝ := Matrix.of fun a j => if j = z a then 1 else 0

end Verif.Like
