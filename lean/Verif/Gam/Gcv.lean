import Verif.Fa.Rotation

/-!
Model of the generalised cross validation scores (`pystatsm/utilities/splines.py`, lines 252-289).
`y` has `n` entries, `X` is `n × p` and `S` is `p × p`.  `np.linalg.inv` is `Verif.Fa.inv?`, which is
`none` when the matrix is singular.  Arithmetic is exact.
-/

namespace Verif.Gam
open Matrix Verif.Fa

variable {n p : ℕ}

/-- `A = X.dot(np.linalg.inv(X.T.dot(X)+S*a)).dot(X.T)` (lines 253, 260). -/
noncomputable def hat? (a : ℝ) (X : Matrix (Fin n) (Fin p) ℝ) (S : Matrix (Fin p) (Fin p) ℝ) :
    Option (Matrix (Fin n) (Fin n) ℝ) := (inv? (Xᵀ * X + a • S)).map fun V => X * V * Xᵀ

/-- `double_gcv` (lines 259-264). -/
noncomputable def doubleGcv (γ a : ℝ) (X : Matrix (Fin n) (Fin p) ℝ) (y : Fin n → ℝ)
    (S : Matrix (Fin p) (Fin p) ℝ) : Option ℝ :=
  (hat? a X S).map fun A =>
    let r := y - A *ᵥ y
    n * (r ⬝ᵥ r) / (n - γ * A.trace) ^ 2

/-- `gcv` (lines 252-257). -/
noncomputable def gcv (a : ℝ) (X : Matrix (Fin n) (Fin p) ℝ) (y : Fin n → ℝ)
    (S : Matrix (Fin p) (Fin p) ℝ) : Option ℝ :=
  (hat? a X S).map fun A =>
    let r := y - A *ᵥ y
    n * (r ⬝ᵥ r) / (n - A.trace) ^ 2

/-- `grad_double_gcv` (lines 279-289). -/
noncomputable def gradDoubleGcv (γ a : ℝ) (X : Matrix (Fin n) (Fin p) ℝ) (y : Fin n → ℝ)
    (S : Matrix (Fin p) (Fin p) ℝ) : Option ℝ :=
  (inv? (Xᵀ * X + a • S)).map fun V =>
    let A := X * V * Xᵀ
    let r := y - A *ᵥ y
    let M := X * V * S * V * Xᵀ
    let u := n - γ * A.trace
    let u2 := u ^ 2
    let u3 := u2 * u
    2 * n * (r ⬝ᵥ ((1 / u2) • (M *ᵥ y) - (γ * M.trace / u3) • r))

/-- `grad_gcv` (lines 266-276). -/
noncomputable def gradGcv (a : ℝ) (X : Matrix (Fin n) (Fin p) ℝ) (y : Fin n → ℝ)
    (S : Matrix (Fin p) (Fin p) ℝ) : Option ℝ :=
  (inv? (Xᵀ * X + a • S)).map fun V =>
    let A := X * V * Xᵀ
    let r := y - A *ᵥ y
    let M := X * V * S * V * Xᵀ
    let u := n - A.trace
    let u2 := u ^ 2
    let u3 := u2 * u
    2 * n * (r ⬝ᵥ ((1 / u2) • (M *ᵥ y) - (M.trace / u3) • r))

end Verif.Gam
