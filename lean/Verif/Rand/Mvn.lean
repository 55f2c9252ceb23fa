import Verif.Data.Model
import Verif.Like.Leverage

/-!
Model of `exact_rmvnorm`, `wishart`, `invwishart` and `r_invwishart` in `pystatsm/utilities/random.py`.  The draws of the generator are
arguments; `np.linalg.svd`, `cholesky` and `inv` are parameters.
-/

namespace Verif.Rand

open Matrix Verif.Data

variable {p : ℕ}

/-- `np.linalg.svd(S)` of a square matrix: `S = U diag(d) Vt` with orthogonal `U`, `Vt` and non-negative `d`. -/
structure SvdSq (S U : Matrix (Fin p) (Fin p) ℝ) (d : Fin p → ℝ) (Vt : Matrix (Fin p) (Fin p) ℝ) : Prop where
  fac : S = U * diagonal d * Vt
  left : Uᵀ * U = 1
  right : Vt * Vtᵀ = 1
  nonneg : ∀ i, 0 ≤ d i

/-- `_corr(X)` (line 75) as a matrix; `X` has `n` rows. -/
noncomputable def corrMat (p n : ℕ) (X : ℕ → ℕ → ℝ) : Matrix (Fin p) (Fin p) ℝ := of fun a b => corrNb n X a b

/-- `exact_rmvnorm(S, n, mu)` (lines 66-80) for the normal draws `Z`; `U`, `d` come from the singular value decomposition of `S`. -/
noncomputable def exactRmvnorm (n : ℕ) (U : Matrix (Fin p) (Fin p) ℝ) (d : Fin p → ℝ) (chol : Matrix (Fin p) (Fin p) ℝ → Option (Matrix (Fin p) (Fin p) ℝ))
    (Z : ℕ → ℕ → ℝ) (mu : Option (Fin p → ℝ)) : Option (ℕ → Fin p → ℝ) := do
  let L := U * diagonal fun i => √(d i)
  let X := csd n Z
  let R := corrMat p n X
  let C ← chol R
  let L := L * C⁻¹
  let Y : ℕ → Fin p → ℝ := fun i a => ∑ b : Fin p, X i b * L a b
  pure (match mu with
    | none => Y
    | some mu => fun i a => Y i a + mu a)

/-- The degrees of freedom of the chi-square draw on the diagonal (lines 87 and 100). -/
def chiDf (df : ℝ) (i : ℕ) : ℝ := df - ((i : ℝ) + 1) + 1

/-- `T` (lines 85-89): `chi i` is the chi-square draw and `z i j` the normal draws. -/
noncomputable def bartlett (chi : Fin p → ℝ) (z : Fin p → Fin p → ℝ) : Matrix (Fin p) (Fin p) ℝ :=
  of fun i j => if i = j then √(chi i) else if j < i then z i j else 0

/-- `wishart(df, V)` (lines 83-93). -/
noncomputable def wishart (chol : Matrix (Fin p) (Fin p) ℝ → Option (Matrix (Fin p) (Fin p) ℝ)) (chi : Fin p → ℝ) (z : Fin p → Fin p → ℝ)
    (V : Matrix (Fin p) (Fin p) ℝ) : Option (Matrix (Fin p) (Fin p) ℝ) := do
  let L ← chol V
  let A := L * bartlett chi z
  pure (A * Aᵀ)

/-- `np.linalg.inv`: raises for a singular matrix. -/
noncomputable def npInv (M : Matrix (Fin p) (Fin p) ℝ) : Option (Matrix (Fin p) (Fin p) ℝ) := by
  classical exact if M.det = 0 then none else some M⁻¹

/-- `invwishart(df, V)` (lines 96-107). -/
noncomputable def invwishart (chol : Matrix (Fin p) (Fin p) ℝ → Option (Matrix (Fin p) (Fin p) ℝ)) (chi : Fin p → ℝ) (z : Fin p → Fin p → ℝ)
    (V : Matrix (Fin p) (Fin p) ℝ) : Option (Matrix (Fin p) (Fin p) ℝ) := do
  let W ← wishart chol chi z V
  npInv W

/-- `r_invwishart(df, V)` (lines 109-111). -/
noncomputable def rInvwishart (chol : Matrix (Fin p) (Fin p) ℝ → Option (Matrix (Fin p) (Fin p) ℝ)) (chi : Fin p → ℝ) (z : Fin p → Fin p → ℝ)
    (V : Matrix (Fin p) (Fin p) ℝ) : Option (Matrix (Fin p) (Fin p) ℝ) := do
  let Vinv ← npInv V
  invwishart chol chi z Vinv

end Verif.Rand
