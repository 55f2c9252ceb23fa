import Verif.Fa.OldConc
/-!
# Model of the identification constraints and standard errors in `pyfa/efa.py` and `pyfa/factor_analysis.py`

Rows of constraints are indexed by positions: the strict lower triangle as in `vecl`, or all off-diagonal positions
(column, row).  Selections of rows and columns by boolean masks are restrictions to these positions.
-/
namespace Verif.Fa.Old
open Matrix Kronecker

variable {p m : ℕ}

/-- The positions kept by `vec(np.eye(m) != 1)` — rotation.py 23. -/
abbrev Off (m : ℕ) := {x : Fin m × Fin m // x.1 ≠ x.2}

/-- `_canonical_constraint(L, Psi)` — efa.py 485-487; factor_analysis.py 457-459. -/
noncomputable def canCon (L : Mat p m) (Psi : Mat p p) : Low m → ℝ := vecl (Lᵀ * diagonal (fun i => 1 / Psi i i) * L)

/-- `constraint_derivs` without rotation — efa.py 517-525. -/
noncomputable def dCanon (L : Mat p m) (Psi : Mat p p) : Matrix (Low m) (Par p m) ℝ :=
  let Psi_inv : Mat p p := diagonal fun i => 1.0 / Psi i i
  let A := Lᵀ * Psi_inv
  let Dpsi : Matrix (Fin p × Fin p) (Fin p) ℝ := of fun x i => if x = (i, i) then 1 else 0
  let dCdL := nmat m * ((1 : Mat m m) ⊗ₖ A)
  let dCdPsi := -(A ⊗ₖ A)
  let dCdPsi := (Dpsiᵀ * dCdPsiᵀ)ᵀ
  of fun q => Sum.elim (dCdL q.1) (Sum.elim (fun _ => 0) (dCdPsi q.1))

/-- `constraint_derivs` with an orthogonal rotation — efa.py 504-507. -/
def dOrtho (k : ℝ × ℝ × ℝ × ℝ) (L : Mat p m) : Matrix (Low m) (Par p m) ℝ :=
  of fun q => Sum.elim (dCdLOrtho k L q.1) (Sum.elim (fun _ => 0) fun _ => 0)

/-- `constraint_derivs` with an oblique rotation — efa.py 508-515: the arrays `[u, v, i, r]` and `[u, v, x, y]` become
matrices with the first index of each pair running fastest. -/
noncomputable def dObl (k : ℝ × ℝ × ℝ × ℝ) (L : Mat p m) (Phi : Mat m m) : Option (Matrix (Off m) (Par p m) ℝ) := do
  let dCdL ← dCdLObl k L Phi
  let dCdP ← dCdPObl k L Phi
  some (of fun q => Sum.elim (fun x => dCdL q.1.2 q.1.1 x.2 x.1) (Sum.elim (fun y => dCdP q.1.2 q.1.1 y.1.2 y.1.1) fun _ => 0))

/-- `hessian_aug` — efa.py 305-313; the augmented matrix of factor_analysis.py 626-667: the blocks `H`, `Cᵀ`, `C` and zeros, then the
parameters of `ixa`. -/
def augm {κ ι γ : Type} (keep : ι → κ) (H : Matrix κ κ ℝ) (C : Matrix γ κ ℝ) : Matrix (ι ⊕ γ) (ι ⊕ γ) ℝ :=
  (fromBlocks H Cᵀ C 0).submatrix (Sum.map keep id) (Sum.map keep id)

/-- The parameters kept without correlations of factors — efa.py 101-102. -/
def keepO : Theta p m → Par p m := Sum.elim .inl fun i => .inr (.inr i)

open Classical in
/-- The covariance behind `se_params` — efa.py 324-325; factor_analysis.py 668: the block of the inverse times `2 / n`. -/
noncomputable def acov {ι γ : Type} [Fintype ι] [DecidableEq ι] [Fintype γ] [DecidableEq γ] (A : Matrix (ι ⊕ γ) (ι ⊕ γ) ℝ) (n : ℝ) :
    Option (Matrix ι ι ℝ) :=
  if IsUnit A.det then
    let Acov := A⁻¹
    some (of fun i j => Acov (.inl i) (.inl j) / n * 2.0)
  else none

/-- `_unrotated_constraint_derivs(L, Psi)` — factor_analysis.py 465-491: `Dpsi` has the unique variances as its data. -/
noncomputable def dUnrot (L : Mat p m) (Psi : Mat p p) : Matrix (Low m) (Theta p m) ℝ :=
  let Psi_inv : Mat p p := diagonal fun i => 1.0 / Psi i i
  let A := Lᵀ * Psi_inv
  let Dpsi : Matrix (Fin p × Fin p) (Fin p) ℝ := of fun x i => if x = (i, i) then Psi i i else 0
  let J1 := nmat m * ((1 : Mat m m) ⊗ₖ A)
  let J2 := -(A ⊗ₖ A)
  let J2 := (Dpsiᵀ * J2ᵀ)ᵀ
  of fun q => Sum.elim (J1 q.1) (J2 q.1)

/-- The number of rows of `constraint_jac` without rotation — factor_analysis.py 691-694: a mask of length `m²` on the
`m(m-1)/2` rows of `constraint_derivs`; numpy raises when the lengths differ. -/
def jacRows (m : ℕ) : Option ℕ := if m * m = m * (m - 1) / 2 then some (m * (m - 1) / 2) else none

end Verif.Fa.Old
