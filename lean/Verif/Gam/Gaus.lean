import Verif.Fa.Rotation

/-!
Model of `pystatsm/pygam/gaussian_additive_model.py`.  For the Gaussian family with identity link the
working response of `get_wz` (lines 82-90) is `y` and its weights are one, and the weights of
`hess_dev_beta` (lines 138-145) are one; both are written that way here.  `np.linalg.solve`,
`np.linalg.inv` and `np.linalg.pinv` of the penalised Gram matrix are `Verif.Fa.inv?`, which is `none`
when the matrix is singular (there `pinv` would go on).  The parameter `theta` is its logarithms of the
smoothing parameters `rho` and its last entry `tau`.
-/

namespace Verif.Gam
open Matrix Verif.Fa

/-- What the constructor stores. -/
structure Gaus (n p s : ℕ) where
  X : Matrix (Fin n) (Fin p) ℝ
  y : Fin n → ℝ
  S : Fin s → Matrix (Fin p) (Fin p) ℝ
  ranks : Fin s → ℝ
  ldS : Fin s → ℝ

variable {n p s : ℕ}

/-- `get_penalty_mat` (lines 119-121). -/
def Gaus.pen (m : Gaus n p s) (lam : Fin s → ℝ) : Matrix (Fin p) (Fin p) ℝ := ∑ i, lam i • m.S i

/-- `logdetS` (lines 123-127). -/
noncomputable def Gaus.logdetS (m : Gaus n p s) (lam : Fin s → ℝ) (phi : ℝ) : ℝ := ∑ i, (m.ranks i * Real.log (lam i / phi) + m.ldS i)

/-- `self.mp = self.nx - np.sum(self.ranks)` (line 65). -/
def Gaus.mp (m : Gaus n p s) : ℝ := p - ∑ i, m.ranks i

/-- `lam = np.exp(theta[:-1])`. -/
noncomputable def expv (rho : Fin s → ℝ) (i : Fin s) : ℝ := Real.exp (rho i)

/-- `beta = np.linalg.solve(XtX + S, X.T.dot(y))`. -/
noncomputable def Gaus.beta (m : Gaus n p s) (lam : Fin s → ℝ) : Option (Fin p → ℝ) :=
  (inv? (m.Xᵀ * m.X + m.pen lam)).map fun V => V *ᵥ (m.Xᵀ *ᵥ m.y)

/-- `reml` (lines 147-161). -/
noncomputable def Gaus.reml (m : Gaus n p s) (rho : Fin s → ℝ) (tau : ℝ) : Option ℝ := do
  let lam := expv rho
  let phi := Real.exp tau
  let S := m.pen lam
  let beta ← m.beta lam
  let r := m.y - m.X *ᵥ beta
  let rss := r ⬝ᵥ r
  let bsb := beta ⬝ᵥ (S *ᵥ beta)
  let ldh := Real.log |((1 / phi) • (m.Xᵀ * m.X) + (1 / phi) • S).det|
  let lds := m.logdetS lam phi
  let Dp := (rss + bsb) / phi
  let K := ldh - lds
  let ls := n * Real.log (2 * Real.pi * phi)
  some ((Dp + K + ls) / 2)

/-- `gradient` (lines 163-183): the entries of the smoothing parameters and the last entry. -/
noncomputable def Gaus.gradient (m : Gaus n p s) (rho : Fin s → ℝ) (tau : ℝ) : Option ((Fin s → ℝ) × ℝ) := do
  let lam := expv rho
  let phi := Real.exp tau
  let S := m.pen lam
  let beta ← m.beta lam
  let H ← inv? (m.Xᵀ * m.X + S)
  let g : Fin s → ℝ := fun i =>
    let dbsb := beta ⬝ᵥ (m.S i *ᵥ beta) * lam i / phi
    let dldh := (H * m.S i).trace * lam i
    let dlds := m.ranks i
    dbsb + dldh - dlds
  let r := m.y - m.X *ᵥ beta
  let rss := r ⬝ᵥ r
  let bsb := beta ⬝ᵥ (S *ᵥ beta)
  let gl := -(rss + bsb) / phi + n - m.mp
  some (fun i => g i / 2, gl / 2)

/-- `grad_beta_rho` (lines 129-136), with the matrix `2 X'X + 2 S` of `hess_dev_beta`. -/
noncomputable def Gaus.gradBeta (m : Gaus n p s) (beta : Fin p → ℝ) (alpha : Fin s → ℝ) : Option (Fin s → Fin p → ℝ) :=
  (inv? ((2 : ℝ) • (m.Xᵀ * m.X) + (2 : ℝ) • m.pen alpha)).map fun A =>
    fun i => ((-alpha i) • (A *ᵥ (m.S i *ᵥ beta))) |> fun v => (2 : ℝ) • v

/-- `hessian` (lines 185-209): the block of the smoothing parameters, the last row and column, the last
entry. The loop runs over `i ≤ j` and stores `H[i, j] = H[j, i]`. -/
noncomputable def Gaus.hessian (m : Gaus n p s) (rho : Fin s → ℝ) (tau : ℝ) :
    Option ((Fin s → Fin s → ℝ) × (Fin s → ℝ) × ℝ) := do
  let lam := expv rho
  let phi := Real.exp tau
  let S := m.pen lam
  let beta ← m.beta lam
  let A ← inv? (m.Xᵀ * m.X + S)
  let db ← m.gradBeta beta lam
  let t1 : Fin s → Fin s → ℝ := fun i j => if i = j then (beta ⬝ᵥ (m.S i *ᵥ beta)) * lam i / (2 * phi) else 0
  let t2 : Fin s → Fin s → ℝ := fun i j =>
    lam i / (2 * phi) * (db j ⬝ᵥ (m.S i *ᵥ beta) + (m.S i *ᵥ beta) ⬝ᵥ db j)
  let t3 : Fin s → Fin s → ℝ := fun i j => -lam i * lam j / 2 * (A * m.S i * A * m.S j).trace
  let t4 : Fin s → Fin s → ℝ := fun i j => if i = j then lam i / 2 * (A * m.S i).trace else 0
  let H : Fin s → Fin s → ℝ := fun i j => if i ≤ j then t1 i j + t2 i j + t3 i j + t4 i j else t1 j i + t2 j i + t3 j i + t4 j i
  let cross : Fin s → ℝ := fun j => ∑ i, if i ≤ j then -t1 i j else 0
  let r := m.y - m.X *ᵥ beta
  let rss := r ⬝ᵥ r
  let bsb := beta ⬝ᵥ (S *ᵥ beta)
  some (H, cross, (rss + bsb) / (phi * 2))

/-- `self.f.deviance(self.y, mu=...).sum()`. -/
def Gaus.dev (m : Gaus n p s) (beta : Fin p → ℝ) : ℝ := (m.y - m.X *ᵥ beta) ⬝ᵥ (m.y - m.X *ᵥ beta)

open Classical in
/-- The loop of `pirls` (lines 104-116) with `k` iterations left; `b` is what `solve_pls` returns. A quotient by
zero is `nan` or `inf`, for which the comparison is false. -/
noncomputable def Gaus.pirlsLoop (m : Gaus n p s) (tol : ℝ) (b : Fin p → ℝ) : ℕ → (Fin p → ℝ) → ℝ → (Fin p → ℝ) × ℝ × Bool
  | 0, beta, dev => (beta, dev, false)
  | k + 1, beta, dev =>
    let devNew := m.dev b
    if dev < devNew then (beta, dev, false)
    else if devNew ≠ 0 ∧ |dev - devNew| / devNew < tol then (beta, dev, true)
    else Gaus.pirlsLoop m tol b k b devNew

/-- `pirls` (lines 98-117): `beta`, `dev`, `success`; `eta` and the iteration count are left out (with
no iterations the code fails on the unbound `i`). -/
noncomputable def Gaus.pirls (m : Gaus n p s) (alpha : Fin s → ℝ) (nIters : ℕ) (tol : ℝ) : Option ((Fin p → ℝ) × ℝ × Bool) :=
  (m.beta alpha).map fun b => m.pirlsLoop tol b nIters 0 (m.dev 0)

/-- `Vb` (line 266). -/
noncomputable def Gaus.covB (m : Gaus n p s) (lam : Fin s → ℝ) (scale : ℝ) : Option (Matrix (Fin p) (Fin p) ℝ) :=
  (inv? (m.Xᵀ * m.X + m.pen lam)).map fun V => scale • V

/-- `self.edf = np.trace(np.linalg.inv(Vb*XtX/scale))` (line 276): `*` is entry by entry. -/
noncomputable def Gaus.edf (m : Gaus n p s) (Vb : Matrix (Fin p) (Fin p) ℝ) (scale : ℝ) : Option ℝ :=
  (inv? fun i j => Vb i j * (m.Xᵀ * m.X) i j / scale).map Matrix.trace

/-- `Vb.dot(XtX*scale).dot(Vb)`, the first term of `Vf` (line 271). -/
noncomputable def Gaus.covF (m : Gaus n p s) (Vb : Matrix (Fin p) (Fin p) ℝ) (scale : ℝ) : Matrix (Fin p) (Fin p) ℝ :=
  Vb * (scale • (m.Xᵀ * m.X)) * Vb

end Verif.Gam
