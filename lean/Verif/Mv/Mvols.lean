import Verif.Lmm.LmChol
/-!
# Model of the multivariate regression of `pyglm2/mvols.py`

`Mat`, `CholOk` and the lower triangle `Tri` are shared with the mixed model.  A coefficient is addressed by its response and term
instead of its position in `vec_F(B)`, an element of the Cholesky factor by its cell instead of its position in `lambda`.
-/
namespace Verif.Mv.Mvols
open Matrix Kronecker Verif.Fa Verif.Like Verif.Lmm Verif.Lmm.Lm
variable {n p q : ℕ}

/-- The positions of `theta`. -/
abbrev Ix (p q : ℕ) := (Fin q × Fin p) ⊕ Tri q

structure Data (n p q : ℕ) where
  X : Mat n p
  Y : Mat n q
  w : Fin n → ℝ

/-- `precision_chol_to_lambda(L)` — 49-52. -/
noncomputable def lamOf (L : Mat q q) (a : Tri q) : ℝ := if a.1.1 = a.1.2 then Real.log (L a.1.1 a.1.2) else L a.1.1 a.1.2

/-- `lambda_to_precision_chol(lamb)` — 54-59. -/
noncomputable def cholOf (lam : Tri q → ℝ) : Mat q q := ltri fun a => if a.1.1 = a.1.2 then Real.exp (lam a) else lam a

/-- `pack(beta, precision_chol)` — 61-63. -/
noncomputable def pack (B : Mat p q) (L : Mat q q) : Ix p q → ℝ := Sum.elim (fun x => B x.2 x.1) (lamOf L)

/-- `unpack_beta(theta)` — 65-67. -/
def beta (th : Ix p q → ℝ) : Mat p q := of fun i j => th (Sum.inl (j, i))

/-- `unpack_precision_chol(theta)` — 69-70. -/
noncomputable def pchol (th : Ix p q → ℝ) : Mat q q := cholOf fun a => th (Sum.inr a)

/-- `_loglike` — 285-294: minus the log likelihood. -/
noncomputable def nll (d : Data n p q) (th : Ix p q → ℝ) : ℝ :=
  let B := beta th
  let L := pchol th
  let E := d.Y - d.X * B
  let U := E * L
  let logDet := ∑ i, Real.log (L i i)
  let neff := ∑ i, d.w i
  let quad := ∑ i, (∑ k, U i k * U i k) * d.w i
  let ll := logDet * neff - 0.5 * quad - 0.5 * q * Real.log (2 * Real.pi) * neff
  (-ll)

/-- `_gradient` — 302-314. -/
noncomputable def gradient (d : Data n p q) (th : Ix p q → ℝ) : Ix p q → ℝ :=
  let B := beta th
  let L := pchol th
  let Om := L * Lᵀ
  let E := d.Y - d.X * B
  let OmE := E * Om
  let WX := diagonal d.w * d.X
  let WU := diagonal d.w * (E * L)
  let M := Eᵀ * WU
  let gb := WXᵀ * OmE
  let gl := fun a : Tri q => if a.1.1 = a.1.2 then (∑ i, d.w i) - L a.1.1 a.1.1 * M a.1.1 a.1.1 else -(M a.1.1 a.1.2)
  (-(Sum.elim (fun x => gb x.2 x.1) gl))

/-- `_gradient_i` — 322-336. -/
noncomputable def gradientI (d : Data n p q) (th : Ix p q → ℝ) (i : Fin n) : Ix p q → ℝ :=
  let B := beta th
  let L := pchol th
  let Om := L * Lᵀ
  let E := d.Y - d.X * B
  let OmE := E * Om
  let U := E * L
  let gb := fun x : Fin q × Fin p => OmE i x.1 * d.X i x.2
  let gl := fun a : Tri q => if a.1.1 = a.1.2 then 1 - L a.1.1 a.1.1 * E i a.1.1 * U i a.1.1 else -E i a.1.1 * U i a.1.2
  fun x => -(Sum.elim gb gl x) * d.w i

/-- `factor` of `_omega_first_stack` — 111. -/
noncomputable def factor (L : Mat q q) (a : Tri q) : ℝ := if a.1.1 = a.1.2 then L a.1.1 a.1.1 else 1

/-- `_omega_first_stack` — 103-117: a row and a column are incremented. -/
noncomputable def omStack (L : Mat q q) (a : Tri q) : Mat q q :=
  of fun k l => (if k = a.1.1 then factor L a * L l a.1.2 else 0) + (if l = a.1.1 then factor L a * L k a.1.2 else 0)

/-- `_hessian` — 344-371. -/
noncomputable def hessian (d : Data n p q) (th : Ix p q → ℝ) : Matrix (Ix p q) (Ix p q) ℝ :=
  let B := beta th
  let L := pchol th
  let Om := L * Lᵀ
  let E := d.Y - d.X * B
  let WX := diagonal d.w * d.X
  let WE := diagonal d.w * E
  let XtWX := d.Xᵀ * WX
  let XtWE := d.Xᵀ * WE
  let EtWE := Eᵀ * WE
  let cross : Matrix (Fin q × Fin p) (Tri q) ℝ := of fun x a => (XtWE * omStack L a) x.2 x.1
  let DD : Matrix (Tri q) (Tri q) ℝ := of fun a b =>
    factor L a * factor L b * EtWE a.1.1 b.1.1 * if a.1.2 = b.1.2 then 1 else 0
  let inner := fun a : Tri q => ∑ k, ∑ l, omStack L a k l * EtWE k l
  let Hl := -DD + diagonal fun a : Tri q => if a.1.1 = a.1.2 then -0.5 * inner a else 0
  (-(fromBlocks (-(Om ⊗ₖ XtWX)) cross crossᵀ Hl))

/-- `_precision_chol_from_sigma(Sigma)` — 96-100. -/
noncomputable def pcholOfSigma (ch : Mat q q → Option (Mat q q)) (S : Mat q q) : Option (Mat q q) := do
  let Ls ← ch S
  let Li ← inv? Ls
  ch (Liᵀ * Li)

/-- `_closed_form_theta` — 272-282: `sqrt(weights)` multiplies both matrices; negative weights give `nan`. -/
noncomputable def closedForm (cp : Mat p p → Option (Mat p p)) (ch : Mat q q → Option (Mat q q)) (d : Data n p q) :
    Option (Ix p q → ℝ) := do
  let sw := diagonal fun i => √(d.w i)
  let Xw := sw * d.X
  let Yw := sw * d.Y
  let Lx ← cp (Xwᵀ * Xw)
  let Li ← inv? Lx
  let B := Liᵀ * (Li * (Xwᵀ * Yw))
  let E := d.Y - d.X * B
  let S := (1 / ∑ i, d.w i) • (Eᵀ * (diagonal d.w * E))
  let L ← pcholOfSigma ch S
  return pack B L

/-- `sigma_mle` of `_store_estimates` — 421-422. -/
noncomputable def sigmaMle (th : Ix p q → ℝ) : Option (Mat q q) := do
  let Li ← inv? (pchol th)
  return Liᵀ * Li

/-- `params_cov` and its leading block `beta_cov` — 411, 417: `pinv` is the inverse of a regular matrix. -/
noncomputable def paramsCov (d : Data n p q) (th : Ix p q → ℝ) :
    Option (Matrix (Ix p q) (Ix p q) ℝ × Matrix (Fin q × Fin p) (Fin q × Fin p) ℝ) :=
  open Classical in
  if IsUnit (hessian d th).det then
    let C := (hessian d th)⁻¹
    some (C, C.toBlocks₁₁)
  else none

end Verif.Mv.Mvols
