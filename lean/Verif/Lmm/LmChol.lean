import Verif.Lmm.Lm
/-!
# Model of the Cholesky parameters of class `LMM` (`pylmm/lmm.py`, `pylmm/ranef_terms.py`)

A position of a stacked matrix (`vec`) is the pair of its column and row, so that `np.kron` is the Kronecker product of
Mathlib; a position of a stacked lower triangle (`vech`) is an element of `Tri`.
-/
namespace Verif.Lmm.Lm
open Matrix Kronecker Verif.Fa Verif.Like
variable {T : Terms} {n p q r : ℕ}

/-- `vech(A)` — linalg_operations.py 333-339. -/
def vechM (A : Mat r r) : Tri r → ℝ := fun a => A a.1.1 a.1.2

/-- `invech_chol(lvec)` — linalg_operations.py 383-388. -/
def ltri (et : Tri r → ℝ) : Mat r r := of fun a b => if h : b ≤ a then et ⟨(a, b), h⟩ else 0

/-- `lmat(p)` — special_mats.py 37-40. -/
def elim (r : ℕ) : Matrix (Tri r) (Fin r × Fin r) ℝ := of fun a x => if x = (a.1.2, a.1.1) then 1 else 0

/-- `kmat(p, p)` — special_mats.py 55-58. -/
def comm (r : ℕ) : Matrix (Fin r × Fin r) (Fin r × Fin r) ℝ := of fun x y => if y = (x.2, x.1) then 1 else 0

/-- `nmat(p)` — special_mats.py 83-87. -/
def symmz (r : ℕ) : Matrix (Fin r × Fin r) (Fin r × Fin r) ℝ := comm r + 1

/-- `dg_dchol` for one term — lmm.py 201-209. -/
def dgDchol (L : Mat r r) : Matrix (Tri r) (Tri r) ℝ := elim r * (symmz r * (L ⊗ₖ (1 : Mat r r))) * (elim r)ᵀ

/-- `get_d2_chol(p)[t]` — ranef_terms.py 17-41: the loop runs over the lower triangle in the order of `vech`. -/
def d2Chol (t : Tri r) : Matrix (Tri r) (Tri r) ℝ :=
  let S : Mat r r := single t.1.1 t.1.2 1
  elim r * ((1 : Mat r r) ⊗ₖ (S + Sᵀ)) * (elim r)ᵀ

/-- `inverse_transform_theta` without the last parameter — 98-104. -/
def fromChol (et : T.Par → ℝ) : T.Par → ℝ := fun j => vechM (ltri (Terms.sl et j.1) * (ltri (Terms.sl et j.1))ᵀ) j.2

/-- `inverse_transform_theta` — 98-104. -/
noncomputable def invTransform (et : T.Par → ℝ) (l : ℝ) : (T.Par → ℝ) × ℝ := (fromChol et, Real.exp l)

open Classical in
/-- `transform_theta` — 90-96: the Cholesky factorisation raises for a matrix that is not positive definite. -/
noncomputable def transform (ch : (k : ℕ) → Mat k k → Option (Mat k k)) (th : T.Par → ℝ) (s2 : ℝ) : Option ((T.Par → ℝ) × ℝ) :=
  if h : ∀ k, (ch _ (invech (Terms.sl th k))).isSome then
    some (fun j => vechM ((ch _ (invech (Terms.sl th j.1))).get (h j.1)) j.2, Real.log s2)
  else none

/-- `Jf` padded with the derivative of the residual variance — 225-230, 234-241; `update_chol` is 532-538. -/
noncomputable def jacF (et : T.Par → ℝ) (l : ℝ) : Matrix (T.Par ⊕ Unit) (T.Par ⊕ Unit) ℝ :=
  fromBlocks (blockDiagonal' fun k => dgDchol (ltri (Terms.sl et k))) 0 0 (of fun _ _ => Real.exp l)

/-- `gradient_chol(theta_chol, reml)` — 224-231. -/
noncomputable def gradChol (cq : Mat q q → Option (Mat q q)) (e : T.RE ≃ Fin q) (m : Mme T n p) (tr tr' reml : Bool)
    (et : T.Par → ℝ) (l : ℝ) : Option (T.Par ⊕ Unit → ℝ) := do
  let (th, s2) := invTransform et l
  let (gG, gR) ← gradient cq e m tr tr' reml th s2
  let Jg : T.Par ⊕ Unit → ℝ := Sum.elim gG fun _ => gR
  return Jg ᵥ* jacF et l

/-- `hessian_chol(theta_chol, reml)` — 233-253: `B[ix, ix[:, None]]` is the transposed block. -/
noncomputable def hessChol (cq : Mat q q → Option (Mat q q)) (e : T.RE ≃ Fin q) (m : Mme T n p) (tr tr' reml : Bool)
    (et : T.Par → ℝ) (l : ℝ) : Option (Matrix (T.Par ⊕ Unit) (T.Par ⊕ Unit) ℝ) := do
  let (th, s2) := invTransform et l
  let (HG, HGR, HR) ← hessian cq e m reml th s2
  let (gG, gR) ← gradient cq e m tr tr' reml th s2
  let Hq : Matrix (T.Par ⊕ Unit) (T.Par ⊕ Unit) ℝ :=
    fromBlocks (of HG) (of fun i _ => HGR i) (of fun _ i => HGR i) (of fun _ _ => HR)
  let Jf := jacF et l
  let A := Jfᵀ * Hq * Jf
  let C := fun k : Fin T.K => ∑ t : Tri (T.nrv k), gG ⟨k, t⟩ • d2Chol t
  let B : Matrix (T.Par ⊕ Unit) (T.Par ⊕ Unit) ℝ := fromBlocks (blockDiagonal' fun k => (C k)ᵀ) 0 0 (of fun _ _ => gR * Real.exp l)
  return A + B

end Verif.Lmm.Lm
