import Verif.Fa.OldRotation
import Mathlib.Data.Matrix.ColumnRowPartitioned
import Mathlib.Analysis.SpecialFunctions.Log.Basic
import Mathlib.Analysis.SpecialFunctions.Exp
/-!
# Model of the likelihoods of `pyfa/efa.py` and `pyfa/factor_analysis.py`

The parameters are functions on a sum of index types: stacked loadings (column, row), the strict lower triangle of the
correlations in the order of `vecl`, as pairs (column, row), and the unique variances.  `np.linalg.slogdet` gives the
logarithm of the absolute determinant; `np.linalg.inv` and `np.linalg.solve` raise on singular matrices (`none`);
`np.linalg.pinv` is a parameter.  At least one factor is assumed (`invecl` returns a 1 × 1 matrix for no factors).
-/
namespace Verif.Fa.Old
open Matrix Kronecker

variable {p m : ℕ}

/-- Positions of `vecl`. -/
abbrev Low (m : ℕ) := {q : Fin m × Fin m // q.1 < q.2}

/-- Positions of `vech`. -/
abbrev Tri (m : ℕ) := {q : Fin m × Fin m // q.1 ≤ q.2}

/-- The positions kept by `vech(np.eye(m)) != 1` — efa.py 44; factor_analysis.py 272. -/
def ndg (q : Low m) : Tri m := ⟨q.1, q.2.le⟩

/-- `vech(X)` — linalg_operations.py 332-339. -/
def vech (X : Mat p p) : Tri p → ℝ := fun q => X q.1.2 q.1.1

/-- `vecl(X)` — linalg_operations.py 358-365. -/
def vecl (X : Mat p p) : Low p → ℝ := fun q => X q.1.2 q.1.1

/-- `invecl(v)` — linalg_operations.py 367-380: ones on the diagonal. -/
def invecl (v : Low m → ℝ) : Mat m m := of fun i j =>
  if h : j < i then v ⟨(j, i), h⟩ else if h : i < j then v ⟨(i, j), h⟩ else 1

/-- `lmat(p)` — special_mats.py 23-40. -/
def lmat (p : ℕ) : Matrix (Tri p) (Fin p × Fin p) ℝ := of fun q x => if x = q.1 then 1 else 0

/-- `dmat(p)` — special_mats.py 60-81. -/
def dmat (p : ℕ) : Matrix (Fin p × Fin p) (Tri p) ℝ := of fun x q => if x = q.1 ∨ x.swap = q.1 then 1 else 0

/-- `nmat(p)` — special_mats.py 83-87. -/
def nmat (p : ℕ) : Matrix (Fin p × Fin p) (Fin p × Fin p) ℝ := kmat p p + 1

/-! ## `efa.py` -/

/-- The layout of the parameters — efa.py 93-109; factor_analysis.py 226-246: `ixl`, `ixs`, `ixr`. -/
abbrev Par (p m : ℕ) := (Fin m × Fin p) ⊕ Low m ⊕ Fin p

/-- `model_matrices_to_params(L, Phi, psi)` — efa.py 112-137. -/
def toParams (L : Mat p m) (Phi : Mat m m) (psi : Fin p → ℝ) : Par p m → ℝ :=
  Sum.elim (vec L) (Sum.elim (vecl Phi) psi)

/-- `params_to_model_matrices` — efa.py 382-386; factor_analysis.py 248-252. -/
def parL (th : Par p m → ℝ) : Mat p m := invec fun x => th (.inl x)
def parPhi (th : Par p m → ℝ) : Mat m m := invecl fun q => th (.inr (.inl q))
def parPsi (th : Par p m → ℝ) : Mat p p := diagonal fun i => th (.inr (.inr i))

/-- `sigma_params`, `implied_cov_params` — efa.py 388-391, 459-462; factor_analysis.py 300-318. -/
def sigma (th : Par p m → ℝ) : Mat p p := parL th * parPhi th * (parL th)ᵀ + parPsi th

open Classical in
/-- The function of the covariance in `loglike_params` — efa.py 464-469; factor_analysis.py 134-153, 320-339. -/
noncomputable def mlOf (S Sigma : Mat p p) : Option ℝ :=
  if IsUnit Sigma.det then
    let lndS := Real.log |Sigma.det|
    let trSV := (Sigma⁻¹ * S).trace
    some (lndS + trSV)
  else none

noncomputable def loglikeP (S : Mat p p) (th : Par p m → ℝ) : Option ℝ := mlOf S (sigma th)

/-- `gradient_params` — efa.py 471-483; factor_analysis.py 341-367. -/
def gradientP (pinv : Mat p p → Mat p p) (S : Mat p p) (th : Par p m → ℝ) : Par p m → ℝ :=
  let L := parL th
  let Phi := parPhi th
  let Sigma := L * Phi * Lᵀ + parPsi th
  let V := pinv Sigma
  let VRV := V * (Sigma - S) * V
  let gL := fun x => 2 * vec (VRV * (L * Phi)) x
  let gPhi := fun q => 2 * vecl (Lᵀ * VRV * L) q
  let gPsi := fun i => VRV i i
  Sum.elim gL (Sum.elim gPhi gPsi)

/-- `dsigma_params` — efa.py 393-399; factor_analysis.py 254-276. -/
def dsigmaP (th : Par p m → ℝ) : Matrix (Tri p) (Par p m) ℝ :=
  let L := parL th
  let Phi := parPhi th
  let DLambda := lmat p * nmat p * ((L * Phi) ⊗ₖ (1 : Mat p p))
  let DPhi := (lmat p * (L ⊗ₖ L) * dmat m).submatrix id ndg
  let DPsi := (lmat p * diagonal (vec (1 : Mat p p))).submatrix id fun i => (i, i)
  fromCols DLambda (fromCols DPhi DPsi)

/-- `E[x] = c`. -/
def setE (E : Mat p p) (x : Fin p × Fin p) (c : ℝ) : Mat p p := of fun a b => if (a, b) = x then c else E a b

/-- The order of the loops over `i` and `j` in `range(i, n_vars)` — efa.py 406-407. -/
def cells (p : ℕ) : List (Fin p × Fin p) :=
  (List.finRange p).flatMap fun i => ((List.finRange p).filter fun j => i ≤ j).map fun j => (i, j)

/-- The array `E` after the iterations over `l`: each sets its element to one and afterwards to zero —
efa.py 408-415; factor_analysis.py 286-293. -/
def eLoop (E : Mat p p) (l : List (Fin p × Fin p)) : Mat p p := l.foldl (fun E x => setE (setE E x 1) x 0) E

/-- The array `E` in iteration `q` when `T` is formed. -/
def eAt (E : Mat p p) (q : Tri p) : Mat p p := setE (eLoop E ((cells p).takeWhile fun x => x ≠ q.1)) q.1 1

/-- The array `E` after the loops. -/
def eEnd (E : Mat p p) : Mat p p := eLoop E (cells p)

/-- `d2sigma_params` — efa.py 401-419, with `E = 0`; factor_analysis.py 278-297, with the array `self.E`. -/
def d2sigmaP (E : Mat p p) (th : Par p m → ℝ) (q : Tri p) : Matrix (Par p m) (Par p m) ℝ :=
  let T := eAt E q + (eAt E q)ᵀ
  let H11 := parPhi th ⊗ₖ T
  let H22 := ((1 : Mat m m) ⊗ₖ (T * parL th) * dmat m).submatrix id ndg
  of fun a b => match a, b with
    | .inl x, .inl y => H11 y x
    | .inl x, .inr (.inl q) => H22ᵀ q x
    | .inr (.inl q), .inl x => H22 x q
    | _, _ => 0

/-- The common part of the Hessians — efa.py 421-457; factor_analysis.py 189-224, 369-417: `G` and `Hp` for a
parametrisation. -/
noncomputable def hessOf {κ : Type} [Fintype κ] (S Sigma : Mat p p) (G : Matrix (Tri p) κ ℝ) (Hp : Tri p → Matrix κ κ ℝ) :
    Option (Matrix κ κ ℝ) :=
  (inv? Sigma).map fun V =>
    let Sdiff := S - Sigma
    let d := vech Sdiff
    let DGp := dmat p * G
    let W1 := V ⊗ₖ V
    let W2 := V ⊗ₖ (V * Sdiff * V)
    let H1 := (0.5 : ℝ) • (DGpᵀ * W1 * DGp)
    let H2 := (1.0 : ℝ) • (DGpᵀ * W2 * DGp)
    let W := (dmat p)ᵀ * W1 * dmat p
    let dW := d ᵥ* W
    let H3 := ∑ k, dW k • Hp k
    (2.0 : ℝ) • (H1 + H2 - (1 / 2.0 : ℝ) • H3)

/-- `hessian_params` — efa.py 421-457, with `E = 0`; `hessian_augmented` — factor_analysis.py 369-417, with
the array `self.E`. -/
noncomputable def hessianP (E S : Mat p p) (th : Par p m → ℝ) : Option (Matrix (Par p m) (Par p m) ℝ) :=
  hessOf S (sigma th) (dsigmaP th) (d2sigmaP E th)

/-! ## `factor_analysis.py`: loadings and logarithms of the unique variances -/

/-- The layout of `theta` — factor_analysis.py 86-94: `lix`, `pix`. -/
abbrev Theta (p m : ℕ) := (Fin m × Fin p) ⊕ Fin p

/-- `model_matrices` — factor_analysis.py 96-114. -/
def thL (th : Theta p m → ℝ) : Mat p m := invec fun x => th (.inl x)
noncomputable def thPsi (th : Theta p m → ℝ) : Mat p p := diagonal fun i => Real.exp (th (.inr i))

/-- `implied_cov` — factor_analysis.py 116-132. -/
noncomputable def sigmaT (th : Theta p m → ℝ) : Mat p p := thL th * (thL th)ᵀ + thPsi th

noncomputable def loglikeT (S : Mat p p) (th : Theta p m → ℝ) : Option ℝ := mlOf S (sigmaT th)

/-- `gradient` — factor_analysis.py 155-179. -/
noncomputable def gradientT (pinv : Mat p p → Mat p p) (S : Mat p p) (th : Theta p m → ℝ) : Theta p m → ℝ :=
  let L := thL th
  let Psi := thPsi th
  let Sigma := L * Lᵀ + Psi
  let V := pinv Sigma
  let VRV := V * (Sigma - S) * V
  let g1 := fun x => 2 * vec (VRV * L) x
  let g2 := fun i => (VRV * Psi) i i
  Sum.elim g1 g2

/-- `dsigma` — factor_analysis.py 182-187. -/
noncomputable def dsigmaT (th : Theta p m → ℝ) : Matrix (Tri p) (Theta p m) ℝ :=
  let DLambda := lmat p * nmat p * (thL th ⊗ₖ (1 : Mat p p))
  let DPsi := (lmat p * diagonal (vec (thPsi th))).submatrix id fun i => (i, i)
  fromCols DLambda DPsi

/-- The slabs of `hessian` — factor_analysis.py 202-218. -/
noncomputable def d2sigmaT (E : Mat p p) (th : Theta p m → ℝ) (q : Tri p) : Matrix (Theta p m) (Theta p m) ℝ :=
  let T := eAt E q + (eAt E q)ᵀ
  let H11 := (1 : Mat m m) ⊗ₖ T
  let eij : Fin p → ℝ := fun a => if q.1.1 = q.1.2 then (if a = q.1.1 then 1 else 0) else 0
  let H22 := fun a => thPsi th a a * eij a
  of fun a b => match a, b with
    | .inl x, .inl y => H11 y x
    | .inr i, .inr j => if i = j then H22 i else 0
    | _, _ => 0

/-- `hessian` — factor_analysis.py 189-224. -/
noncomputable def hessianT (E S : Mat p p) (th : Theta p m → ℝ) : Option (Matrix (Theta p m) (Theta p m) ℝ) :=
  hessOf S (sigmaT th) (dsigmaT th) (d2sigmaT E th)

end Verif.Fa.Old
