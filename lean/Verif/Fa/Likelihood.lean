import Verif.Fa.Theta
import Mathlib.Analysis.SpecialFunctions.Log.Basic
/-!
# Model of `pyfa2/likelihood.py` (`MLEstimator`, full-parameter path) and `pyfa2/inference.py`

`np.linalg.inv`, `np.linalg.solve` raise on singular matrices (`none`); `np.linalg.slogdet` gives the logarithm
of the absolute determinant.
-/
namespace Verif.Fa
open Matrix Verif.Np Verif.Index Verif.Vec

variable {p m : ℕ}

/-- `_sigma_parts` — likelihood.py 147-152: `LPhi`. -/
def lphi (p m : ℕ) (th : ℕ → ℝ) : Matrix (Fin p) (Fin m) ℝ := Lof p m th * phiOf p m th

/-- `_sigma_parts` — likelihood.py 147-152: `Sigma`. -/
def sigmaOf (p m : ℕ) (th : ℕ → ℝ) : Matrix (Fin p) (Fin p) ℝ :=
  lphi p m th * (Lof p m th)ᵀ + diagonal (psiOf p m th)

open Classical in
/-- `_F_inner` — likelihood.py 176-179. -/
noncomputable def mlF (m : ℕ) (S : Matrix (Fin p) (Fin p) ℝ) (th : ℕ → ℝ) : Option ℝ :=
  let Sigma := sigmaOf p m th
  if IsUnit Sigma.det then
    let lnd := Real.log |Sigma.det|
    let tr := (Sigma⁻¹ * S).trace
    some (lnd + tr)
  else none

/-- `_grad_inner` — likelihood.py 181-190, given `Sinv`. -/
noncomputable def mlGradV (m : ℕ) (S : Matrix (Fin p) (Fin p) ℝ) (th : ℕ → ℝ) (Sinv : Matrix (Fin p) (Fin p) ℝ) :
    ℕ → ℝ :=
  let L := Lof p m th
  let VRV := Sinv * (sigmaOf p m th - S) * Sinv
  let gL := flatF (VRV * lphi p m th)
  let X := Lᵀ * VRV * L
  let gPhi := fun k => ((vecl (entry X) m).getD k 0)
  concatRow p m (fun f => 2 * gL f) (fun k => 2 * gPhi k) (fun a => entry VRV a a)

noncomputable def mlGrad (m : ℕ) (S : Matrix (Fin p) (Fin p) ℝ) (th : ℕ → ℝ) : Option (ℕ → ℝ) :=
  (inv? (sigmaOf p m th)).map (mlGradV m S th)

/-- `_dsigma_inner` — likelihood.py 192-213: slab `f`. -/
def dsigma (p m : ℕ) (th : ℕ → ℝ) (f : ℕ) : Matrix (Fin p) (Fin p) ℝ :=
  let L := Lof p m th
  let LPhi := lphi p m th
  if f < p * m then
    let i := f / p
    let a := f % p
    let G : Matrix (Fin p) (Fin p) ℝ := Matrix.of fun x y => if (x : ℕ) = a then entry LPhi y i else 0
    Matrix.of fun x y => if (y : ℕ) = a then G x y + entry LPhi x i else G x y
  else if f < p * m + nS m then
    let k := f - p * m
    Matrix.of fun x y => entry L x (rowI m k) * entry L y (colJ m k) + entry L x (colJ m k) * entry L y (rowI m k)
  else
    let a := f - (p * m + nS m)
    Matrix.of fun x y => if (x : ℕ) = a ∧ (y : ℕ) = a then 1 else 0

/-- The array `H3_LPhi_3d` — likelihood.py 235-239. -/
def h3LPhi (YL : Matrix (Fin p) (Fin m) ℝ) (a i k : ℕ) : ℝ :=
  if i = colJ m k then 2.0 * entry YL a (rowI m k)
  else if i = rowI m k then 2.0 * entry YL a (colJ m k) else 0

/-- `_hessian_inner` — likelihood.py 215-248, given `Sinv`. -/
noncomputable def mlHessV (m : ℕ) (S : Matrix (Fin p) (Fin p) ℝ) (th : ℕ → ℝ) (Sinv : Matrix (Fin p) (Fin p) ℝ)
    (f g : ℕ) : ℝ :=
  let Sdiff := S - sigmaOf p m th
  let VSdiff := Sinv * Sdiff
  let W1 : ℕ → Matrix (Fin p) (Fin p) ℝ := fun g => Sinv * dsigma p m th g * Sinv
  let W : ℕ → Matrix (Fin p) (Fin p) ℝ := fun g => W1 g + (2.0 : ℝ) • (VSdiff * W1 g)
  let Hmain := ∑ x, ∑ y, dsigma p m th f x y * W g x y
  let Y := VSdiff * Sinv
  let YL := Y * Lof p m th
  let H := Hmain
  let H := if f < p * m ∧ g < p * m then
    H - entry (phiOf p m th) (f / p) (g / p) * (2.0 * entry Y (f % p) (g % p)) else H
  let H := if f < p * m ∧ (p * m ≤ g ∧ g < p * m + nS m) then
    H - h3LPhi YL (f % p) (f / p) (g - p * m) else H
  let H := if (p * m ≤ f ∧ f < p * m + nS m) ∧ g < p * m then
    H - h3LPhi YL (g % p) (g / p) (f - p * m) else H
  H

noncomputable def mlHess (m : ℕ) (S : Matrix (Fin p) (Fin p) ℝ) (th : ℕ → ℝ) : Option (ℕ → ℕ → ℝ) :=
  (inv? (sigmaOf p m th)).map (mlHessV m S th)

/-- `_score_jacobian_inner` — likelihood.py 250-252, given `Sinv`: row `f`. -/
noncomputable def scoreJacV (p m : ℕ) (th : ℕ → ℝ) (Sinv : Matrix (Fin p) (Fin p) ℝ) (f : ℕ) : List ℝ :=
  let M := Sinv * dsigma p m th f * Sinv
  vech (entry (Matrix.of fun x y : Fin p => -M x y * (2.0 - if x = y then 1 else 0))) p

/-- `_meat_inner` with `V_S = None` — likelihood.py 254-261. -/
noncomputable def meatGaussV (p m : ℕ) (th : ℕ → ℝ) (Sinv : Matrix (Fin p) (Fin p) ℝ) (n : ℝ) (f g : ℕ) : ℝ :=
  2.0 / n * ∑ x, ∑ y, dsigma p m th f x y * (Sinv * dsigma p m th g * Sinv) x y

/-- `_meat_inner` with `V_S` given — likelihood.py 262-263: `B V_S Bᵀ`. -/
noncomputable def meatV (p m : ℕ) (th : ℕ → ℝ) (Sinv : Matrix (Fin p) (Fin p) ℝ) (VS : ℕ → ℕ → ℝ) (f g : ℕ) : ℝ :=
  let B := fun f => scoreJacV p m th Sinv f
  ∑ s ∈ Finset.range (B g).length,
    (∑ r ∈ Finset.range (B f).length, (B f).getD r 0 * VS r s) * (B g).getD s 0

end Verif.Fa
