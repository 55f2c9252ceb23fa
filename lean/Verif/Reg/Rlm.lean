import Verif.Reg.Nb2
import Verif.Robust.Model
import Verif.Fa.Rotation
/-!
# `RobustLM` (pystatsm/pyrobust/rls.py)

`theta = (b, log s)`; the criterion `f` is any triple `rho`, `psi`, `phi` (the code has `Huber()`). The optimiser, the solver `nwls` and
the median absolute deviation are parameters.
-/
namespace Verif.Reg
open Matrix Real Verif.Robust Verif.Fa

variable {n p : ℕ}

/-- The methods of the criterion that `RobustLM` calls. -/
structure Crit where
  rho : ℝ → ℝ
  psi : ℝ → ℝ
  phi : ℝ → ℝ

/-- `self.f = Huber()` (rls.py 36). -/
noncomputable def huberCrit : Crit where
  rho := fun x => huberRho (huberInit 1.345) x none
  psi := fun x => huberPsi (huberInit 1.345) x none
  phi := fun x => huberPhi (huberInit 1.345) x none

/-- `y - X b`. -/
def resid (X : Matrix (Fin n) (Fin p) ℝ) (y : Fin n → ℝ) (b : Fin p → ℝ) : Fin n → ℝ := fun i => y i - (X *ᵥ b) i

/-- `rho` (rls.py 73-78). -/
noncomputable def rlmRho (f : Crit) (a : ℝ) (X : Matrix (Fin n) (Fin p) ℝ) (y : Fin n → ℝ) (theta : Fin (p + 1) → ℝ) : ℝ :=
  let s := exp (lastP theta)
  let r := resid X y (fstPart theta)
  ∑ i, (f.rho (r i / s) * s + s * a)

/-- `grad` (rls.py 80-89). -/
noncomputable def rlmGrad (f : Crit) (a : ℝ) (X : Matrix (Fin n) (Fin p) ℝ) (y : Fin n → ℝ) (theta : Fin (p + 1) → ℝ) : Fin (p + 1) → ℝ :=
  let s := exp (lastP theta)
  let r := resid X y (fstPart theta)
  let u := fun i => r i / s
  let gb := fun j => -∑ i, X i j * f.psi (u i)
  let gs := (∑ i, (f.rho (u i) - f.psi (u i) * u i + a)) * s
  concat gb (fun _ : Fin 1 => gs)

/-- `hessian` (rls.py 91-107). -/
noncomputable def rlmHess (f : Crit) (a : ℝ) (X : Matrix (Fin n) (Fin p) ℝ) (y : Fin n → ℝ) (theta : Fin (p + 1) → ℝ) : Matrix (Fin (p + 1)) (Fin (p + 1)) ℝ :=
  let s := exp (lastP theta)
  let r := resid X y (fstPart theta)
  let u := fun i => r i / s
  let Hbb : Matrix (Fin p) (Fin p) ℝ := fun j k => (∑ i, X i j * f.phi (u i) * X i k) / s
  let Hbs : Fin p → ℝ := fun j => ∑ i, X i j * (f.phi (u i) * r i / s)
  let Hss := ∑ i, (f.phi (u i) * r i ^ 2 / s + (f.rho (u i) - f.psi (u i) * u i + a) * s)
  block Hbb (fun j _ => Hbs j) (fun _ j => Hbs j) (fun _ _ => Hss)

/-- The weights of `irwls` (rls.py 121-122). -/
noncomputable def irwlsW (psi : ℝ → ℝ) (s : ℝ) (r : Fin n → ℝ) : Fin n → ℝ := fun i =>
  let u := r i / s
  sqrt (psi u / u)

/-- One pass of `irwls` (rls.py 115-132) with `scale="mad"`. -/
noncomputable def irwlsStep (f : Crit) (mad : (Fin n → ℝ) → ℝ) (nwls : (Fin n → ℝ) → Fin p → ℝ) (X : Matrix (Fin n) (Fin p) ℝ) (y : Fin n → ℝ) (b : Fin p → ℝ) : Fin p → ℝ :=
  let r := resid X y b
  let s := mad r
  nwls (irwlsW f.psi s r)

/-- The three estimates of the covariance of the coefficients (rls.py 148-168) from the residuals. -/
noncomputable def rlmCov (f : Crit) (X : Matrix (Fin n) (Fin p) ℝ) (r : Fin n → ℝ) :
    Option (Matrix (Fin p) (Fin p) ℝ × Matrix (Fin p) (Fin p) ℝ × Matrix (Fin p) (Fin p) ℝ) := do
  let psi_r := fun i => f.psi (r i)
  let phi_r := fun i => f.phi (r i)
  let dfe : ℝ := n - p
  let E_psi_sq := (∑ i, psi_r i ^ 2) / dfe
  let E_phi := (∑ i, phi_r i) / n
  let var := (∑ i, (phi_r i - E_phi) ^ 2) / n
  let k := 1 + p / n * var / E_phi ^ 2
  let k1 := k ^ 2 * E_psi_sq / E_phi ^ 2
  let k2 := k * E_psi_sq / E_phi
  let k3 := E_psi_sq / k
  let XtX := Xᵀ * X
  let G ← inv? XtX
  let W ← inv? (wdm X phi_r X)
  return (k1 • G, k2 • W, k3 • (W * XtX * W))

end Verif.Reg
