import Mathlib.Analysis.SpecialFunctions.Trigonometric.Basic
/-!
# Model of `pyrobust/m_estimators.py` — `Huber`, `Bisquare`

The methods act elementwise on real arrays; the masked assignments become `if` on the entry.
The optional tuning constant `c` is an `Option`; the estimator object is its attribute `self.c`.
-/
namespace Verif.Robust
open Real

/-- `c = self.c if c is None else c`. -/
def tuning (self : ℝ) (c : Option ℝ) : ℝ := c.getD self

/-- `np.sign`. -/
noncomputable def npSign (x : ℝ) : ℝ := if x < 0 then -1 else if x = 0 then 0 else 1

/-! ## Huber (m_estimators.py 89-157) -/

/-- `Huber.__init__(c)`: the argument is not used. -/
noncomputable def huberInit (_c : ℝ) : ℝ := 1.345

noncomputable def huberRho (self : ℝ) (x : ℝ) (c : Option ℝ) : ℝ :=
  let c := tuning self c
  if |x| ≤ c then x ^ 2 / 2 else c * (|x| - c / 2)

noncomputable def huberPsi (self : ℝ) (x : ℝ) (c : Option ℝ) : ℝ :=
  let c := tuning self c
  if |x| ≤ c then x else c * npSign x

noncomputable def huberPhi (self : ℝ) (x : ℝ) (c : Option ℝ) : ℝ :=
  let c := tuning self c
  if |x| ≤ c then 1 else 0

noncomputable def huberWeights (self : ℝ) (x : ℝ) (c : Option ℝ) : ℝ :=
  let c := tuning self c
  if |x| ≤ c then 1 else c / |x|

/-- `rho_norm`. -/
def huberNorm (_self : ℝ) (_c : Option ℝ) : ℝ := 1

/-- `norm_pdf` — func_utils.py. -/
noncomputable def normPdf (x : ℝ) : ℝ := exp (-x ^ 2 / 2) / sqrt (2 * π)

/-- `E_rho`, `E_psi`, `E_psi2`, `E_phi` — m_estimators.py 132-153; `ndtr` is a parameter. -/
noncomputable def huberErho (ndtr : ℝ → ℝ) (self : ℝ) (c : Option ℝ) : ℝ :=
  let c := tuning self c
  let p := 1 - ndtr c
  let d := normPdf c
  0.5 - p + c * (d - c * p)

def huberEpsi (_self : ℝ) (_c : Option ℝ) : ℝ := 0

noncomputable def huberEpsi2 (ndtr : ℝ → ℝ) (self : ℝ) (c : Option ℝ) : ℝ :=
  let c := tuning self c
  let p := ndtr c
  let d := normPdf c
  2 * (c ^ 2 * (1 - p) + p - 0.5 - c * d)

noncomputable def huberEphi (ndtr : ℝ → ℝ) (self : ℝ) (c : Option ℝ) : ℝ :=
  let c := tuning self c
  2 * ndtr c - 1

/-- `Huber.weights` on an integer array: `np.zeros_like(x)` is an integer array, and assigning
`c / |x|` to it truncates. -/
noncomputable def huberWeightsInt (self : ℝ) (x : ℤ) (c : Option ℝ) : ℤ :=
  let c := tuning self c
  if (|x| : ℝ) ≤ c then 1 else ⌊c / (|x| : ℝ)⌋

/-! ## Bisquare (m_estimators.py 166-219) -/

noncomputable def bisqRho (self : ℝ) (x : ℝ) (c : Option ℝ) : ℝ :=
  let c := tuning self c
  if |x| ≤ c then
    let t := (x / c) ^ 2
    t * (3 + t * (t - 3))
  else 1

noncomputable def bisqPsi (self : ℝ) (x : ℝ) (c : Option ℝ) : ℝ :=
  let c := tuning self c
  if |x| ≤ c then
    let a := x / c
    let u := 1 - a ^ 2
    x * u ^ 2
  else 0

noncomputable def bisqPhi (self : ℝ) (x : ℝ) (c : Option ℝ) : ℝ :=
  let c := tuning self c
  if |x| ≤ c then
    let u := x / c
    let u := u * u
    (1 - u) * (1 - 5 * u)
  else 0

noncomputable def bisqWeights (self : ℝ) (x : ℝ) (c : Option ℝ) : ℝ :=
  let c := tuning self c
  if |x| ≤ c then
    let u := x / c
    ((1 - u) * (1 + u)) ^ 2
  else 0

noncomputable def bisqNorm (self : ℝ) (c : Option ℝ) : ℝ :=
  let c := tuning self c
  c ^ 2 / 6

/-! ## `MEstimator` (m_estimators.py 18-80) -/

/-- The methods of an estimator. -/
structure Est where
  rho : ℝ → Option ℝ → ℝ
  psi : ℝ → Option ℝ → ℝ
  phi : ℝ → Option ℝ → ℝ
  weights : ℝ → Option ℝ → ℝ
  rhoNorm : Option ℝ → ℝ

noncomputable def huber (self : ℝ) : Est where
  rho := huberRho self
  psi := huberPsi self
  phi := huberPhi self
  weights := huberWeights self
  rhoNorm := huberNorm self

noncomputable def bisquare (self : ℝ) : Est where
  rho := bisqRho self
  psi := bisqPsi self
  phi := bisqPhi self
  weights := bisqWeights self
  rhoNorm := bisqNorm self

/-- `chi(x, deriv, *args)` — 43-54; for other orders `y` is unbound (`none`). -/
noncomputable def chi (e : Est) (x : ℝ) (deriv : ℕ) (c : Option ℝ) : Option ℝ := do
  let y ← if deriv = 0 then some (e.rho x c) else if deriv = 1 then some (e.psi x c)
    else if deriv = 2 then some (e.phi x c) else none
  if deriv > 0 then some (y / e.rhoNorm c) else some y

/-- The integrand of the base class `E_rho` — 25-27. -/
noncomputable def eRhoInt (e : Est) (c : Option ℝ) (x : ℝ) : ℝ := e.rho x c * normPdf x

/-- The integrand of the base class `E_psi` — 29-31, which uses `rho`. -/
noncomputable def ePsiInt (e : Est) (c : Option ℝ) (x : ℝ) : ℝ := e.rho x c * normPdf x

/-- One pass of `m_estimate_scale` / the scale update in `irls_step` — 56-57, 68-69. -/
noncomputable def scaleStep (rho : ℝ → ℝ) (r : List ℝ) (bd scale : ℝ) : ℝ :=
  let ss := (r.map fun x => rho (x / scale)).sum / r.length / bd
  sqrt (scale ^ 2 * ss)

/-- `m_estimate_scale` — 53-62, with the initial scale given. -/
noncomputable def mScale (rho : ℝ → ℝ) (r : List ℝ) (bd tol : ℝ) : ℕ → ℝ → ℝ
  | 0, scale => scale
  | n + 1, scale =>
    let s_new := scaleStep rho r bd scale
    if |s_new / scale - 1| < tol then s_new else mScale rho r bd tol n s_new

end Verif.Robust
