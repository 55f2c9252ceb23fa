import Verif.Glm.Families
import Mathlib.Data.Matrix.Mul
import Mathlib.LinearAlgebra.Matrix.Notation
/-!
# Model of the older `GLM` of `pyglm/glm.py`

Vectors of parameters are functions on `Fin p`.  The likelihood, the Newton step `np.linalg.solve(H, g)` and the test of
convergence are parameters where only the control flow of a fitting method matters.
-/
namespace Verif.Glm
open Real

/-! ## Fitting methods -/
section
variable {p : ℕ} (ll : (Fin p → ℝ) → ℝ) (step : (Fin p → ℝ) → Fin p → ℝ)

/-- The loop of step halvings — glm.py 225-230: the successful divisor, or `none` when all trials fail. -/
noncomputable def ogHalve (theta dx : Fin p → ℝ) (llk : ℝ) : ℕ → ℝ → Option ℝ
  | 0, _ => none
  | j + 1, sh =>
    let sh := sh * 2
    if ll (fun i => theta i - dx i / sh) < llk then some sh else ogHalve theta dx llk j sh

/-- One iteration of `_fit_manual` after the test of convergence — 221-235; `none` is `break`. -/
noncomputable def ogStep (theta : Fin p → ℝ) (llk : ℝ) : Option (Fin p → ℝ) :=
  let dx := step theta
  if ll (fun i => theta i - dx i) > llk then
    (ogHalve ll theta dx llk 100 1).map fun sh i => theta i - dx i / sh
  else some fun i => theta i - dx i / 1

/-- The loop of `_fit_manual` — 211-238, with `conv` for `gnorm/len(g) < 1e-9`. -/
noncomputable def ogManual (conv : (Fin p → ℝ) → Bool) : ℕ → (Fin p → ℝ) → ℝ → Fin p → ℝ
  | 0, theta, _ => theta
  | i + 1, theta, llk =>
    if conv theta then theta
    else match ogStep ll step theta llk with
      | none => theta
      | some th => ogManual conv i th (ll th)

/-- `_fit_manual` with no argument — 202-238: the result and `self.theta_init` afterwards.  `theta` is the array
`self.theta_init` itself and `theta -= dx/sh` changes it in place. -/
noncomputable def ogFitManual (conv : (Fin p → ℝ) → Bool) (thetaInit : Fin p → ℝ) :
    (Fin p → ℝ) × (Fin p → ℝ) :=
  let theta := ogManual ll step conv 100 thetaInit (ll thetaInit)
  (theta, theta)

/-- The loop of `_fit_estimating_equations` — 185-195, with `gmax`. -/
noncomputable def ogEE (gmax : (Fin p → ℝ) → ℝ) (tol : ℝ) : ℕ → (Fin p → ℝ) → Fin p → ℝ
  | 0, x => x
  | i + 1, x =>
    let d := step x
    let x' := fun i => x i - d i
    if gmax x ≤ tol then x' else ogEE gmax tol i x'

/-- `_bootfit` — 312-321: the result and the number of the last iteration; without iterations `i` is unbound. -/
noncomputable def ogBoot (tol : ℝ) (n_iters : ℕ) (x : Fin p → ℝ) : Option ((Fin p → ℝ) × ℕ) :=
  if n_iters = 0 then none else some (go n_iters 0 x)
where
  go : ℕ → ℕ → (Fin p → ℝ) → (Fin p → ℝ) × ℕ
  | 0, i, x => (x, i - 1)
  | m + 1, i, x =>
    let d := fun j => -step x j
    if (∑ j, |d j|) / p < tol then (x, i) else go m (i + 1) fun j => x j + d j

end

/-! ## Scale, gradient and Hessian -/

/-- `np.broadcast_shapes` of two shapes of at most two axes, aligned from the right. -/
def bcast2 (a b : List ℕ) : Option (List ℕ) :=
  let one : ℕ → ℕ → Option ℕ := fun x y => if x = y ∨ y = 1 then some x else if x = 1 then some y else none
  match a, b with
  | [x], [y] => do some [← one x y]
  | [x1, x2], [y] => do some [x1, ← one x2 y]
  | [x], [y1, y2] => do some [y1, ← one x y2]
  | [x1, x2], [y1, y2] => do some [← one x1 y1, ← one x2 y2]
  | _, _ => none

/-- The shape of `self.X * w` in the starting values of the Gamma and inverse Gaussian models — 62-64: `vmu` has one
axis (`_check_shape(mu, 1)`), `gp` the shape of `Y`. -/
def ogStartShape (n p : ℕ) (yshape : List ℕ) : Option (List ℕ) := do
  let w ← bcast2 [n, 1] yshape
  bcast2 [n, p] w

/-- `theta_init` for `scale_estimator='NR'` — 72-78: the estimated scale (or one) is appended. -/
def ogStartNR (theta : List ℝ) (phi_init : ℝ) : List ℝ := theta ++ [phi_init]

/-- The scale `_handle_scale` reads from the parameters for `NR` — 112-116. -/
noncomputable def ogPhiNR (params : List ℝ) : Option ℝ := params.getLast?.map exp

section
variable {n p : ℕ}

/-- `_est_scale` for the Gaussian family with the identity link — 81-88; `dfe = n_obs - n_feats` of the model. -/
noncomputable def ogScale (dfe : ℝ) (w : ℝ) (X : Matrix (Fin n) (Fin p) ℝ) (y : Fin n → ℝ) (beta : Fin p → ℝ) : ℝ :=
  (∑ i, w * (y i - X.mulVec beta i) ^ 2 / 1) / dfe

/-- `loglike` for `scale_estimator='M'` with the Gaussian family — 127-131, families.py 247-249 (unit weights). -/
noncomputable def ogLoglikeM (dfe : ℝ) (X : Matrix (Fin n) (Fin p) ℝ) (y : Fin n → ℝ) (beta : Fin p → ℝ) : ℝ :=
  let phi := ogScale dfe 1 X y beta
  ∑ i, (1 / phi * (y i - X.mulVec beta i) ^ 2 + log (phi / 1)) / 2

/-- `gradient` for `'M'` — 141-145, families.py 113-119. -/
noncomputable def ogGradM (dfe : ℝ) (X : Matrix (Fin n) (Fin p) ℝ) (y : Fin n → ℝ) (beta : Fin p → ℝ) (j : Fin p) : ℝ :=
  let phi := ogScale dfe 1 X y beta
  ∑ i, X i j * -(1 * (y i - X.mulVec beta i) / (1 * phi * 1))

/-- `gradient` for `'NR'`, the part of the coefficients. -/
noncomputable def ogGradNR (X : Matrix (Fin n) (Fin p) ℝ) (y : Fin n → ℝ) (beta : Fin p → ℝ) (tau : ℝ) (j : Fin p) : ℝ :=
  ∑ i, X i j * -(1 * (y i - X.mulVec beta i) / (1 * exp tau * 1))

/-- The block `dbdt` of `hessian(params, X, Y)` for `'NR'` — 158: `self.gradient(params)` is called without `X` and `Y`, so
it uses the arrays `X0`, `y0` of the model whatever was passed. -/
noncomputable def ogCrossNR (X0 : Matrix (Fin n) (Fin p) ℝ) (y0 : Fin n → ℝ) (_X : Matrix (Fin n) (Fin p) ℝ) (_y : Fin n → ℝ)
    (beta : Fin p → ℝ) (tau : ℝ) (j : Fin p) : ℝ :=
  -ogGradNR X0 y0 beta tau j

end

/-! ## Fit statistics -/

/-- `sumstats` — 276-296. -/
structure OgStats where
  aic : ℝ
  aicc : ℝ
  bic : ℝ
  caic : ℝ
  llr : ℝ
  cs : ℝ
  nagel : ℝ
  mcf : ℝ
  mcfa : ℝ
  mfa : ℝ

/-- `sumstats` from `llf`, `lln` (minus the log-likelihoods), `k = len(params)` and `N`. -/
noncomputable def ogSumstats (llf lln : ℝ) (k N : ℕ) : OgStats :=
  let LLA := llf * 2.0
  let LL0 := lln * 2.0
  let cs := 1 - exp (1.0 / N * (LLA - LL0))
  let rmax := 1 - exp (1.0 / N * -LL0)
  let LLR := 2 * (lln - llf)
  { aic := 2 * llf + k
    aicc := 2 * llf + (2 * k * N) / ((N : ℝ) - k - 1)
    bic := 2 * llf + log N * k
    caic := 2 * llf + k * (log N + 1.0)
    llr := 2 * (lln - llf)
    cs := cs
    nagel := cs / rmax
    mcf := 1 - LLA / LL0
    mcfa := 1 - (LLA - k) / LL0
    mfa := LLR / (LLR + N) }

/-- `pearson_resid` of an observation — 261. -/
noncomputable def ogPearson (w v y mu : ℝ) : ℝ := w * (y - mu) / sqrt v
/-- Its contribution to `sumstats['pearson_chi2']` — 84-86, 286 (the division by `dfe` is undone). -/
noncomputable def ogChi (w v y mu : ℝ) : ℝ := w * (y - mu) ^ 2 / v

end Verif.Glm
