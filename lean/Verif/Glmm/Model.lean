import Mathlib.LinearAlgebra.Matrix.NonsingularInverse
import Mathlib.Analysis.SpecialFunctions.Log.Basic
import Mathlib.Analysis.SpecialFunctions.Sqrt
import Mathlib.Analysis.SpecialFunctions.Trigonometric.Basic
/-!
# Model of `GLMM_AGQ` and `GLMM_LAP` of `pylmm/glmm.py`

Matrices are dense.  A family is given by its functions for one observation.  `Gi` is the inverse of the covariance matrix of the
random effects (`update_gmat(theta, inverse=True)`), `lnG` the log determinant of the covariance matrix (`lndet_gmat`).  `spsolve` of a
singular matrix gives `nan`, here `none`.
-/
namespace Verif.Glmm
open Matrix
variable {n p q : ℕ}

/-- A family and link: `inv_link`, `var_func` of the mean, `canonical_parameter`, `cumulant` and `_loglike`, which is minus the log
likelihood, of response and mean. -/
structure Fam where
  invLink : ℝ → ℝ
  var : ℝ → ℝ
  canon : ℝ → ℝ
  cumulant : ℝ → ℝ
  nll : ℝ → ℝ → ℝ

/-- `Gaussian()` — pyglm/families.py 234-265. -/
noncomputable def gaussian : Fam := ⟨id, fun _ => 1, id, fun t => t ^ 2 / 2, fun y mu => (y - mu) ^ 2 / 2⟩

/-- `Poisson()` — 681-712. -/
noncomputable def poisson : Fam := ⟨Real.exp, id, Real.log, Real.exp, fun y mu => -(y * Real.log mu - mu)⟩

/-- `Binomial()` — 764-798; the logit link. -/
noncomputable def binomial : Fam :=
  ⟨fun eta => 1 / (1 + Real.exp (-eta)), fun mu => mu * (1 - mu), fun mu => Real.log (mu / (1 - mu)),
    fun t => Real.log (1 + Real.exp t), fun y mu => -(y * Real.log mu + (1 - y) * Real.log (1 - mu))⟩

/-- `Gamma()` — 434-472; the reciprocal link. -/
noncomputable def gamma : Fam :=
  ⟨fun eta => 1 / eta, fun mu => mu ^ 2, fun mu => -1 / mu, fun t => -Real.log (-t), fun y mu => y / mu - Real.log (y / mu)⟩

/-- The data: response, fixed part `Xb`, design of the random effects and the inverse covariance matrix. -/
structure Dat (n q : ℕ) where
  y : Fin n → ℝ
  Xb : Fin n → ℝ
  Z : Matrix (Fin n) (Fin q) ℝ
  Gi : Matrix (Fin q) (Fin q) ℝ

/-- `eta` — glmm.py 129, 266. -/
def eta (d : Dat n q) (u : Fin q → ℝ) : Fin n → ℝ := d.Xb + d.Z *ᵥ u

/-- `RtR` — 130-135, 267-272. -/
def rtr (F : Fam) (d : Dat n q) (u : Fin q → ℝ) : Matrix (Fin q) (Fin q) ℝ :=
  d.Zᵀ * (diagonal (fun i => F.var (F.invLink (eta d u i))) * d.Z) + d.Gi

/-- `r` — 134-135, 271-272. -/
def score (F : Fam) (d : Dat n q) (u : Fin q → ℝ) : Fin q → ℝ := d.Zᵀ *ᵥ (d.y - fun i => F.invLink (eta d u i)) - d.Gi *ᵥ u

open Classical in
/-- One pass of the loop of `pirls` — 128-136, 265-273. -/
noncomputable def step (F : Fam) (d : Dat n q) (u : Fin q → ℝ) : Option (Fin q → ℝ) :=
  if (rtr F d u).det = 0 then none else some (u + (rtr F d u)⁻¹ *ᵥ score F d u)

open Classical in
/-- The loop of `pirls` — 128-140, 265-277: at a small step the old value is kept. -/
noncomputable def loop (F : Fam) (d : Dat n q) : ℕ → (Fin q → ℝ) → Option (Fin q → ℝ)
  | 0, u => some u
  | k + 1, u => do
    let u' ← step F d u
    let diff := Real.sqrt (∑ i, (u' i - u i) ^ 2) / q
    if diff < 1e-6 then return u else loop F d k u'

/-- `u` of `pirls` — 126-140, 263-277. -/
noncomputable def pirls (F : Fam) (d : Dat n q) : Option (Fin q → ℝ) := loop F d 100 0

/-- `GLMM_LAP.loglike` at the random effects `u` — 278-298. -/
noncomputable def laplaceAt (F : Fam) (d : Dat n q) (lnG : ℝ) (u : Fin q → ℝ) : ℝ :=
  let utGu := (d.Gi *ᵥ u) ⬝ᵥ u
  let lnd := lnG + Real.log |(rtr F d u).det|
  let llf := 2 * ∑ i, F.nll (d.y i) (F.invLink (eta d u i))
  (llf + utGu + lnd) / 2

/-- `GLMM_LAP.loglike` — 289-298. -/
noncomputable def laplace (F : Fam) (d : Dat n q) (lnG : ℝ) : Option ℝ := do
  let u ← pirls F d
  return laplaceAt F d lnG u

/-- One random effect per group — `GLMM_AGQ`: group of an observation, design and the standard deviation's inverse `D`. -/
structure One (n q : ℕ) where
  y : Fin n → ℝ
  Xb : Fin n → ℝ
  grp : Fin n → Fin q
  z : Fin n → ℝ
  D : ℝ

/-- `Qinv` of group `j`: `1 / Q`, with `Q` the root of the diagonal of `RtR` — 141-149. -/
noncomputable def qOne (F : Fam) (d : One n q) (u : Fin q → ℝ) (j : Fin q) : ℝ :=
  Real.sqrt (∑ i, (if d.grp i = j then F.var (F.invLink (d.Xb i + d.z i * u j)) * d.z i ^ 2 else 0) + d.D ^ 2)

/-- `logf - Du**2 / 2` of group `j` at the random effect `v` — 155-161. -/
noncomputable def hOne (F : Fam) (d : One n q) (j : Fin q) (v : ℝ) : ℝ :=
  ∑ i, (if d.grp i = j then d.y i * F.canon (F.invLink (d.z i * v + d.Xb i)) - F.cumulant (F.canon (F.invLink (d.z i * v + d.Xb i))) else 0)
    - (d.D * v) ^ 2 / 2

/-- The sum over nodes and weights for the integrand `f` — 165-171. -/
noncomputable def ruleSum (rule : List (ℝ × ℝ)) (f : ℝ → ℝ) : ℝ := (rule.map fun zw => f zw.1 * zw.2).sum * Real.sqrt 2

/-- `GLMM_AGQ.loglike` at the random effects `u` — 165-177. -/
noncomputable def agqAt (F : Fam) (d : One n q) (rule : List (ℝ × ℝ)) (u : Fin q → ℝ) : ℝ :=
  let lnd := q * Real.log d.D - ∑ j, Real.log (qOne F d u j)
  let lls := ∑ j, Real.log (ruleSum rule fun z => Real.exp (hOne F d j (1 / qOne F d u j * z + u j)))
  Neg.neg (lls + lnd)

/-- `gh_rules(nagq, False)` — 26-31 for up to three nodes: `roots_hermitenorm`, weights for the density `exp(-z²/2)`. -/
noncomputable def ghRule : ℕ → Option (List (ℝ × ℝ))
  | 1 => some [(0, Real.sqrt (2 * Real.pi))]
  | 2 => some [(-1, Real.sqrt (2 * Real.pi) / 2), (1, Real.sqrt (2 * Real.pi) / 2)]
  | 3 => some [(-Real.sqrt 3, Real.sqrt (2 * Real.pi) / 6), (0, Real.sqrt (2 * Real.pi) * 2 / 3), (Real.sqrt 3, Real.sqrt (2 * Real.pi) / 6)]
  | _ => none

/-- The lengths of `logf` and `Du**2` in `logf - Du**2 / 2` — 158-161: groups, and groups times variables; numpy broadcasts equal
lengths and length one. -/
def shapeOk (nGroups nVars : ℕ) : Bool := nGroups == nGroups * nVars || nGroups == 1 || nGroups * nVars == 1

/-- `approx_hess(f, x)` — 37-56: the entries off the diagonal are computed and dropped. -/
noncomputable def approxHess (f : (Fin p → ℝ) → ℝ) (x : Fin p → ℝ) (eps : ℝ) : Matrix (Fin p) (Fin p) ℝ :=
  of fun i j =>
    if i = j then
      let e : Fin p → ℝ := Pi.single i eps
      (-f (x + (2 : ℝ) • e) + 16 * f (x + e) - 30 * f x + 16 * f (x - e) - f (x - (2 : ℝ) • e)) / (12 * eps ^ 2)
    else 0

open Classical in
/-- `hess_theta`, `se_params` — 185-186, 307-308: `np.linalg.inv` raises for a singular matrix. -/
noncomputable def stdErr (f : (Fin p → ℝ) → ℝ) (x : Fin p → ℝ) (eps : ℝ) : Option (Fin p → ℝ) :=
  if (approxHess f x eps).det = 0 then none else some fun i => Real.sqrt ((approxHess f x eps)⁻¹ i i)

end Verif.Glmm
