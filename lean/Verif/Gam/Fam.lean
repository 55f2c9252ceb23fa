import Verif.Gam.Gam
import Verif.Glm.Families

/-!
Model of `pystatsm/pyglm/families.py` and `pystatsm/pyglm/links.py` as far as the additive model uses them.  All
methods act elementwise, so each is a function of real numbers; floating point is replaced by the reals.
`dispersion` and `weights` keep their defaults except where they are arguments.  The gamma functions of scipy are
parameters (`Verif.Glm.Sp`).  A method that raises is `none`; so is a quotient by zero that gives a value that is not
a number.
-/

namespace Verif.Gam
open Real

/-- The methods of a `Link` the families call; `dlink` is not among them, as `ExponentialFamily.dlink` is
`1.0 / dinv_link(link(mu))` (families.py 51-52). -/
structure OLink where
  link : ℝ → ℝ
  inv : ℝ → ℝ
  dinv : ℝ → ℝ
  d2 : ℝ → ℝ
  d3 : ℝ → ℝ
  d4 : ℝ → ℝ

/-- `IdentityLink` (links.py 36-66). -/
def OLink.identity : OLink where
  link := fun mu => mu
  inv := fun eta => eta
  dinv := fun eta => 0 * eta + 1
  d2 := fun _ => 0
  d3 := fun _ => 0
  d4 := fun _ => 0

/-- `LogitLink` (links.py 69-109). -/
noncomputable def OLink.logit : OLink where
  link := fun mu => log (mu / (1 - mu))
  inv := fun eta => exp eta / (exp eta + 1)
  dinv := fun eta => exp eta / (1 + exp eta) ^ 2
  d2 := fun mu => (2 * mu - 1) / (mu ^ 2 * (1 - mu) ^ 2)
  d3 := fun mu => (-6 * mu ^ 2 + 6 * mu - 2) / ((mu - 1) ^ 3 * mu ^ 3)
  d4 := fun mu => (6 * (4 * mu ^ 3 - 6 * mu ^ 2 + 4 * mu - 1)) / ((1 - mu) ^ 4 * mu ^ 4)

/-- `LogLink` (links.py 158-189). -/
noncomputable def OLink.log : OLink where
  link := Real.log
  inv := exp
  dinv := exp
  d2 := fun mu => -1 / mu ^ 2
  d3 := fun mu => 2 / mu ^ 3
  d4 := fun mu => -6 / mu ^ 4

/-- `ReciprocalLink` (links.py 192-225). -/
noncomputable def OLink.reciprocal : OLink where
  link := fun mu => 1 / mu
  inv := fun eta => 1 / eta
  dinv := fun eta => -1 / eta ^ 2
  d2 := fun mu => 2 / mu ^ 3
  d3 := fun mu => -6 / mu ^ 4
  d4 := fun mu => 24 / mu ^ 5

/-- `PowerLink(alpha)` (links.py 271-331); the inverse Gaussian family has `alpha = -2`. -/
noncomputable def OLink.power (α : ℝ) : OLink where
  link := fun mu => if α = 0 then Real.log mu else mu ^ α
  inv := fun eta => if α = 0 then exp eta else eta ^ (1 / α)
  dinv := fun eta => if α = 0 then exp eta else eta ^ (1 / α - 1) / α
  d2 := fun mu => if α = 0 then -1 / mu ^ 2 else (α - 1) * α * mu ^ (α - 2)
  d3 := fun mu => if α = 0 then 2 / mu ^ 3 else (α - 2) * (α - 1) * α * mu ^ (α - 3)
  d4 := fun mu => if α = 0 then -6 / mu ^ 4 else (α - 3) * (α - 2) * (α - 1) * α * mu ^ (α - 4)

/-- `NegativeBinomialLink(scale)` (links.py 369-419). -/
noncomputable def OLink.negbin (k : ℝ) : OLink where
  link := fun mu => Real.log (mu / (mu + 1 / k))
  inv := fun eta => exp eta / (k * (1 - exp eta))
  dinv := fun eta => exp eta / (k * (1 - exp eta) ^ 2)
  d2 := fun mu => (1 / k * (1 / k + 2 * mu)) / (mu ^ 2 * (1 / k + mu) ^ 2)
  d3 := fun mu => (2 * (1 / k) * ((1 / k) ^ 2 + 3 * (1 / k) * mu + 3 * mu ^ 2)) / (mu ^ 3 * (1 / k + mu) ^ 3)
  d4 := fun mu => (6 * (1 / k) * ((1 / k) ^ 3 + 4 * (1 / k) ^ 2 * mu + 6 * (1 / k) * mu ^ 2 + 4 * mu ^ 3)) / (mu ^ 4 * (mu + 1 / k) ^ 4)

/-- `var_func`, `dvar_dmu`, `d2var_dmu2`, `d3var_dmu3` and `deviance` of a family. -/
structure OVar where
  v0 : ℝ → ℝ
  v1 : ℝ → ℝ
  v2 : ℝ → ℝ
  v3 : ℝ → ℝ
  dev : ℝ → ℝ → ℝ

/-- `Gaussian` (families.py 234-329). -/
def OVar.gaussian : OVar := ⟨fun _ => 1, fun _ => 0, fun _ => 0, fun _ => 0, fun y mu => (y - mu) ^ 2⟩

/-- `InverseGaussian` (families.py 332-431). -/
noncomputable def OVar.invGaussian : OVar :=
  ⟨fun mu => mu ^ 3, fun mu => 3 * mu ^ 2, fun mu => 6 * mu, fun _ => 6, fun y mu => (y - mu) ^ 2 / (y * mu ^ 2)⟩

/-- `Gamma` (families.py 434-544). -/
noncomputable def OVar.gamma : OVar :=
  ⟨fun mu => mu ^ 2, fun mu => 2 * mu, fun _ => 2, fun _ => 0, fun y mu => 2 * ((y - mu) / mu - Real.log (y / mu))⟩

/-- `Poisson` (families.py 681-761). -/
noncomputable def OVar.poisson : OVar :=
  ⟨fun mu => mu, fun _ => 1, fun _ => 0, fun _ => 0, fun y mu => 2 * (if y = 0 then mu else y * Real.log (y / mu) - (y - mu))⟩

/-- `Binomial` (families.py 764-852). -/
noncomputable def OVar.binomial : OVar :=
  ⟨fun mu => mu * (1 - mu), fun mu => 1 - 2 * mu, fun _ => -2, fun _ => 0, fun y mu =>
    2 * (if y = 0 then -Real.log (1 - mu) else if y = 1 then -Real.log mu else y * Real.log (y / mu) + (1 - y) * Real.log ((1 - y) / (1 - mu)))⟩

/-- `ExponentialFamily.dlink`. -/
noncomputable def OLink.d1 (l : OLink) (mu : ℝ) : ℝ := 1 / l.dinv (l.link mu)

/-- `get_a` (families.py 150-156). -/
noncomputable def oa (l : OLink) (V : OVar) (y mu : ℝ) : ℝ := 1 + (y - mu) * (V.v1 mu / V.v0 mu + l.d2 mu / l.d1 mu)

/-- `get_w` (families.py 163-167). -/
noncomputable def ow (l : OLink) (V : OVar) (y mu : ℝ) : ℝ := oa l V y mu / (l.d1 mu ^ 2 * V.v0 mu)

/-- `da_dmu` (families.py 176-185). -/
noncomputable def oda (l : OLink) (V : OVar) (y mu : ℝ) : ℝ :=
  let u := V.v1 mu / V.v0 mu + l.d2 mu / l.d1 mu
  let v := V.v2 mu / V.v0 mu - (V.v1 mu / V.v0 mu) ^ 2 + l.d3 mu / l.d1 mu - (l.d2 mu / l.d1 mu) ^ 2
  (y - mu) * v - u

/-- `d2a_dmu2` (families.py 187-201). -/
noncomputable def od2a (l : OLink) (V : OVar) (y mu : ℝ) : ℝ :=
  let u := V.v2 mu / V.v0 mu - (V.v1 mu / V.v0 mu) ^ 2 + l.d3 mu / l.d1 mu - (l.d2 mu / l.d1 mu) ^ 2
  let v1 := V.v3 mu / V.v0 mu - 3 * (V.v1 mu * V.v2 mu) / V.v0 mu ^ 2 + 2 * (V.v1 mu / V.v0 mu) ^ 3
  let v2 := l.d4 mu / l.d1 mu - 3 * (l.d3 mu * l.d2 mu) / l.d1 mu ^ 2 + 2 * (l.d2 mu / l.d1 mu) ^ 3
  (y - mu) * (v1 + v2) - 2 * u

open Classical in
/-- `dw_deta` (families.py 203-212). -/
noncomputable def odw (l : OLink) (V : OVar) (y mu : ℝ) : Option ℝ :=
  if oa l V y mu = 0 then none else
  some (ow l V y mu / l.d1 mu * (oda l V y mu / oa l V y mu - V.v1 mu / V.v0 mu - 2 * l.d2 mu / l.d1 mu))

open Classical in
/-- `d2w_deta2` (families.py 214-231). -/
noncomputable def od2w (l : OLink) (V : OVar) (y mu : ℝ) : Option ℝ := do
  let w0 := ow l V y mu
  let w1 ← odw l V y mu
  let a0 := oa l V y mu
  let a1 := oda l V y mu
  let a2 := od2a l V y mu
  let g1 := l.d1 mu
  let g2 := l.d2 mu
  let g3 := l.d3 mu
  let t1 := w1 ^ 2 / w0
  let t2 := w1 * g2 / g1 ^ 2
  let t3 := a2 / a0 - (a1 / a0) ^ 2 - V.v2 mu / V.v0 mu + (V.v1 mu / V.v0 mu) ^ 2 - 2 * (g3 / g1) + 2 * (g2 / g1) ^ 2
  some (t1 - t2 + t3 * (w0 / g1 ^ 2))

/-- The family as the additive model sees it. -/
noncomputable def ofam (l : OLink) (V : OVar) : Family where
  link := l.link
  invLink := l.inv
  var := V.v0
  dvar := V.v1
  dlink := l.d1
  d2link := l.d2
  dev := V.dev
  dw := fun y mu => (odw l V y mu).getD 0
  d2w := fun y mu => (od2w l V y mu).getD 0

/-- `Gaussian.llscale`, `dllscale`, `d2llscale` (families.py 312-322) for `n` observations. -/
noncomputable def Scale.gaussian (n : ℕ) : Scale :=
  ⟨fun phi => n * (Real.log phi / 2 + Real.log (2 * π) / 2), fun phi => n / (2 * phi), fun phi => -n / (2 * phi ^ 2)⟩

/-- `InverseGaussian.llscale`, `dllscale`, `d2llscale` (families.py 414-424). -/
noncomputable def Scale.invGaussian {n : ℕ} (y : Fin n → ℝ) : Scale :=
  ⟨fun phi => ∑ i, (Real.log phi / 2 + Real.log (2 * π * y i ^ 3) / 2), fun phi => n / (2 * phi), fun phi => -n / (2 * phi ^ 2)⟩

/-- `Gamma.llscale`, `dllscale`, `d2llscale` (families.py 521-535). -/
noncomputable def Scale.gamma (sp : Glm.Sp) {n : ℕ} (y : Fin n → ℝ) : Scale :=
  ⟨fun phi => ∑ i, (sp.gammaln (1 / phi) + Real.log phi * (1 / phi) + 1 / phi + Real.log (y i)),
   fun phi => -(sp.digamma (1 / phi) + Real.log phi) * (1 / phi) ^ 2 * n,
   fun phi => (sp.trigamma (1 / phi) * (1 / phi) + 2 * sp.digamma (1 / phi) - (1 - 2 * Real.log phi)) * (1 / phi) ^ 3 * n⟩

/-- The families. -/
inductive FamKind where
  | gaussian | invGaussian | gamma | negbin | poisson | binomial
  deriving DecidableEq

/-- `llscale`, `dllscale` and `d2llscale` by family: those of `NegativeBinomial` (families.py 657-664), `Poisson`
(745-752) and `Binomial` (836-843) return `None`, and `reml` multiplies the value by 2. -/
noncomputable def FamKind.scale (sp : Glm.Sp) {n : ℕ} (y : Fin n → ℝ) : FamKind → Option Scale
  | .gaussian => some (Scale.gaussian n)
  | .invGaussian => some (Scale.invGaussian y)
  | .gamma => some (Scale.gamma sp y)
  | .negbin => none
  | .poisson => none
  | .binomial => none

end Verif.Gam
