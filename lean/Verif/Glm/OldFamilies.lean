import Verif.Glm.Families
/-!
# Model of the canonical functions of `pyglm/families.py` and of `pylmm/families.py`, and of the
links of `pyglm/links.py` and `pylmm/links.py`

All methods act elementwise and are functions of one entry.  Where numpy computes the square root or
a fractional power of a negative number, so that the result is `nan`, the model returns `none`.  The
second argument of the canonical functions is `dispersion` (`scale` in `pylmm`), which only the
negative binomial family uses.  Floating point is replaced by the reals.
-/
namespace Verif.Glm.Old
open Real Verif.Glm

/-- Canonical parameter, cumulant, mean and variance function and `d2canonical` of a family. -/
structure Canon where
  /-- `canonical_parameter(mu, dispersion)`. -/
  theta : ℝ → ℝ → ℝ
  /-- `cumulant(T, dispersion)`; `none`: not a number. -/
  b : ℝ → ℝ → Option ℝ
  /-- `mean_func(T, dispersion)`. -/
  mean : ℝ → ℝ → Option ℝ
  /-- `var_func(mu=mu, dispersion=dispersion)`. -/
  var : ℝ → ℝ → ℝ
  /-- `d2canonical(mu, dispersion)`. -/
  d2c : ℝ → ℝ → Option ℝ

/-- `Gaussian` — pyglm/families.py 254-273, pylmm/families.py 132-153. -/
noncomputable def gaussianC : Canon where
  theta := fun mu _ => mu
  b := fun T _ => some (T ^ 2 / 2)
  mean := fun T _ => some T
  var := fun _ _ => 1
  d2c := fun mu _ => some (0 * mu + 1)

/-- `InverseGaussian` — pyglm/families.py 353-372: `sqrt(-2 T)` is not a number for `T > 0`. -/
noncomputable def invGaussianC : Canon where
  theta := fun mu _ => 1 / mu ^ 2
  b := fun T _ => if T ≤ 0 then some (-sqrt (-2 * T)) else none
  mean := fun T _ => if T < 0 then some (1 / sqrt (-2 * T)) else none
  var := fun mu _ => mu ^ 3
  d2c := fun mu _ => some (3 / mu ^ 4)

/-- `InverseGaussian` — pylmm/families.py 202-223.  Differs from `pyglm` in `d2canonical`, which
raises `-mu` to the power 5/2. -/
noncomputable def invGaussianL : Canon :=
  { invGaussianC with
    d2c := fun mu _ => if mu < 0 then some (3 / (4 * sqrt 2 * (-mu) ^ ((5 : ℝ) / 2))) else none }

/-- `Gamma` — pyglm/families.py 454-473, pylmm/families.py 273-294.  `log(-T)` is not a number for
`T > 0`. -/
noncomputable def gammaC : Canon where
  theta := fun mu _ => -1 / mu
  b := fun T _ => if T < 0 then some (-log (-T)) else none
  mean := fun T _ => some (-1 / T)
  var := fun mu _ => mu ^ 2
  d2c := fun mu _ => some (-2 / mu ^ 3)

/-- `NegativeBinomial` — pyglm/families.py 569-591, pylmm/families.py 359-383. -/
noncomputable def negBinomialC : Canon where
  theta := fun mu k => let u := mu * k; log (u / (1 + u))
  b := fun T k => if k * exp T < 1 then some (-1 / k * log (1 - k * exp T)) else none
  mean := fun T k => let u := exp T; some (-1 / k * (u / (1 - u)))
  var := fun mu k => mu + mu ^ 2 * k
  d2c := fun mu k => some ((-2 * k * mu - 1) / (mu ^ 2 * (mu * k + 1) ^ 2))

/-- `Poisson` — pyglm/families.py 701-720, pylmm/families.py 447-468. -/
noncomputable def poissonC : Canon where
  theta := fun mu _ => log mu
  b := fun T _ => some (exp T)
  mean := fun T _ => some (exp T)
  var := fun mu _ => mu
  d2c := fun mu _ => some (-1 / mu ^ 2)

/-- `Binomial` — pyglm/families.py 785-807, pylmm/families.py 511-535. -/
noncomputable def binomialC : Canon where
  theta := fun mu _ => let u := mu / (1 - mu); log u
  b := fun T _ => let u := 1 + exp T; some (log u)
  mean := fun T _ => let u := exp T; some (u / (1 + u))
  var := fun mu _ => mu * (1 - mu)
  d2c := fun mu _ => some (1 / (1 - mu) ^ 2 - 1 / mu ^ 2)

/-! ## Likelihoods of `pylmm/families.py`; arguments in the order `y, mu, weights, scale` -/

/-- The functions of `scipy.special` used in addition: `polygamma(2, .)` and `factorial`. -/
structure SpL extends Sp where
  polygamma2 : ℝ → ℝ
  factorial : ℝ → ℝ

/-- A family of `pylmm`: `_loglike`, `_full_loglike`, `deviance`, `dtau`, `d2tau` (entries before the
sum; `none`: no such method) and the canonical functions. -/
structure LFam where
  nll : ℝ → ℝ → ℝ → ℝ → ℝ
  full : ℝ → ℝ → ℝ → ℝ → ℝ
  dev : ℝ → ℝ → ℝ → ℝ → ℝ
  dtau : ℝ → ℝ → ℝ → ℝ → Option ℝ
  d2tau : ℝ → ℝ → ℝ → ℝ → Option ℝ
  canon : Canon

/-- `Gaussian` — pylmm/families.py 111-176. -/
noncomputable def gaussianL : LFam where
  nll := fun y mu weights scale =>
    let w := weights / scale
    w * (y - mu) ^ 2 + log (scale / weights)
  full := fun y mu weights scale =>
    let w := weights / scale
    w * (y - mu) ^ 2 + log (scale / weights) + ln2pi
  dev := fun y mu weights _ => weights * (y - mu) ^ 2
  dtau := fun tau y mu w => let phi := exp tau; some (-(w * (y - mu) ^ 2 / phi - 1))
  d2tau := fun tau y mu w => let phi := exp tau; some (w * (y - mu) ^ 2 / (2 * phi))
  canon := gaussianC

/-- `InverseGaussian` — pylmm/families.py 179-248. -/
noncomputable def invGaussL : LFam where
  nll := fun y mu weights scale =>
    let w := weights / scale
    w * (y - mu) ^ 2 / (y * mu ^ 2) + log (scale * y ^ 2 / weights)
  full := fun y mu weights scale =>
    let w := weights / scale
    w * (y - mu) ^ 2 / (y * mu ^ 2) + log (scale * y ^ 2 / weights) + ln2pi
  dev := fun y mu weights _ => weights * (y - mu) ^ 2 / (y * mu ^ 2)
  dtau := fun tau y mu w =>
    let phi := exp tau
    let num := w * (y - mu) ^ 2
    let den := phi * y * mu ^ 2
    some (-(num / den - 1))
  d2tau := fun tau y mu w => let phi := exp tau; some (w * (y - mu) ^ 2 / (2 * phi * y * mu ^ 2))
  canon := invGaussianL

/-- `Gamma` — pylmm/families.py 251-324. -/
noncomputable def gammaL (sp : SpL) : LFam where
  nll := fun y mu weights scale =>
    let w := weights / scale
    let z := w * y / mu
    z - w * log z + sp.gammaln (weights / scale)
  full := fun y mu weights scale =>
    let w := weights / scale
    let z := w * y / mu
    z - w * log z + sp.gammaln (weights / scale) + log y
  dev := fun y mu w _ => 2 * w * ((y - mu) / mu - log (y / mu))
  dtau := fun tau y mu w =>
    let phi := exp tau
    let T0 := log (w * y / (phi * mu))
    let T1 := 1 - y / mu
    let T2 := -sp.digamma (w / phi)
    some (w / phi * (T0 + T1 + T2))
  d2tau := fun tau y mu w =>
    let phi := exp tau
    let T0 := log (w * y / (phi * mu))
    let T1 := 2 - y / mu
    let T2 := sp.digamma (w / phi)
    let T3 := w / phi * sp.trigamma (w / phi)
    some (w / phi * (T3 + T2 - T1 - T0))
  canon := gammaC

/-- `NegativeBinomial` — pylmm/families.py 330-422. -/
noncomputable def negBinL (sp : SpL) : LFam where
  nll := fun y mu weights scale =>
    let v := 1 / scale
    let kmu := scale * mu
    let yv := y + v
    (yv * log (1 + kmu) - y * log kmu + (sp.gammaln v - sp.gammaln yv)) * (weights / 1)
  full := fun y mu weights scale =>
    let v := 1 / scale
    let kmu := scale * mu
    let yv := y + v
    (yv * log (1 + kmu) - y * log kmu + (sp.gammaln v - sp.gammaln yv)) * (weights / 1)
      + weights / 1 * sp.gammaln (y + 1)
  dev := fun y mu w scale =>
    let v := 1 / scale
    let d := if y = 0 then log (1 + scale * mu) / scale
      else
        let u := (y + v) / (mu + v)
        y * log (y / mu) - (y + v) * log u
    d * (2 * w)
  dtau := fun tau y mu w =>
    let phi := exp tau
    let A := phi * (y - mu) / ((1 + phi) * mu)
    let T0 := sp.digamma (y + 1 / phi)
    let T1 := log (1 + phi * mu)
    let T2 := sp.digamma (1 / phi)
    some (w / phi * (T0 - T1 - T2 - A))
  d2tau := fun tau y mu w =>
    let phi := exp tau
    let v := 1 / phi
    let T0 := v * log (1 + phi * mu)
    let T1 := v * (sp.digamma (y + v) - sp.digamma v)
    let T2 := v ^ 2 * (sp.polygamma2 (y + v) - sp.polygamma2 v)
    let A := -y * phi * mu + mu + 2 * phi * mu ^ 2 / (1 + phi * mu) ^ 2
    some (w / phi * (T0 - A - T1 - T2))
  canon := negBinomialC

/-- `Poisson` — pylmm/families.py 425-482. -/
noncomputable def poissonL (sp : SpL) : LFam where
  nll := fun y mu weights scale => let w := weights / scale; -w * (y * log mu - mu)
  full := fun y mu weights scale =>
    let w := weights / scale;
    -w * (y * log mu - mu) + weights / scale * log (sp.factorial y)
  dev := fun y mu w _ => (if y = 0 then mu else y * log (y / mu) - (y - mu)) * (2 * w)
  dtau := fun _ _ _ _ => none
  d2tau := fun _ _ _ _ => none
  canon := poissonC

/-- `Binomial` — pylmm/families.py 487-552. -/
noncomputable def binomialL (sp : SpL) : LFam where
  nll := fun y mu weights scale =>
    let w := weights / scale;
    -w * (y * log mu + (1 - y) * log (1 - mu))
  full := fun y mu weights scale =>
    let w := weights / scale
    let r := weights * y;
    -w * (y * log mu + (1 - y) * log (1 - mu)) - logbinom sp.toSp weights r
  dev := fun y mu w _ =>
    let d := if y = 0 then -log (1 - mu) else if y = 1 then -log mu
      else y * log (y / mu) + (1 - y) * log ((1 - y) / (1 - mu))
    2 * w * d
  dtau := fun _ _ _ _ => none
  d2tau := fun _ _ _ _ => none
  canon := binomialC

/-! ## Base class of `pylmm/families.py` -/

/-- `ExponentialFamily.dlink` — pylmm/families.py 54-55. -/
noncomputable def famDlink (l : LinkFns) (mu : ℝ) : Option ℝ := (l.dinv (l.link mu)).map (1 / ·)

/-- `ExponentialFamily.d2link` — pylmm/families.py 57-60: `self.link` is the method of the family, a
function without an attribute `link`; `selfLink` stands for that attribute. -/
noncomputable def famD2link (selfLink : Option (ℝ → ℝ)) (l : LinkFns) (mu : ℝ) : Option ℝ := do
  let f ← selfLink
  let eta := f mu
  let d ← l.dinv eta
  some (-l.d2inv eta / d ^ 3)

/-- The attribute `link` of the method `link`: there is none. -/
def codeSelfLink : Option (ℝ → ℝ) := none

/-- `gw` — pylmm/families.py 89-94; `var_func` is called with its default scale 1. -/
noncomputable def gwL (F : LFam) (l : LinkFns) (y mu weights phi : ℝ) : Option ℝ := do
  let g ← famDlink l mu
  let num := weights * (y - mu)
  let den := F.canon.var mu 1 * g * phi
  some (-(num / den))

/-- `hw` — pylmm/families.py 96-108. -/
noncomputable def hwL (F : LFam) (l : LinkFns) (y mu weights phi : ℝ) : Option ℝ := do
  let eta := l.link mu
  let Vinv := 1 / F.canon.var mu 1
  let d ← l.dinv eta
  let W0 := d ^ 2
  let W1 := l.d2inv eta
  let W2 ← F.canon.d2c mu 1
  let Psc := (y - mu) * (W2 * W0 + W1 * Vinv)
  let Psb := Vinv * W0
  let res := (Psc - Psb) * weights
  some (-res / phi)

/-- `pearson_resid` — pylmm/families.py 73-79: the first parameter of `var_func` is `T`, so
`var_func(mu)` takes `mu` for the canonical parameter and maps it through `mean_func`. -/
noncomputable def pearsonL (F : LFam) (y mu : ℝ) : Option ℝ := do
  let m ← F.canon.mean mu 1
  some ((y - mu) / sqrt (F.canon.var m 1))

/-- `signed_resid` — pylmm/families.py 81-87 (scale 1; the deviance is weighted by `self.weights`). -/
noncomputable def signedL (F : LFam) (y mu weights : ℝ) : ℝ :=
  npSign (y - mu) * sqrt (F.dev y mu weights 1)

/-! ## Links of `pyglm/links.py` and `pylmm/links.py`

Methods not mentioned are written as in `pyglm2/links.py`. -/

/-- `IdentityLink` — pyglm/links.py 36-66. -/
def identityO : LinkFns := { identityLink with dinv := fun eta => some (0 * eta + 1) }

/-- `ProbitLink` — pyglm/links.py 112-154: `dlink` is computed from the inverse. -/
noncomputable def probitO (ndtr ndtri erfinv : ℝ → ℝ) : LinkFns :=
  { probitLink ndtr ndtri erfinv with
    d1 := fun mu => 1 / (exp (-ndtri mu ^ 2 / 2) / sqrt (2 * π)) }

/-- `LogLink` — pyglm/links.py 158-189. -/
noncomputable def logO : LinkFns := { logLink with d1 := fun mu => 1 / exp (log mu) }

/-- `ReciprocalLink` — pyglm/links.py 192-225. -/
noncomputable def reciprocalO : LinkFns :=
  { reciprocalLink with d1 := fun mu => 1 / (-1 / (1 / mu) ^ 2) }

/-- `CloglogLink` — pyglm/links.py 228-266. -/
noncomputable def cloglogO : LinkFns :=
  { cloglogLink with
    d1 := fun mu => let eta := log (log (1 / (1 - mu))); 1 / exp (eta - exp eta) }

/-- `PowerLink.dinv_link`, `d2inv_link` — pylmm/links.py 201-215. -/
noncomputable def powDinvL (α eta : ℝ) : ℝ :=
  if α = 0 then exp eta else -(eta ^ (1 / α) * log eta) / α ^ 2
noncomputable def powD2invL (α eta : ℝ) : ℝ :=
  let lnx := log eta
  if α = 0 then exp eta else eta ^ (1 / α) * lnx * (lnx + 2 * α) / α ^ 4

/-- `PowerLink.dlink` — pylmm/links.py 224-226. -/
noncomputable def powD1L (α mu : ℝ) : ℝ := 1 / powDinvL α (powLink α mu)

end Verif.Glm.Old
