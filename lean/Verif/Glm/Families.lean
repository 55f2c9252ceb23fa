import Verif.Glm.Links
/-!
# Model of `pyglm2/families.py`

All methods except `loglike`, `full_loglike`, `pearson_chi2` act elementwise, so each is a function
of the entries of `y`, `mu`, `weights` and of the scalars `phi`, `dispersion`.  The masked
assignments of the deviance methods become `if` on the entry.  The gamma functions of scipy are
parameters (`Sp`).  Floating point is replaced by the reals; `rvs`, `ppf` are not modelled.
-/
namespace Verif.Glm
open Real

/-- The functions of `scipy.special` used: `gammaln` (and `loggamma`, equal to it on positive
reals), `digamma`, `polygamma(1, .)`. -/
structure Sp where
  gammaln : ℝ → ℝ
  digamma : ℝ → ℝ
  trigamma : ℝ → ℝ

/-- Methods of a family.  Arguments in the order `y, mu, weights, phi, dispersion`. -/
structure Family where
  /-- `_loglike` (minus the log-likelihood up to a constant). -/
  nll : ℝ → ℝ → ℝ → ℝ → ℝ → ℝ
  /-- `_full_loglike`. -/
  full : ℝ → ℝ → ℝ → ℝ → ℝ → ℝ
  /-- `var_func(mu, dispersion)`. -/
  var : ℝ → ℝ → ℝ
  /-- `dvar_dmu`, `d2var_dmu2`, `d3var_dmu3`, `d4var_dmu4`. -/
  dvar : ℝ → ℝ → ℝ
  d2var : ℝ → ℝ → ℝ
  d3var : ℝ → ℝ → ℝ
  d4var : ℝ → ℝ → ℝ
  /-- The entries of the tuple returned by `var_derivs`. -/
  V0 : ℝ → ℝ → ℝ
  V1 : ℝ → ℝ → ℝ
  V2 : ℝ → ℝ → ℝ
  V3 : ℝ → ℝ → ℝ
  V4 : ℝ → ℝ → ℝ
  /-- `deviance`. -/
  dev : ℝ → ℝ → ℝ → ℝ → ℝ → ℝ
  /-- `dtau(tau, y, mu, weights, reduce=False)`; `none` if the family has no such method. -/
  dtau : ℝ → ℝ → ℝ → ℝ → Option ℝ
  /-- `d2tau`. -/
  d2tau : ℝ → ℝ → ℝ → ℝ → Option ℝ

/-- `LN2PI` — families.py 19. -/
noncomputable def ln2pi : ℝ := log (2 * π)

/-- `Gaussian` — families.py 236-313. -/
noncomputable def gaussian : Family where
  nll := fun y mu weights phi _ =>
    let w := weights / phi
    (w * (y - mu) ^ 2 + log (1 / w)) / 2
  full := fun y mu weights phi _ =>
    let w := weights / phi
    (w * (y - mu) ^ 2 + log (1 / w)) / 2 + ln2pi / 2
  var := fun _ _ => 1
  dvar := fun _ _ => 0
  d2var := fun _ _ => 0
  d3var := fun _ _ => 0
  d4var := fun _ _ => 0
  V0 := fun _ _ => 1
  V1 := fun _ _ => 0
  V2 := fun _ _ => 0
  V3 := fun _ _ => 0
  V4 := fun _ _ => 0
  dev := fun y mu weights _ _ => weights * (y - mu) ^ 2
  dtau := fun tau y mu weights =>
    let phi := exp tau
    some (-(weights * (y - mu) ^ 2 / phi - 1) / 2)
  d2tau := fun tau y mu weights =>
    let phi := exp tau
    some (weights * (y - mu) ^ 2 / (2 * phi))

/-- `InverseGaussian` — families.py 325-414. -/
noncomputable def invGaussian : Family where
  nll := fun y mu weights phi _ =>
    let num := (y - mu) ^ 2
    let den := y * mu ^ 2 * phi
    (weights * num / den + log (phi * y ^ 3 / weights)) / 2
  full := fun y mu weights phi _ =>
    let num := (y - mu) ^ 2
    let den := y * mu ^ 2 * phi
    (weights * num / den + log (phi * y ^ 3 / weights)) / 2 + ln2pi / 2
  var := fun mu _ => mu ^ 3
  dvar := fun mu _ => 3 * mu ^ 2
  d2var := fun mu _ => 6 * mu
  d3var := fun _ _ => 6
  d4var := fun _ _ => 0
  V0 := fun mu _ => mu ^ 3
  V1 := fun mu _ => 3 * mu ^ 2
  V2 := fun mu _ => 6 * mu
  V3 := fun _ _ => 6
  V4 := fun _ _ => 0
  dev := fun y mu weights _ _ => weights * (y - mu) ^ 2 / (y * mu ^ 2)
  dtau := fun tau y mu weights =>
    let phi := exp tau
    let num := weights * (y - mu) ^ 2
    let den := phi * y * mu ^ 2
    some (-(num / den - 1) / 2)
  d2tau := fun tau y mu weights =>
    let phi := exp tau
    some (weights * (y - mu) ^ 2 / (2 * phi * y * mu ^ 2))

/-- `Gamma` — families.py 426-523. -/
noncomputable def gamma (sp : Sp) : Family where
  nll := fun y mu weights phi _ =>
    let w := weights / phi
    let z := w * y / mu
    z - w * log z + sp.gammaln (weights / phi)
  full := fun y mu weights phi _ =>
    let w := weights / phi
    let z := w * y / mu
    z - w * log z + sp.gammaln (weights / phi) + log y
  var := fun mu _ => mu ^ 2
  dvar := fun mu _ => 2 * mu
  d2var := fun _ _ => 2
  d3var := fun _ _ => 0
  d4var := fun _ _ => 0
  V0 := fun mu _ => mu ^ 2
  V1 := fun mu _ => 2 * mu
  V2 := fun _ _ => 2
  V3 := fun _ _ => 0
  V4 := fun _ _ => 0
  dev := fun y mu weights _ _ => 2 * weights * ((y - mu) / mu - log (y / mu))
  dtau := fun tau y mu weights =>
    let phi := exp tau
    let T0 := log (weights * y / (phi * mu))
    let T1 := 1 - y / mu
    let T2 := -sp.digamma (weights / phi)
    some (weights / phi * (T0 + T1 + T2))
  d2tau := fun tau y mu weights =>
    let phi := exp tau
    let T0 := log (weights * y / (phi * mu))
    let T1 := 2 - y / mu
    let T2 := sp.digamma (weights / phi)
    let T3 := weights / phi * sp.trigamma (weights / phi)
    some (weights / phi * (T3 + T2 - T1 - T0))

/-- `NegativeBinomial` — families.py 534-640. -/
noncomputable def negBinomial (sp : Sp) : Family where
  nll := fun y mu weights _ k =>
    let a := 1 / k
    let kmu := k * mu
    let ypa := y + a;
    -weights * (y * log kmu - ypa * log (1 + kmu) + sp.gammaln ypa - sp.gammaln a)
  full := fun y mu weights _ k =>
    let a := 1 / k
    let kmu := k * mu
    let ypa := y + a;
    -weights * (y * log kmu - ypa * log (1 + kmu) + sp.gammaln ypa - sp.gammaln a)
      + weights / 1 * sp.gammaln (y + 1)
  var := fun mu k => mu + mu ^ 2 * k
  dvar := fun mu k => 2 * k * mu + 1
  d2var := fun _ k => 2 * k
  d3var := fun _ _ => 0
  d4var := fun _ _ => 0
  V0 := fun mu k => mu + mu ^ 2 * k
  V1 := fun mu k => 2 * k * mu + 1
  V2 := fun _ k => 2 * k
  V3 := fun _ _ => 0
  V4 := fun _ _ => 0
  dev := fun y mu weights _ k =>
    let v := 1 / k
    let d := if y = 0 then log (1 + k * mu) / k
      else
        let u := (y + v) / (mu + v)
        y * log (y / mu) - (y + v) * log u
    d * (2 * weights)
  dtau := fun tau y mu weights =>
    let k := exp tau
    let T0 := k * (y - mu) / (1 + k * mu)
    let T1 := log (1 + k * mu)
    let T2 := -sp.digamma (y + 1 / k)
    let T3 := sp.digamma (1 / k)
    some (-(weights / k) * (T0 + T1 + T2 + T3))
  d2tau := fun tau y mu weights =>
    let k := exp tau
    let a := 1 / k
    let ypa := y + a
    let u := 1 + k * mu
    let denom := -y * k * mu + mu + 2 * k * mu ^ 2
    let numer := u ^ 2
    let v := denom / numer
    let dtt := v - a * log u + a * (sp.digamma ypa - sp.digamma a)
      + a ^ 2 * (sp.trigamma ypa - sp.trigamma a)
    some (-weights * dtt)

/-- `Poisson` — families.py 643-713. -/
noncomputable def poisson (sp : Sp) : Family where
  nll := fun y mu weights phi _ =>
    let w := weights / phi;
    -w * (y * log mu - mu)
  full := fun y mu weights phi _ =>
    let w := weights / phi;
    -w * (y * log mu - mu) + weights / phi * sp.gammaln (y + 1)
  var := fun mu _ => mu
  dvar := fun _ _ => 1
  d2var := fun _ _ => 0
  d3var := fun _ _ => 0
  d4var := fun _ _ => 0
  V0 := fun mu _ => mu
  V1 := fun _ _ => 1
  V2 := fun _ _ => 0
  V3 := fun _ _ => 0
  V4 := fun _ _ => 0
  dev := fun y mu weights _ _ =>
    let d := if y = 0 then mu else y * log (y / mu) - (y - mu)
    d * (2 * weights)
  dtau := fun _ _ _ _ => none
  d2tau := fun _ _ _ _ => none

/-- `logbinom` — func_utils.py 79-101. -/
noncomputable def logbinom (sp : Sp) (n k : ℝ) : ℝ :=
  sp.gammaln (n + 1) - sp.gammaln (k + 1) - sp.gammaln (n - k + 1)

/-- `Binomial` — families.py 716-792. -/
noncomputable def binomial (sp : Sp) : Family where
  nll := fun y mu weights phi _ =>
    let w := weights / phi;
    -w * (y * log mu + (1 - y) * log (1 - mu))
  full := fun y mu weights phi _ =>
    let w := weights / phi
    let r := weights * y;
    -w * (y * log mu + (1 - y) * log (1 - mu)) - logbinom sp weights r
  var := fun mu _ => mu * (1 - mu)
  dvar := fun mu _ => 1 - 2 * mu
  d2var := fun _ _ => -2
  d3var := fun _ _ => 0
  d4var := fun _ _ => 0
  V0 := fun mu _ => mu * (1 - mu)
  V1 := fun mu _ => 1 - 2 * mu
  V2 := fun _ _ => -2
  V3 := fun _ _ => 0
  V4 := fun _ _ => 0
  dev := fun y mu weights _ _ =>
    let d := if y = 0 then -log (1 - mu) else if y = 1 then -log mu
      else y * log (y / mu) + (1 - y) * log ((1 - y) / (1 - mu))
    2 * weights * d
  dtau := fun _ _ _ _ => none
  d2tau := fun _ _ _ _ => none

/-! ## Methods of the base class (families.py 100-233) -/

/-- `variance` — families.py 106-108. -/
noncomputable def variance (F : Family) (mu weights phi k : ℝ) : ℝ := F.var mu k * phi / weights

/-- `pearson_resid` — families.py 100-104. -/
noncomputable def pearsonResid (F : Family) (y mu weights k : ℝ) : ℝ :=
  let v := F.var mu k
  let w := sqrt (weights / v)
  w * (y - mu)

/-- `pearson_chi2` — families.py 110-114; the observations as a list of `(y, mu, weight)`. -/
noncomputable def pearsonChi2 (F : Family) (d : List (ℝ × ℝ × ℝ)) (k : ℝ) : ℝ :=
  (d.map fun o => o.2.2 / F.var o.2.1 k * (o.1 - o.2.1) ^ 2).sum

/-- `np.sign`. -/
noncomputable def npSign (x : ℝ) : ℝ := if x < 0 then -1 else if x = 0 then 0 else 1

/-- `signed_resid` — families.py 116-119: the weights are not passed on. -/
noncomputable def signedResid (F : Family) (y mu _weights phi k : ℝ) : ℝ :=
  npSign (y - mu) * sqrt (F.dev y mu 1 phi k)

/-- `deviance_resid` — families.py 121-124. -/
noncomputable def devianceResid (F : Family) (y mu weights phi k : ℝ) : ℝ :=
  npSign (y - mu) * sqrt (F.dev y mu weights phi k)

/-- `gw` — families.py 126-130. -/
noncomputable def gw (F : Family) (l : LinkFns) (y mu weights phi k : ℝ) : ℝ :=
  let num := y - mu
  let den := variance F mu weights phi k * l.d1 mu;
  -num / den

/-- `hw` — families.py 132-139. -/
noncomputable def hw (F : Family) (l : LinkFns) (y mu weights phi k : ℝ) : ℝ :=
  let V0 := F.V0 mu k
  let V1 := F.V1 mu k
  let g1 := l.d1 mu
  let g2 := l.d2 mu
  let g1V0 := g1 * V0 * phi
  let r := y - mu
  let a := 1 + r * (V1 / V0 + g2 / g1)
  weights * a / (g1 * g1V0)

/-- `get_ghw` — families.py 141-150. -/
noncomputable def getGhw (F : Family) (l : LinkFns) (y mu weights phi k : ℝ) : ℝ × ℝ :=
  let V0 := F.V0 mu k
  let V1 := F.V1 mu k
  let g1 := l.d1 mu
  let g2 := l.d2 mu
  let g1V0 := g1 * V0 * phi
  let r := y - mu
  let a := 1 + r * (V1 / V0 + g2 / g1)
  let wr := weights * r
  (-wr / g1V0, weights * a / (g1 * g1V0))

/-- `get_a` — families.py 152-156. -/
noncomputable def getA (F : Family) (l : LinkFns) (y mu k : ℝ) : ℝ :=
  1 + (y - mu) * (F.V1 mu k / F.V0 mu k + l.d2 mu / l.d1 mu)

/-- `get_ehw` — families.py 169-173. -/
noncomputable def getEhw (F : Family) (l : LinkFns) (mu weights phi k : ℝ) : ℝ :=
  let den := variance F mu weights phi k * l.d1 mu ^ 2
  weights / den

/-- `get_g` and `get_w` — families.py 158-167.  Both call `self._get_a`, which no class defines;
`getA'` stands for that attribute (`none`: it does not exist). -/
noncomputable def getG (getA' : Option (ℝ → ℝ → ℝ)) (l : LinkFns) (y mu : ℝ) : Option ℝ := do
  let a ← getA'
  some (l.d1 mu / a y mu)

noncomputable def getW (getA' : Option (ℝ → ℝ → ℝ)) (F : Family) (l : LinkFns) (y mu k : ℝ) :
    Option ℝ := do
  let a ← getA'
  let v := F.var mu k
  let dmu := l.d1 mu
  some (a y mu / (dmu ^ 2 * v))

/-! ## Scale terms -/

/-- `Gaussian.llscale`, `dllscale`, `d2llscale` — families.py 303-313. -/
noncomputable def gaussianLls (phi : ℝ) (y : List ℝ) : ℝ :=
  y.length * (log phi / 2 + log (2 * π) / 2)
noncomputable def gaussianDlls (phi : ℝ) (y : List ℝ) : ℝ := y.length / (2 * phi)
noncomputable def gaussianD2lls (phi : ℝ) (y : List ℝ) : ℝ := -y.length / (2 * phi ^ 2)

/-- `InverseGaussian.llscale`, `dllscale`, `d2llscale` — families.py 401-411. -/
noncomputable def invGaussianLls (phi : ℝ) (y : List ℝ) : ℝ :=
  (y.map fun y => log phi / 2 + log (2 * π * y ^ 3) / 2).sum
noncomputable def invGaussianDlls (phi : ℝ) (y : List ℝ) : ℝ := y.length / (2 * phi)
noncomputable def invGaussianD2lls (phi : ℝ) (y : List ℝ) : ℝ :=
  let ls2 := -y.length / (2 * phi ^ 2);
  -ls2

/-- `Gamma.llscale`, `dllscale`, `d2llscale` — families.py 506-520. -/
noncomputable def gammaLls (sp : Sp) (phi : ℝ) (y : List ℝ) : ℝ :=
  let v := 1 / phi
  (y.map fun y => sp.gammaln v + log phi * v + v + log y).sum
noncomputable def gammaDlls (sp : Sp) (phi : ℝ) (y : List ℝ) : ℝ :=
  let v := 1 / phi;
  -(sp.digamma v + log phi) * v ^ 2 * y.length
noncomputable def gammaD2lls (sp : Sp) (phi : ℝ) (y : List ℝ) : ℝ :=
  let v := 1 / phi
  (sp.trigamma v * v + 2 * sp.digamma v - (1 - 2 * log phi)) * v ^ 3 * y.length

/-- The attribute `_get_a` of the code: missing. -/
def codeGetA : Option (ℝ → ℝ → ℝ) := none

end Verif.Glm
