import Mathlib.Analysis.SpecialFunctions.Log.Basic
import Mathlib.Analysis.SpecialFunctions.Pow.Real
import Mathlib.Analysis.SpecialFunctions.Trigonometric.Basic
/-!
# Model of `pyglm2/links.py`

Every method acts elementwise, so each is a function of one real number.  A method that raises for
every argument is `none`.  Floating point is replaced by the reals.
-/
namespace Verif.Glm
open Real

/-- The methods of a `Link` — links.py 14-55. -/
structure LinkFns where
  inv : ℝ → ℝ
  /-- `none`: the call raises. -/
  dinv : ℝ → Option ℝ
  d2inv : ℝ → ℝ
  link : ℝ → ℝ
  d1 : ℝ → ℝ
  d2 : ℝ → ℝ
  d3 : ℝ → ℝ
  d4 : ℝ → Option ℝ

/-- `IdentityLink` — links.py 60-100.  `dinv_link` is a static method with parameters
`(self, eta)`; a call with one argument raises `TypeError`. -/
def identityLink : LinkFns where
  inv := fun eta => eta
  dinv := fun _ => none
  d2inv := fun eta => 0 * eta
  link := fun mu => mu
  d1 := fun _ => 1
  d2 := fun _ => 0
  d3 := fun _ => 0
  d4 := fun _ => some 0

/-- `LogitLink` — links.py 103-153. -/
noncomputable def logitLink : LinkFns where
  inv := fun eta => let u := exp eta; u / (u + 1)
  dinv := fun eta => let u := exp eta; some (u / (1 + u) ^ 2)
  d2inv := fun eta => let u := exp eta; -(u * (u - 1)) / (1 + u) ^ 3
  link := fun mu => log (mu / (1 - mu))
  d1 := fun mu => 1 / (mu * (1 - mu))
  d2 := fun mu => (2 * mu - 1) / (mu ^ 2 * (1 - mu) ^ 2)
  d3 := fun mu =>
    let a := -6 * mu ^ 2 + 6 * mu - 2
    let b := (mu - 1) ^ 3 * mu ^ 3
    a / b
  d4 := fun mu =>
    let a := 6 * (4 * mu ^ 3 - 6 * mu ^ 2 + 4 * mu - 1)
    let b := (1 - mu) ^ 4 * mu ^ 4
    some (a / b)

/-- `ProbitLink` — links.py 156-207.  `ndtr`, `ndtri`, `erfinv` are parameters (see `IsNdtr`).
The correction `mu[mu==1.0] -= 1e-16` only applies outside the domain `(0, 1)` and is left out.  `d4link` calls
`sp.special.erfinc`, which does not exist. -/
noncomputable def probitLink (ndtr ndtri erfinv : ℝ → ℝ) : LinkFns where
  inv := ndtr
  dinv := fun eta => some (exp (-eta ^ 2 / 2) / sqrt (2 * π))
  d2inv := fun eta => -eta * exp (-eta ^ 2 / 2) / sqrt (2 * π)
  link := ndtri
  d1 := fun mu => exp (erfinv (2 * mu - 1) ^ 2) * sqrt (2 * π)
  d2 := fun mu =>
    let c := 2 * sqrt 2 * π
    let u := erfinv (2 * mu - 1)
    c * exp (2 * u ^ 2) * u
  d3 := fun mu =>
    let u := erfinv (2 * mu - 1) ^ 2
    let c := 2 * sqrt 2 * π ^ ((3 : ℝ) / 2)
    c * exp (3 * u) * (4 * u + 1)
  d4 := fun _ => none

/-- `LogLink` — links.py 211-252. -/
noncomputable def logLink : LinkFns where
  inv := fun eta => exp eta
  dinv := fun eta => some (exp eta)
  d2inv := fun eta => exp eta
  link := fun mu => log mu
  d1 := fun mu => 1 / mu
  d2 := fun mu => -1 / mu ^ 2
  d3 := fun mu => 2 / mu ^ 3
  d4 := fun mu => some (-6 / mu ^ 4)

/-- `ReciprocalLink` — links.py 253-294. -/
noncomputable def reciprocalLink : LinkFns where
  inv := fun eta => 1 / eta
  dinv := fun eta => some (-1 / eta ^ 2)
  d2inv := fun eta => 2 / eta ^ 3
  link := fun mu => 1 / mu
  d1 := fun mu => -1 / mu ^ 2
  d2 := fun mu => 2 / mu ^ 3
  d3 := fun mu => -6 / mu ^ 4
  d4 := fun mu => some (24 / mu ^ 5)

/-- `CloglogLink` — links.py 297-346. -/
noncomputable def cloglogLink : LinkFns where
  inv := fun eta => 1 - exp (-exp eta)
  dinv := fun eta => some (exp (eta - exp eta))
  d2inv := fun eta => -exp (eta - exp eta) * (exp eta - 1)
  link := fun mu => log (log (1 / (1 - mu)))
  d1 := fun mu => let u := 1 - mu; 1 / (u * log (1 / u))
  d2 := fun mu => let u := log (1 / (1 - mu)); (u - 1) / ((1 - mu) ^ 2 * u ^ 2)
  d3 := fun mu =>
    let u := log (1 / (1 - mu))
    let a := -2 * u ^ 2 + 3 * u - 2
    let b := (mu - 1) ^ 3 * u ^ 3
    a / b
  d4 := fun mu =>
    let u := log (1 / (1 - mu))
    let a := 6 * u ^ 3 - 11 * u ^ 2 + 12 * u - 6
    let b := (1 - mu) ^ 4 * u ^ 4
    some (a / b)

/-- `PowerLink.inv_link`, `dinv_link`, `link` — links.py 359-386. -/
noncomputable def powInv (α eta : ℝ) : ℝ := if α = 0 then exp eta else eta ^ (1 / α)
noncomputable def powDinv (α eta : ℝ) : ℝ :=
  if α = 0 then exp eta else eta ^ (1 / α - 1) / α
noncomputable def powLink (α mu : ℝ) : ℝ := if α = 0 then log mu else mu ^ α

/-- `PowerLink(alpha)` — links.py 350-410. -/
noncomputable def powerLink (α : ℝ) : LinkFns where
  inv := powInv α
  dinv := fun eta => some (powDinv α eta)
  d2inv := fun eta => if α = 0 then exp eta else (α - 1) * eta ^ (1 / α - 2) / α ^ 2
  link := powLink α
  d1 := fun mu => 1 / powDinv α (powLink α mu)
  d2 := fun mu => if α = 0 then -1 / mu ^ 2 else (α - 1) * α * mu ^ (α - 2)
  d3 := fun mu => if α = 0 then 2 / mu ^ 3 else (α - 2) * (α - 1) * α * mu ^ (α - 3)
  d4 := fun mu => some
    (if α = 0 then -6 / mu ^ 4 else (α - 3) * (α - 2) * (α - 1) * α * mu ^ (α - 4))

/-- `LogComplementLink` — links.py 413-454. -/
noncomputable def logCompLink : LinkFns where
  inv := fun eta => 1 - exp eta
  dinv := fun eta => some (-exp eta)
  d2inv := fun eta => -exp eta
  link := fun mu => log (1 - mu)
  d1 := fun mu => -1 / (1 - mu)
  d2 := fun mu => -1 / (1 - mu) ^ 2
  d3 := fun mu => 2 / (mu - 1) ^ 3
  d4 := fun mu => some (-6 / (1 - mu) ^ 4)

/-- `NegativeBinomialLink` with attributes `k`, `v` — links.py 456-505. -/
noncomputable def negBinLinkKV (k v : ℝ) : LinkFns where
  inv := fun eta => let u := exp eta; u / (k * (1 - u))
  dinv := fun eta => let u := exp eta; some (u / (k * (1 - u) ^ 2))
  d2inv := fun eta =>
    let u := exp eta
    let num := u * (u + 1)
    let den := k * (u - 1) ^ 3;
    -num / den
  link := fun mu => log (mu / (mu + v))
  d1 := fun mu => 1 / (mu + k * mu ^ 2)
  d2 := fun mu =>
    let a := v * (v + 2 * mu)
    let b := mu ^ 2 * (v + mu) ^ 2
    a / b
  d3 := fun mu =>
    let a := 2 * v * (v ^ 2 + 3 * v * mu + 3 * mu ^ 2)
    let b := mu ^ 3 * (v + mu) ^ 3
    a / b
  d4 := fun mu =>
    let a := 6 * v * (v ^ 3 + 4 * v ^ 2 * mu + 6 * v * mu ^ 2 + 4 * mu ^ 3)
    let b := mu ^ 4 * (mu + v) ^ 4
    some (a / b)

/-- `NegativeBinomialLink(scale)`: `k = scale`, `v = 1 / scale`. -/
noncomputable def negBinLink (scale : ℝ) : LinkFns := negBinLinkKV scale (1 / scale)

end Verif.Glm
