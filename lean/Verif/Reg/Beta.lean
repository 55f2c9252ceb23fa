import Verif.Reg.Two
import Verif.Glm.Families
/-!
# `BetaReg` (pystatsm/pyglm/betareg.py)

The gamma functions are the parameter `sp` (`Verif.Glm.Sp`); the optimiser and the tables of coefficients are left out except for
their labels.
-/
namespace Verif.Reg
open Matrix Real Verif.Glm

variable {n p q : ℕ}

/-- The methods of a `Link` used by `BetaReg`. -/
structure BLink where
  inv : ℝ → ℝ
  dlink : ℝ → ℝ
  d2link : ℝ → ℝ

/-- `LogitLink` (links.py 69-97). -/
noncomputable def BLink.logit : BLink where
  inv := fun eta => exp eta / (exp eta + 1)
  dlink := fun mu => 1 / (mu * (1 - mu))
  d2link := fun mu => (2 * mu - 1) / (mu ^ 2 * (1 - mu) ^ 2)

/-- `LogLink` (links.py 158-182). -/
noncomputable def BLink.log : BLink where
  inv := exp
  dlink := fun mu => 1 / exp (Real.log mu)
  d2link := fun mu => -1 / mu ^ 2

/-- The state of a `BetaReg` used by the likelihood. -/
structure BetaReg (n p q : ℕ) where
  X : Matrix (Fin n) (Fin p) ℝ
  Z : Matrix (Fin n) (Fin q) ℝ
  y : Fin n → ℝ
  mlink : BLink
  slink : BLink
  ys : Fin n → ℝ
  logy : Fin n → ℝ
  log1y : Fin n → ℝ

/-- `BetaReg.__init__` (betareg.py 56-68). -/
noncomputable def betaInit (X : Matrix (Fin n) (Fin p) ℝ) (Z : Matrix (Fin n) (Fin q) ℝ) (y : Fin n → ℝ) (ml sl : BLink) : BetaReg n p q where
  X := X
  Z := Z
  y := y
  mlink := ml
  slink := sl
  ys := fun i => log (y i / (1 - y i))
  logy := fun i => log (y i)
  log1y := fun i => log (1 - y i)

/-- One entry of `loglike_elementwise` (betareg.py 75-79) from the two predictors. -/
noncomputable def betaNll (sp : Sp) (ml sl : BLink) (logy log1y etam etas : ℝ) : ℝ :=
  let mu := ml.inv etam
  let phi := sl.inv etas
  let mu_phi := mu * phi
  let r := -(sp.gammaln phi - sp.gammaln mu_phi - sp.gammaln (phi - mu_phi) + (mu_phi - 1) * logy + (phi - mu_phi - 1) * log1y)
  r

/-- `loglike` (betareg.py 70-82), `X`, `Z` left to default. -/
noncomputable def betaLoglike (sp : Sp) (B : BetaReg n p q) (theta : Fin (p + q) → ℝ) : ℝ :=
  ∑ i, betaNll sp B.mlink B.slink (B.logy i) (B.log1y i) ((B.X *ᵥ fstPart theta) i) ((B.Z *ᵥ sndPart theta) i)

/-- `wm` (betareg.py 91). -/
noncomputable def betaWm (ml sl : BLink) (etam etas : ℝ) : ℝ := sl.inv etas / ml.dlink (ml.inv etam)

/-- `ws` (betareg.py 92). -/
noncomputable def betaWs (sl : BLink) (etas : ℝ) : ℝ := 1 / sl.dlink (sl.inv etas)

/-- `rm` (betareg.py 94-96). -/
noncomputable def betaRm (sp : Sp) (ml sl : BLink) (ys etam etas : ℝ) : ℝ :=
  let mu := ml.inv etam
  let phi := sl.inv etas
  let mu_phi := mu * phi
  let d := sp.digamma (phi - mu_phi)
  let u := sp.digamma mu_phi - d
  ys - u

/-- `rs` (betareg.py 97). -/
noncomputable def betaRs (sp : Sp) (ml sl : BLink) (ys log1y etam etas : ℝ) : ℝ :=
  let mu := ml.inv etam
  let phi := sl.inv etas
  let d := sp.digamma (phi - mu * phi)
  mu * betaRm sp ml sl ys etam etas + sp.digamma phi - d + log1y

/-- `gradient` (betareg.py 84-102). -/
noncomputable def betaGrad (sp : Sp) (B : BetaReg n p q) (theta : Fin (p + q) → ℝ) : Fin (p + q) → ℝ :=
  let em := B.X *ᵥ fstPart theta
  let es := B.Z *ᵥ sndPart theta
  let gm := wdv B.X (fun i => betaWm B.mlink B.slink (em i) (es i)) (fun i => betaRm sp B.mlink B.slink (B.ys i) (em i) (es i))
  let gs := wdv B.Z (fun i => betaWs B.slink (es i)) (fun i => betaRs sp B.mlink B.slink (B.ys i) (B.log1y i) (em i) (es i))
  let g := -concat gm gs
  g

/-- `g1m`, `g1s` (betareg.py 118, 121). -/
noncomputable def betaG1 (l : BLink) (eta : ℝ) : ℝ := 1 / l.dlink (l.inv eta)

/-- `g2m`, `g2s` (betareg.py 119, 122). -/
noncomputable def betaG2 (l : BLink) (eta : ℝ) : ℝ := -l.d2link (l.inv eta) * betaG1 l eta ^ 2

/-- `wmm` (betareg.py 113-119, 132). -/
noncomputable def betaWmm (sp : Sp) (ml sl : BLink) (ys etam etas : ℝ) : ℝ :=
  let mu := ml.inv etam
  let phi := sl.inv etas
  let mu_phi := mu * phi
  let phi_mu := phi - mu_phi
  let u := sp.digamma mu_phi - sp.digamma phi_mu
  let dL_dmu := -phi * (ys - u)
  let d2L_dmu2 := phi ^ 2 * (sp.trigamma mu_phi + sp.trigamma phi_mu)
  (d2L_dmu2 * betaG1 ml etam + dL_dmu * betaG2 ml etam) * betaG1 ml etam

/-- `wms` (betareg.py 124, 133). -/
noncomputable def betaWms (sp : Sp) (ml sl : BLink) (ys etam etas : ℝ) : ℝ :=
  let mu := ml.inv etam
  let phi := sl.inv etas
  let mu_phi := mu * phi
  let phi_mu := phi - mu_phi
  let u := sp.digamma mu_phi - sp.digamma phi_mu
  let u1 := mu * sp.trigamma mu_phi - (1 - mu) * sp.trigamma phi_mu
  let r := -((ys - u) - phi * u1) * betaG1 ml etam * betaG1 sl etas
  r

/-- `wss` (betareg.py 126-127, 135). -/
noncomputable def betaWss (sp : Sp) (ml sl : BLink) (ys log1y etam etas : ℝ) : ℝ :=
  let mu := ml.inv etam
  let phi := sl.inv etas
  let mu_phi := mu * phi
  let phi_mu := phi - mu_phi
  let dL_dphi := mu * (ys - (sp.digamma mu_phi - sp.digamma phi_mu)) + sp.digamma phi - sp.digamma phi_mu + log1y
  let d2L_dphi2 := -mu ^ 2 * sp.trigamma mu_phi + (mu - 1) ^ 2 * (-sp.trigamma phi_mu) + sp.trigamma phi
  let r := -(d2L_dphi2 * betaG1 sl etas + dL_dphi * betaG2 sl etas) * betaG1 sl etas
  r

/-- `hessian` (betareg.py 104-141). -/
noncomputable def betaHess (sp : Sp) (B : BetaReg n p q) (theta : Fin (p + q) → ℝ) : Matrix (Fin (p + q)) (Fin (p + q)) ℝ :=
  let em := B.X *ᵥ fstPart theta
  let es := B.Z *ᵥ sndPart theta
  let Hmm := wdm B.X (fun i => betaWmm sp B.mlink B.slink (B.ys i) (em i) (es i)) B.X
  let Hms := wdm B.X (fun i => betaWms sp B.mlink B.slink (B.ys i) (em i) (es i)) B.Z
  let Hss := wdm B.Z (fun i => betaWss sp B.mlink B.slink (B.ys i) (B.log1y i) (em i) (es i)) B.Z
  block Hmm Hms Hmsᵀ Hss

/-- The fit statistics (betareg.py 166-181) from `llf = loglike(theta)`, `lln = loglike(theta_null)`, the number `k` of parameters
and `N` of observations. -/
structure BetaStats where
  aic : ℝ
  aicc : ℝ
  bic : ℝ
  caic : ℝ
  llr : ℝ
  cs : ℝ
  nag : ℝ
  mcf : ℝ
  mcfa : ℝ
  mfa : ℝ

noncomputable def betaStats (llf lln k N : ℝ) : BetaStats :=
  let llr := 2 * (lln - llf)
  let cs := 1 - exp (2 / N * (llf - lln))
  let rmax := 1 - exp (2 / N * lln)
  { aic := -2 * llf + k
    aicc := -2 * llf + (2 * k * N) / (N - k - 1)
    bic := -2 * llf + log N * k
    caic := -2 * llf + k * (log N + 1)
    llr := llr
    cs := cs
    nag := cs / rmax
    mcf := 1 - lln / llf
    mcfa := 1 - (lln - k) / llf
    mfa := 1 - llr / (llr + N) }

/-- Column labels: a list for arrays, a pandas index for data frames. -/
inductive Cols where
  | list (l : List String)
  | index (l : List String)

/-- `cols.tolist()`: a list has no such method. -/
def Cols.tolist : Cols → Option (List String)
  | .list _ => none
  | .index l => some l

/-- The labels of `BetaReg.fit`'s table (betareg.py 151). -/
def betaLabels (xcols zcols : Cols) : Option (List String) := do
  let a ← xcols.tolist
  let b ← zcols.tolist
  return a ++ b

/-- The labels an array of `k` columns gets (betareg.py 36, 43). -/
def arrayCols (v : String) (k : ℕ) : Cols := .list ((List.range k).map fun i => v ++ toString (i + 1))

end Verif.Reg
