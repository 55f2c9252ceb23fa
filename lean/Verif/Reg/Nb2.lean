import Verif.Reg.Two
import Verif.Glm.Families
/-!
# `NegativeBinomial` (pystatsm/pyglm/nb2.py)

`params = (beta, log kappa)`; the gamma functions are the parameter `sp`; the optimiser and the tables of coefficients are left out.
-/
namespace Verif.Reg
open Matrix Real Verif.Glm

variable {n p : ℕ}

/-- `params[-1]`. -/
def lastP (params : Fin (p + 1) → ℝ) : ℝ := sndPart params 0

/-- One entry of `ll` (nb2.py 42-47) from `X.dot(beta)` and `params[-1]`. -/
noncomputable def nbLl (sp : Sp) (y x z : ℝ) : ℝ :=
  let kappa := exp z
  let mu := exp x
  let a := 1 / kappa
  let u := y + a
  let v := kappa * mu
  y * log v - u * log (1 + v) + sp.gammaln u - sp.gammaln a

/-- `loglike` (nb2.py 39-50). -/
noncomputable def nbLoglike (sp : Sp) (X : Matrix (Fin n) (Fin p) ℝ) (y : Fin n → ℝ) (params : Fin (p + 1) → ℝ) : ℝ :=
  let ll := ∑ i, nbLl sp (y i) ((X *ᵥ fstPart params) i) (lastP params)
  let ll' := ll - ∑ i, sp.gammaln (y i + 1)
  let r := -ll'
  r

/-- `w` (nb2.py 57). -/
noncomputable def nbW (x z : ℝ) : ℝ :=
  let kappa := exp z
  let mu := exp x
  1 / ((mu + kappa * mu ^ 2) * (1 / mu))

/-- One entry of `gt` (nb2.py 59-61). -/
noncomputable def nbGt (sp : Sp) (y x z : ℝ) : ℝ :=
  let kappa := exp z
  let mu := exp x
  let u := kappa * (y - mu) / (1 + kappa * mu)
  (u + log (1 + kappa * mu) - sp.digamma (y + 1 / kappa) + sp.digamma (1 / kappa)) / kappa

/-- `gradient` (nb2.py 52-64). -/
noncomputable def nbGrad (sp : Sp) (X : Matrix (Fin n) (Fin p) ℝ) (y : Fin n → ℝ) (params : Fin (p + 1) → ℝ) : Fin (p + 1) → ℝ :=
  let e := X *ᵥ fstPart params
  let z := lastP params
  let gb := wdv X (fun i => nbW (e i) z) (fun i => y i - exp (e i))
  let gt := ∑ i, nbGt sp (y i) (e i) z
  let g := concat gb (fun _ : Fin 1 => gt)
  fun k => -g k

/-- `wbb` (nb2.py 75). -/
noncomputable def nbWbb (y x z : ℝ) : ℝ :=
  let kappa := exp z
  let mu := exp x
  let u := 1 + kappa * mu
  mu * (1 + kappa * y) / u ^ 2

/-- The weights of `H21` (nb2.py 77). -/
noncomputable def nbWbt (y x z : ℝ) : ℝ :=
  let kappa := exp z
  let mu := exp x
  let u := 1 + kappa * mu
  let r := y - mu
  kappa * r / (u ^ 2 * 1 / mu)

/-- One entry of `H22` (nb2.py 79-84). -/
noncomputable def nbWtt (sp : Sp) (y x z : ℝ) : ℝ :=
  let kappa := exp z
  let mu := exp x
  let a := 1 / kappa
  let u := 1 + kappa * mu
  let denom := -y * kappa * mu + mu + 2 * kappa * mu ^ 2
  let numer := u ^ 2
  let v := denom / numer
  v - a * log u + a * (sp.digamma (y + a) - sp.digamma a) + a ^ 2 * (sp.trigamma (y + a) - sp.trigamma a)

/-- `hessian` (nb2.py 66-89). -/
noncomputable def nbHess (sp : Sp) (X : Matrix (Fin n) (Fin p) ℝ) (y : Fin n → ℝ) (params : Fin (p + 1) → ℝ) : Matrix (Fin (p + 1)) (Fin (p + 1)) ℝ :=
  let e := X *ᵥ fstPart params
  let z := lastP params
  let H11 : Matrix (Fin p) (Fin p) ℝ := fun j k => -∑ i, X i j * nbWbb (y i) (e i) z * X i k
  let H21 : Matrix (Fin 1) (Fin p) ℝ := fun _ j => -∑ i, X i j * nbWbt (y i) (e i) z
  let H22 : Matrix (Fin 1) (Fin 1) ℝ := fun _ _ => ∑ i, nbWtt sp (y i) (e i) z
  let H := block H11 H21ᵀ H21 H22
  fun j k => -H j k

/-- `deviance` (nb2.py 91-102). -/
noncomputable def nbDeviance (X : Matrix (Fin n) (Fin p) ℝ) (y : Fin n → ℝ) (params : Fin (p + 1) → ℝ) : ℝ :=
  let a := exp (lastP params)
  let mu := fun i => exp ((X *ᵥ fstPart params) i)
  let v := 1 / a
  let dev1 := ∑ i with 0 < y i, (y i * log (y i / mu i) - (y i + v) * log ((y i + v) / (mu i + v)))
  let dev2 := ∑ i with ¬0 < y i, log (1 + a * mu i) / a
  2 * (dev1 + dev2)

/-- One entry of `chi2` (nb2.py 134-135). -/
noncomputable def nbChi2 (y yhat kappa : ℝ) : ℝ := (y - yhat) ^ 2 / (yhat + yhat ^ 2 * kappa)

/-- `LLR`, `BIC`, `AIC`, `rcs`, `rna`, `rmf`, `rma`, `rad` (nb2.py 129-131, 144-150): `k = len(params)`, `p` columns of `X`. -/
structure NbStats where
  llr : ℝ
  bic : ℝ
  aic : ℝ
  rcs : ℝ
  rna : ℝ
  rmf : ℝ
  rma : ℝ
  rad : ℝ

noncomputable def nbStats (ll_full ll_null k p n : ℝ) : NbStats :=
  let llr := 2 * (ll_full - ll_null)
  let rmax := 1 - exp (2 / n * ll_null)
  let rcs := 1 - exp (2 / n * -(ll_full - ll_null))
  { llr := llr
    bic := log n * k - 2 * ll_full
    aic := 2 * k - 2 * ll_full
    rcs := rcs
    rna := rcs / rmax
    rmf := 1 - ll_full / ll_null
    rma := 1 - (ll_full - p) / ll_null
    rad := llr / (llr + n) }

/-- The state that `bootstrap` moves. -/
structure NbState (R : Type) (n p : ℕ) where
  X : Fin n → Fin p → R
  Y : Fin n → R
  y : Fin n → R

/-- The body of the loop of `bootstrap` (nb2.py 185-187) for the drawn indices. -/
def nbResample {R : Type} (s0 s : NbState R n p) (ix : Fin n → Fin n) : NbState R n p :=
  { s with X := fun i => s0.X (ix i), y := fun i => s0.Y (ix i) }

/-- The data after `bootstrap` (nb2.py 179-197) with one set of indices per round. -/
def nbBootstrap {R : Type} (s0 : NbState R n p) (ixs : List (Fin n → Fin n)) : NbState R n p :=
  let s := ixs.foldl (nbResample s0) s0
  { s with X := s0.X, Y := s0.Y }

end Verif.Reg
