import Verif.Reg.Beta
/-!
# `ZIP`: zero inflated Poisson regression (pystatsm/pyglm/zimodels.py)

`params = (b, a)`; the rows with `y = 0` (`ix0`) and the others (`ix1`) are sums over the rows satisfying the condition. The
optimiser is left out.
-/
namespace Verif.Reg
open Matrix Real Verif.Glm

variable {n p q : ℕ}

/-- `_loglikez` (zimodels.py 69-73). -/
noncomputable def zipLlz (x z : ℝ) : ℝ :=
  let mux := exp x
  let muz := exp z
  log (muz + exp (-mux))

/-- `_llc` (zimodels.py 53). -/
noncomputable def zipLlc (sp : Sp) (y : ℝ) : ℝ := sp.gammaln y

/-- `_logliken` (zimodels.py 75-78). -/
noncomputable def zipLln (sp : Sp) (y x : ℝ) : ℝ :=
  let mu := exp x
  y * log mu - mu - zipLlc sp y

/-- `llm` (zimodels.py 85). -/
noncomputable def zipLlm (z : ℝ) : ℝ := log (1 + exp z)

/-- `loglike` (zimodels.py 80-87). -/
noncomputable def zipLoglike (sp : Sp) (X : Matrix (Fin n) (Fin p) ℝ) (Z : Matrix (Fin n) (Fin q) ℝ) (y : Fin n → ℝ) (params : Fin (p + q) → ℝ) : ℝ :=
  let ex := X *ᵥ fstPart params
  let ez := Z *ᵥ sndPart params
  let ll := (∑ i with y i = 0, zipLlz (ex i) (ez i)) + (∑ i with ¬y i = 0, zipLln sp (y i) (ex i)) - ∑ i, zipLlm (ez i)
  let r := -ll
  r

/-- `w` of `_gradientb` (zimodels.py 90). -/
noncomputable def zipWb (mu0 u0 : ℝ) : ℝ := mu0 / (exp mu0 * u0 + 1)

/-- `w` of `_gradienta` (zimodels.py 96-97). -/
noncomputable def zipWa (mu0 u0 : ℝ) : ℝ :=
  let v := u0 * exp mu0
  v / (v + 1)

/-- `gradient` (zimodels.py 89-111). -/
noncomputable def zipGrad (X : Matrix (Fin n) (Fin p) ℝ) (Z : Matrix (Fin n) (Fin q) ℝ) (y : Fin n → ℝ) (params : Fin (p + q) → ℝ) : Fin (p + q) → ℝ :=
  let u := fun i => exp ((Z *ᵥ sndPart params) i)
  let mu := fun i => exp ((X *ᵥ fstPart params) i)
  let db := fun j => -(∑ i with y i = 0, X i j * zipWb (mu i) (u i)) + ∑ i with ¬y i = 0, X i j * (y i - mu i)
  let da := fun j => (∑ i with y i = 0, Z i j * zipWa (mu i) (u i)) - ∑ i, Z i j * (u i / (u i + 1))
  let g := concat db da
  fun k => -g k

/-- `w` of `_hessbb` (zimodels.py 114-115). -/
noncomputable def zipWbb (mu0 u0 : ℝ) : ℝ :=
  let w := mu0 * ((mu0 - 1) * u0 * exp mu0 - 1)
  w / (u0 * exp mu0 + 1) ^ 2

/-- `w` of `_hessaa` (zimodels.py 122-123). -/
noncomputable def zipWaa (mu0 u0 : ℝ) : ℝ :=
  let v := u0 * exp mu0
  v / (v + 1) ^ 2

/-- `w` of `_hessba` (zimodels.py 132-133). -/
noncomputable def zipWba (mu0 u0 : ℝ) : ℝ :=
  let v := u0 * exp mu0
  (v * mu0) / (v + 1) ^ 2

/-- `hessian` (zimodels.py 113-150). -/
noncomputable def zipHess (X : Matrix (Fin n) (Fin p) ℝ) (Z : Matrix (Fin n) (Fin q) ℝ) (y : Fin n → ℝ) (params : Fin (p + q) → ℝ) : Matrix (Fin (p + q)) (Fin (p + q)) ℝ :=
  let u := fun i => exp ((Z *ᵥ sndPart params) i)
  let mu := fun i => exp ((X *ᵥ fstPart params) i)
  let Hbb : Matrix (Fin p) (Fin p) ℝ := fun j k => (∑ i with y i = 0, X i j * zipWbb (mu i) (u i) * X i k) - ∑ i with ¬y i = 0, X i j * mu i * X i k
  let Haa : Matrix (Fin q) (Fin q) ℝ := fun j k => (∑ i with y i = 0, Z i j * zipWaa (mu i) (u i) * Z i k) - ∑ i, Z i j * (u i / (u i + 1) ^ 2) * Z i k
  let Hba : Matrix (Fin p) (Fin q) ℝ := fun j k => ∑ i with y i = 0, X i j * zipWba (mu i) (u i) * Z i k
  let H := block Hbb Hba Hbaᵀ Haa
  fun j k => -H j k

/-- One entry of `predict` (zimodels.py 152-160). -/
noncomputable def zipPredict (x z : ℝ) : ℝ × ℝ :=
  let u := exp z
  let mu := exp x
  let prob := u / (1 + u)
  let yhat := mu * (1 - prob)
  let var := yhat * (1 + mu * prob)
  (yhat, var)

/-- The fit statistics (zimodels.py 173, 184-186, 192-197). -/
structure ZipStats where
  llr : ℝ
  aic : ℝ
  bic : ℝ
  aicc : ℝ
  cs : ℝ
  nag : ℝ
  mcf : ℝ
  mcfa : ℝ
  mfa : ℝ

noncomputable def zipStats (ll_model ll_null k N : ℝ) : ZipStats :=
  let llr := -2 * (ll_null - ll_model)
  let aic := -2 * (ll_model - k)
  let cs := 1 - exp (1 / N * (ll_null - ll_model))
  let rmax := 1 - exp (1 / N * ll_null)
  { llr := llr
    aic := aic
    bic := k * log N - 2 * ll_model
    aicc := aic + (k ^ 2 + k) / (N - k - 1)
    cs := cs
    nag := cs / rmax
    mcf := 1 - ll_model / ll_null
    mcfa := 1 - (-ll_model - k) / -ll_null
    mfa := llr / (llr + N) }

/-- Entrywise sum of two sequences of labels, one of length one being repeated; other lengths must agree. -/
def addLabels (a b : List String) : Option (List String) :=
  if a.length = b.length then some (List.zipWith (· ++ ·) a b)
  else match a, b with
    | a, [s] => some (a.map (· ++ s))
    | [s], b => some (b.map (s ++ ·))
    | _, _ => none

/-- `xcols + zcols` (zimodels.py 182): lists are joined; a pandas index is added to a list or an index entry by entry. -/
def Cols.add : Cols → Cols → Option (List String)
  | .list a, .list b => some (a ++ b)
  | .list a, .index b => addLabels a b
  | .index a, .list b => addLabels a b
  | .index a, .index b => addLabels a b

/-- `res.index = xcols + zcols` (zimodels.py 182): the number of labels must be the number of rows. -/
def zipLabels (xcols zcols : Cols) (rows : ℕ) : Option (List String) := do
  let l ← xcols.add zcols
  if l.length = rows then some l else none

end Verif.Reg
