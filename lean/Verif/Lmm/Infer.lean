import Verif.Lmm.Model
import Mathlib.LinearAlgebra.Matrix.Rank
import Mathlib.Analysis.SpecialFunctions.Artanh
import Mathlib.Analysis.SpecialFunctions.Sqrt
/-!
# Model of the inference of `pylmm/re_mod.py`

Distribution functions are parameters.  `np.nan` is `none`.
-/
namespace Verif.Lmm
open Matrix Verif.Fa Verif.Like

/-- What `approx_degfree` returns for one hypothesis. -/
structure DfRes where
  F : ℝ
  df1 : ℕ
  df2 : Option ℝ

/-- `nu_m` — 1302-1306: `P` are the rotated rows of the hypothesis, `J` the derivatives of the covariance. -/
noncomputable def numDf {r p : ℕ} {ι : Type} [Fintype ι] (tiny : ℝ) (P : Mat r p) (J : ι → Mat p p) (V : Matrix ι ι ℝ) (u : Fin r → ℝ)
    (i : Fin r) : ℝ :=
  let D := fun j => (J j *ᵥ P i) ⬝ᵥ P i
  let nud := D ⬝ᵥ (V *ᵥ D)
  u i ^ 2 / max nud tiny

/-- `E` — 1307-1308: the sum over the rows with more than two degrees of freedom. -/
noncomputable def sumE {r : ℕ} (q : ℕ) (num : Fin r → ℝ) : ℝ := ∑ i : Fin r, if i.1 < q ∧ num i > 2 then num i / (num i - 2) else 0

/-- `approx_degfree` for one hypothesis — 1293-1313: `u`, `Q` are the eigenvalues in descending order and eigenvectors of `L C Lᵀ`. -/
noncomputable def degfree {r p : ℕ} {ι : Type} [Fintype ι] (tiny : ℝ) (L : Mat r p) (beta : Fin p → ℝ) (J : ι → Mat p p)
    (V : Matrix ι ι ℝ) (u : Fin r → ℝ) (Q : Mat r r) : DfRes :=
  let q := L.rank
  let P := Qᵀ * L
  let t2 := fun i => (P i ⬝ᵥ beta) ^ 2 / max (u i) tiny
  let f := (∑ i, t2 i) / (q : ℝ)
  let num := numDf tiny P J V u
  let E := sumE q num
  ⟨f, q, if E > (q : ℝ) then some (2 * E / (E - (q : ℝ))) else none⟩

/-- The `p` column of the result table — 1135-1136: `sf` is the survival function of the t distribution. -/
noncomputable def postP (sf : ℝ → ℝ) (est se : ℝ) : ℝ := sf |est / se|

/-- `confint` — 1144-1149: `ppf` is the quantile function of the t distribution. -/
noncomputable def confint (ppf : ℝ → ℝ) (alpha est se : ℝ) : ℝ × ℝ :=
  let q := ppf (1 - alpha / 2)
  (est - q * se, est + q * se)

/-- The summary statistics — 1102-1114. -/
structure Stats where
  ll : ℝ
  llf : ℝ
  AIC : ℝ
  AICC : ℝ
  BIC : ℝ
  CAIC : ℝ

noncomputable def stats (reml : Bool) (nobs nfe npars : ℕ) (nll : ℝ) : Stats :=
  let llconst := if reml then ((nobs : ℝ) - nfe) * Real.log (2 * Real.pi) else nobs * Real.log (2 * Real.pi)
  let neff : ℝ := if reml then (nobs : ℝ) - nfe else nobs
  let d : ℝ := if reml then npars else (nfe : ℝ) + npars
  let ll := llconst + nll
  ⟨ll, -ll / 2, ll + 2 * d, ll + 2 * d * neff / (neff - d - 1), ll + d * Real.log neff, ll + d * (Real.log neff + 1)⟩

/-- `lrt` — 1423-1427: `sf df` is the survival function of the chi squared distribution. -/
noncomputable def lrt (sf : ℕ → ℝ → ℝ) (nth nth' : ℕ) (ll ll' : ℝ) : ℝ × ℕ × ℝ :=
  let df := nth - nth'
  let stat := -(ll - ll')
  (stat, df, if df > 0 then sf df stat else 1)

/-- `variance_decomposition`: the part of one term — 1223-1228. -/
noncomputable def vre {T : Terms} {n p : ℕ} (m : Mme T n p) (th : T.Par → ℝ) (k : Fin T.K) : ℝ :=
  let bl := fun x : Fin (T.nlv k) × Fin (T.nrv k) => (⟨k, x⟩ : T.RE)
  let Zk := m.Z.submatrix id bl
  let Gk := (T.gcov th).submatrix bl bl
  (∑ i, ∑ j, Zk i j * (Zk * Gk) i j) / n

/-- `np.var` of the fitted values — 1216-1217. -/
noncomputable def vfe {T : Terms} {n p : ℕ} (m : Mme T n p) (b : Fin p → ℝ) : ℝ :=
  let eta := m.X *ᵥ b
  let mu := (∑ i, eta i) / n
  (∑ i, (eta i - mu) ^ 2) / n

/-- `r_squared` — 1232-1244: marginal, conditional, per term. -/
noncomputable def rsq {T : Terms} {n p : ℕ} (m : Mme T n p) (th : T.Par → ℝ) (s2 : ℝ) (b : Fin p → ℝ) : ℝ × ℝ × (Fin T.K → ℝ) :=
  let total := vfe m b + ∑ k, vre m th k + s2
  (vfe m b / total, (vfe m b + ∑ k, vre m th k) / total, fun k => vre m th k / total)

/-! ## `_VarCorrReparam` -/

/-- `off_da`, `off_db` — 927-935: the variance of the row, of the column. -/
def dA {T : Terms} (j : T.Par) : T.Par := ⟨j.1, ⟨(j.2.1.1, j.2.1.1), le_refl _⟩⟩
def dB {T : Terms} (j : T.Par) : T.Par := ⟨j.1, ⟨(j.2.1.2, j.2.1.2), le_refl _⟩⟩

/-- `j` is in `off_ix`. -/
def IsOff {T : Terms} (j : T.Par) : Prop := j.2.1.1 ≠ j.2.1.2

instance {T : Terms} (j : T.Par) : Decidable (IsOff j) := inferInstanceAs (Decidable (_ ≠ _))

/-- `_VarCorrReparam.fwd` — 943-951 (the residual variance is left as it is). -/
noncomputable def vcFwd {T : Terms} (th : T.Par → ℝ) (j : T.Par) : ℝ :=
  if IsOff j then
    let den := √(max (th (dA j) * th (dB j)) 1e-30)
    let corr := max (-0.999999) (min (th j / den) 0.999999)
    Real.artanh corr
  else th j

/-- `_VarCorrReparam.rvs` — 953-960. -/
noncomputable def vcRvs {T : Terms} (tau : T.Par → ℝ) (j : T.Par) : ℝ :=
  if IsOff j then √(max (tau (dA j) * tau (dB j)) 0) * Real.tanh (tau j) else tau j

open Classical in
/-- `_VarCorrReparam.jacobian` — 962-979. -/
noncomputable def vcJac {T : Terms} (tiny : ℝ) (tau : T.Par → ℝ) (j i : T.Par) : ℝ :=
  if IsOff j then
    let ta := tau (dA j)
    let tb := tau (dB j)
    let th := Real.tanh (tau j)
    let safe := ta > 0 ∧ tb > 0
    let sab := if safe then √(ta * tb) else 0
    let rba := √(if safe then tb / max ta tiny else 0)
    let rab := √(if safe then ta / max tb tiny else 0)
    if i = j then sab * (1 - th * th)
    else if i = dA j then 0.5 * th * rba
    else if i = dB j then 0.5 * th * rab
    else 0
  else if i = j then 1 else 0

end Verif.Lmm
