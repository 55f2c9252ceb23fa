import Verif.Fa.FitMeasures
import Mathlib.Analysis.SpecialFunctions.Trigonometric.Basic
/-!
# Model of the fit measures in `pysem/sem.py`

`np.linalg.pinv`, the upper tail and the quantiles of the chi-square distribution are parameters.  A division by zero and a
square root of a negative number (`inf` or `nan` in numpy) are `none`.  Degrees of freedom are integers.
-/
namespace Verif.Sem.Old
open Matrix Verif.Fa.Old

variable {p : ℕ}

/-- `self.df_cov` — sem.py 182. -/
def dfCov (p : ℕ) : ℕ := p * (p + 1) / 2

/-- The dictionaries of a model — sem.py 183-185, 543-544. -/
structure MDict (p : ℕ) where
  Sigma : Mat p p
  df : ℤ
  t : ℕ

noncomputable def nullDict (S : Mat p p) : MDict p := ⟨diagonal fun i => S i i, (dfCov p : ℤ) - p, p⟩
def fullDict (Sigma : Mat p p) (t : ℕ) : MDict p := ⟨Sigma, (dfCov p : ℤ) - t, t⟩

/-- What `_goodness_of_fit` returns. -/
structure Gof where
  loglik : ℝ
  chi2 : ℝ
  pval : ℝ
  gfi : Option ℝ
  agfi : Option ℝ
  std : Option ℝ
  rmsea : Option ℝ
  cn01 : Option ℝ
  cn05 : Option ℝ
  aic : ℝ
  bic : ℝ
  rmr : ℝ
  srmr : ℝ

/-- `np.mean(vech(X))`. -/
noncomputable def meanVech (X : Mat p p) : ℝ := (∑ k : Tri p, vech X k) / (dfCov p : ℝ)

/-- `_goodness_of_fit` — sem.py 471-508. -/
noncomputable def gof (pinv : Mat p p → Mat p p) (sf ppf : ℝ → ℝ → ℝ) (n : ℝ) (S : Mat p p) (m : MDict p) : Gof :=
  let ldSigma := Real.log |m.Sigma.det|
  let SV := pinv m.Sigma * S
  let LL := ldSigma + SV.trace
  let LLF := n * LL + n * p * Real.log (2.0 * Real.pi)
  let fval := LL - Real.log |S.det| - p
  let Chi2 := (n - 1) * fval
  let GFI := Verif.Fa.Old.gfi pinv m.Sigma S
  let nz : Bool := m.df ≠ 0
  let resids := m.Sigma - S
  let v : Mat p p := diagonal fun i => Real.sqrt (1.0 / S i i)
  let sq : Mat p p := of fun i j => resids i j ^ 2
  { loglik := -LLF / 2.0
    chi2 := Chi2
    pval := sf m.t Chi2
    gfi := GFI
    agfi := if nz then GFI.map fun g => 1.0 - ((dfCov p : ℝ) / m.df) * (1.0 - g) else none
    std := if nz then (qsqrt (2.0 * m.df)).bind fun s => qdiv (Chi2 - m.df) s else none
    rmsea := if nz then (qdiv (max (Chi2 - m.df) 0) (m.df * (n - 1))).bind qsqrt else none
    cn01 := (qdiv (ppf m.df 0.95) fval).map (· + 1.0)
    cn05 := (qdiv (ppf m.df 0.99) fval).map (· + 1.0)
    aic := LLF + 2.0 * m.t
    bic := LLF + Real.log n * m.t
    rmr := Real.sqrt (meanVech sq)
    srmr := Real.sqrt (meanVech (v * sq * v)) }

/-- The relative indices — sem.py 548-557. -/
noncomputable def nfi1 (cn cf : ℝ) : Option ℝ := qdiv (cn - cf) cn
noncomputable def nfi2 (cn cf : ℝ) (dff : ℤ) : Option ℝ := qdiv (cn - cf) (cn - dff)
noncomputable def rho1 (cn cf : ℝ) (dfn dff : ℤ) : Option ℝ :=
  if dff ≠ 0 then (qdiv cn dfn).bind fun a => qdiv (a - cf / dff) a else none
noncomputable def rho2 (cn cf : ℝ) (dfn dff : ℤ) : Option ℝ :=
  if dff ≠ 0 then (qdiv cn dfn).bind fun a => qdiv (a - cf / dff) (a - 1.0) else none
noncomputable def cfiS (cn cf : ℝ) (dfn dff : ℤ) : Option ℝ :=
  (qdiv (max (cf - dff) 0) (max (cf - dff) (cn - dfn))).map fun r => 1.0 - r

end Verif.Sem.Old
