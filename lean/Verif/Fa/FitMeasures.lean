import Verif.Fa.OldEfa
import Mathlib.Analysis.SpecialFunctions.Log.Basic
import Mathlib.Analysis.SpecialFunctions.Sqrt
/-!
# Model of the fit measures of `pyfa/fit_measures.py`, `pyfa/efa.py` and `pyfa/factor_analysis.py`

A square root of a negative number and a division by zero give `nan` or `inf` in numpy; here they are `none`.
`np.linalg.pinv` and `scipy.stats.chi2.sf` are parameters.
-/
namespace Verif.Fa.Old
open Matrix

variable {p m : ℕ}

/-! ## Counts -/

/-- `n_params` of `_make_param_indices` — efa.py 93-110. -/
def nParams (oblique : Bool) (p m : ℕ) : ℕ :=
  let nl := p * m
  let ns := m * (m - 1) / 2
  let nr := p
  if oblique then
    let nc := m * (m - 1)
    (List.range (nl + ns + nr + nc)).length - nc
  else
    let nc := m * (m - 1) / 2
    (List.range nl ++ List.range' (nl + ns) (nr + nc)).length - nc

/-- `df_full` — efa.py 576. -/
def dfFull (oblique : Bool) (p m : ℕ) : ℤ := ((p * (p + 1) / 2 : ℕ) : ℤ) - nParams oblique p m

/-- `degfree` of `_fit_indices` — factor_analysis.py 572-574, with `theta` holding the loadings and the residual variances. -/
noncomputable def degfree (p m : ℕ) : ℝ := ((p : ℝ) + 1.0) * p / 2.0 - ((p * m + p : ℕ) : ℝ)

/-! ## Discrepancy -/

/-- `_full_loglike(Sigma=..., nscale=False)` — efa.py 559-570. -/
noncomputable def fullLoglike (S Sigma : Mat p p) : Option ℝ :=
  (inv? Sigma).map fun Si => 1.0 * (Real.log |Sigma.det| + (Si * S).trace - Real.log |S.det| - p)

/-- `Sigma_null` — efa.py 574. -/
def sigmaNull (S : Mat p p) : Mat p p := diagonal fun i => S i i

/-- Division that is `none` for a zero denominator. -/
noncomputable def qdiv (a b : ℝ) : Option ℝ := if b = 0 then none else some (a / b)

/-- Square root that is `none` below zero. -/
noncomputable def qsqrt (a : ℝ) : Option ℝ := if a < 0 then none else some (Real.sqrt a)

/-! ## Indices from the two test statistics — efa.py 586-592 -/

noncomputable def tli (c0 d0 c1 d1 : ℝ) : Option ℝ :=
  (qdiv c0 d0).bind fun a => (qdiv c1 d1).bind fun b => qdiv (a - b) (a - 1)

noncomputable def nfi (c0 c1 : ℝ) : Option ℝ := qdiv (c0 - c1) c0

noncomputable def ifi (c0 c1 d1 : ℝ) : Option ℝ := qdiv (c0 - c1) (c0 - d1)

noncomputable def rni (c0 d0 c1 d1 : ℝ) : Option ℝ := qdiv ((c0 - d0) - (c1 - d1)) (c0 - d0)

noncomputable def cfi (c0 d0 c1 d1 : ℝ) : Option ℝ := qdiv (max (c0 - d0) 0 - max (c1 - d1) 0) (max (c0 - d0) 0)

/-- `rmsea` — efa.py 592: the second argument of `np.max` is the axis, so nothing is cut off at zero. -/
noncomputable def rmsea (d0 c1 d1 n : ℝ) : Option ℝ := (qdiv (c1 - d1) (d0 * (n - 1))).bind qsqrt

/-- `RMSEA` — factor_analysis.py 579. -/
noncomputable def rmseaF (c1 d1 n : ℝ) : Option ℝ := (qdiv (max (c1 - d1) 0) (d1 * (n - 1))).bind qsqrt

/-- `BIC`, `AIC` — efa.py 596-597. -/
noncomputable def bic (k : ℕ) (n ll : ℝ) : ℝ := k * Real.log n - 2 * ll
noncomputable def aic (k : ℕ) (ll : ℝ) : ℝ := 2 * k - 2 * ll

/-! ## `fit_measures.py` -/

/-- `measure_of_sample_adequacy` — fit_measures.py 11-21, for positive diagonals. -/
noncomputable def msa (Sigma : Mat p p) : Option ℝ :=
  let V : Mat p p := diagonal fun i => Real.sqrt (1 / Sigma i i)
  let R := V * Sigma * V
  (inv? R).bind fun Rinv =>
    let D : Mat p p := diagonal fun i => 1.0 / Real.sqrt (Rinv i i)
    let Q := D * Rinv * D
    let r := ∑ i, ∑ j, if j < i then R i j ^ 2 else 0
    let q := ∑ i, ∑ j, if j < i then Q i j ^ 2 else 0
    qdiv r (r + q)

/-- `srmr` — fit_measures.py 23-32; `df` is not used. -/
noncomputable def srmr (Sigma S : Mat p p) (_df : ℝ) : Option ℝ :=
  let t := ((p : ℝ) + 1.0) * p
  let y := ∑ i, ∑ j, if j < i then (Sigma i j - S i j) ^ 2 / (S i i * S j j) else 0
  qsqrt (2.0 / t * y)

/-- `lr_test` — fit_measures.py 34-42. -/
noncomputable def lrTest (pinv : Mat p p → Mat p p) (sf : ℝ → ℝ → ℝ) (Sigma S : Mat p p) (_df n : ℝ) : ℝ × ℝ :=
  let chi2 := (Real.log |Sigma.det| + (pinv Sigma * S).trace - Real.log |S.det| - p) * n
  let chi2 := max chi2 1e-12
  (chi2, sf chi2 (((p : ℝ) + 1) * p / 2))

/-- `gfi` — fit_measures.py 44-49. -/
noncomputable def gfi (pinv : Mat p p → Mat p p) (Sigma S : Mat p p) : Option ℝ :=
  let tmp1 := pinv Sigma * S
  let tmp2 := tmp1 - 1
  (qdiv (tmp2 * tmp2).trace (tmp1 * tmp1).trace).map fun r => 1.0 - r

/-- `agfi` — fit_measures.py 51-58. -/
noncomputable def agfi (pinv : Mat p p → Mat p p) (Sigma S : Mat p p) (df : ℝ) : Option ℝ :=
  let t := ((p : ℝ) + 1.0) * p
  let tmp1 := pinv Sigma * S
  let tmp2 := tmp1 - 1
  (qdiv (tmp2 * tmp2).trace (tmp1 * tmp1).trace).bind fun r =>
    let y := 1.0 - r
    (qdiv t (2.0 * df)).map fun s => 1.0 - s * (1.0 - y)

end Verif.Fa.Old
