import Mathlib.Analysis.SpecialFunctions.Log.Basic
/-!
# Model of the summary statistics of `pyglm2/likelihood_model.py`

The argument called `ll` is what every model of the package returns from `full_loglike`: minus the log-likelihood.
Counts are Python integers.
-/
namespace Verif.Like
open Real

/-- The four criteria. -/
structure Info where
  aic : ℝ
  aicc : ℝ
  bic : ℝ
  caic : ℝ

/-- `_get_information` — likelihood_model.py 144-150.  Dividing integers by zero raises: `none`. -/
noncomputable def getInformation (ll : ℝ) (k n : ℕ) : Option Info :=
  let logn := log n
  let tll := 2 * ll
  let aic := tll + 2 * k
  if (n : ℤ) - k - 1 = 0 then none else
    let aicc := tll + 2 * k * n / ((n : ℤ) - k - 1 : ℤ)
    let bic := tll + k * logn
    let caic := tll + k * (logn + 1)
    some { aic := aic, aicc := aicc, bic := bic, caic := caic }

/-- The returned tuple of `_get_pseudo_rsquared`. -/
structure PseudoR2 where
  cs : ℝ
  nk : ℝ
  mc : ℝ
  mb : ℝ
  es : ℝ
  ea : ℝ
  an : ℝ
  vz : ℝ
  llr : ℝ

/-- `_get_pseudo_rsquared` — likelihood_model.py 179-189, for real division and logarithm (the theorems keep the
arguments of both in their domains). -/
noncomputable def pseudoR2 (ll_model ll_null : ℝ) (k n : ℕ) : PseudoR2 :=
  let cs := 1 - exp (2.0 / n * (ll_model - ll_null))
  { cs := cs
    nk := cs / (1 - exp (2.0 / n * -ll_null))
    mc := 1.0 - ll_model / ll_null
    mb := 1.0 - (ll_model - k) / ll_null
    es := 1.0 - exp ((2 * ll_null / n) * log (1.0 - 2.0 * (ll_null - ll_model) / (2 * ll_null)))
    ea := 1.0 - exp ((2 * ll_null / n) * log ((k - ll_model) / -ll_null))
    an := 2.0 * (ll_null - ll_model) / (2.0 * (ll_null - ll_model) + n)
    vz := (2.0 * (ll_null - ll_model) * (2 * ll_null + n)) / (2.0 * (ll_null * (2 * (ll_null - ll_model) + n)))
    llr := 2.0 * (ll_null - ll_model) }

/-- The statistic of `_lr_test` — likelihood_model.py 452-455. -/
noncomputable def lrStat (ll_unconstrained ll_constrained : ℝ) : ℝ :=
  let ll_full := ll_unconstrained
  let ll_null := ll_constrained
  2.0 * (ll_full - ll_null)

end Verif.Like
