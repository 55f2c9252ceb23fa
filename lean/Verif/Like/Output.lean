import Mathlib.Analysis.SpecialFunctions.Pow.Real
/-!
# Model of `utilities/output.py`

One parameter (one row of the table) at a time.  The distribution of `scipy` is a pair of functions; the theorems assume of it what a
continuous distribution symmetric about zero satisfies.
-/
namespace Verif.Like.Output

/-- One row of `get_param_table` — output.py 53-61. -/
structure Row where
  param : ℝ
  se : ℝ
  t : ℝ
  p : ℝ
  lower : ℝ
  upper : ℝ

/-- `get_param_table` — output.py 55-61, for nonzero standard errors. -/
noncomputable def paramRow (sf ppf : ℝ → ℝ) (pconst alpha : ℝ) (param se : ℝ) : Row :=
  let t := param / se
  let p := sf |t| * pconst
  let lower := param + ppf (alpha / 2) * se
  let upper := param + ppf (1 - alpha / 2) * se
  ⟨param, se, t, p, lower, upper⟩

/-- `np.mean` of a list. -/
noncomputable def mean (l : List ℝ) : ℝ := l.sum / l.length

/-- The acceleration — output.py 90-96. -/
noncomputable def accel (jack : List ℝ) : ℝ :=
  let d := jack.map fun x => mean jack - x
  let num := (d.map fun x => x * x * x).sum
  let den := 6 * (d.map fun x => x * x).sum ^ (3 / 2 : ℝ)
  if den ≠ 0 then num / den else 0

/-- The bias correction — output.py 89; `ndtri` is infinite when all or none of the resamples exceed the estimate, and the quantile
of line 113 then fails. -/
noncomputable def bias (ndtri : ℝ → ℝ) (param : ℝ) (boot : List ℝ) : Option ℝ :=
  open Classical in
  let q := mean (boot.map fun b => if param < b then 1 else 0)
  if 0 < q ∧ q < 1 then some (ndtri q) else none

/-- One adjusted level — output.py 103-109; where the denominator is zero the value is left uninitialised. -/
noncomputable def level (ndtr : ℝ → ℝ) (z0 a z : ℝ) : Option ℝ :=
  let cse := z0 + z
  if 1 - a * cse ≠ 0 then some (ndtr (z0 + cse / (1 - a * cse))) else none

/-- `compute_bias_corrected_bootstrap_intervals` — output.py 89-109: the levels of the two quantiles. -/
noncomputable def bca (ndtr ndtri : ℝ → ℝ) (param : ℝ) (jack boot : List ℝ) (alpha : ℝ) : Option (ℝ × ℝ) := do
  let z0 ← bias ndtri param boot
  let a := accel jack
  let l ← level ndtr z0 a (ndtri (alpha / 2))
  let r ← level ndtr z0 a (ndtri (1 - alpha / 2))
  return (l, r)

/-- The interval — output.py 111-113: `quantile` is `np.quantile` of the resamples. -/
noncomputable def bcaInterval (ndtr ndtri : ℝ → ℝ) (quantile : List ℝ → ℝ → ℝ) (param : ℝ) (jack boot : List ℝ) (alpha : ℝ) : Option (ℝ × ℝ) := do
  let q ← bca ndtr ndtri param jack boot alpha
  return (quantile boot q.1, quantile boot q.2)

end Verif.Like.Output
