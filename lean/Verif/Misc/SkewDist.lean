import Verif.Misc.SkewNorm

/-!
# The other functions of `skewnorm_dist.py`

`numpy` floats are real numbers; `sp.special.log_ndtr` is a parameter.
-/

namespace Verif.Misc.SkewNorm

/-- `_logpdf` (`/repo/pystatsm/misc/skewnorm_dist.py:283-287`). -/
noncomputable def logpdf (log_ndtr : ℝ → ℝ) (x m s v : ℝ) : ℝ :=
  let z := (x - m) / s
  let u := log_ndtr (v * z)
  u - Real.log s + (Real.log 2 - Real.log Real.pi - z ^ 2) / 2

/-- A call of a Python function with `n` positional parameters and no defaults: any other number of
arguments is a `TypeError`. -/
def call {α : Type*} (n : ℕ) (f : List ℝ → Option α) (l : List ℝ) : Option α :=
  if l.length = n then f l else none

/-- `SkewNorm.loglike`, `d1loglike`, …, `d4loglike`
(`/repo/pystatsm/misc/skewnorm_dist.py:14-34`): all five take `y, mu, sigma, nu, tau` and hand all
five arguments to a function of the four parameters `x, m, s, v`. -/
noncomputable def loglike (log_ndtr : ℝ → ℝ) (y mu sigma nu tau : ℝ) : Option ℝ :=
  call 4 (fun l => some (logpdf log_ndtr (l.getD 0 0) (l.getD 1 0) (l.getD 2 0) (l.getD 3 0)))
    [y, mu, sigma, nu, tau]

noncomputable def dloglike (k : ℕ) (y mu sigma nu tau : ℝ) : Option (List ℝ) :=
  call 4 ((prog k).block 0) [y, mu, sigma, nu, tau]

/-- `_mean` (`/repo/pystatsm/misc/skewnorm_dist.py:300-303`). -/
noncomputable def mean (m s v : ℝ) : ℝ :=
  let t := √(2 / ((1 + v ^ 2) * Real.pi))
  m + s * v * t

/-- `_variance` (`/repo/pystatsm/misc/skewnorm_dist.py:305-308`). -/
noncomputable def variance (_m s v : ℝ) : ℝ :=
  let t := 2 * v ^ 2 / ((1 + v ^ 2) * Real.pi)
  s ^ 2 * (1 - t)

open Classical in
/-- `_skewness` (`/repo/pystatsm/misc/skewnorm_dist.py:310-313`); `none` where Python divides by zero.
(With an array argument `numpy` warns and carries on with infinities.) -/
noncomputable def skewness (_m _s v : ℝ) : Option ℝ :=
  if v ^ 2 = 0 then none else
    let u := Real.pi / 2 * (1 + 1 / v ^ 2) - 1
    some (1 / 2 * (4 - Real.pi) * u ^ (-3 / 2 : ℝ) * SignType.sign v)

/-- `_rvs` on two standard normal draws (`/repo/pystatsm/misc/skewnorm_dist.py:289-298`). -/
noncomputable def rvs (z1 z2 m s v : ℝ) : ℝ :=
  let t := v / √(1 + v ^ 2)
  let x := t * z1 + z2 * √(1 - t ^ 2)
  let x := open Classical in if z1 ≥ 0 then x else -x
  x * s + m

end Verif.Misc.SkewNorm
