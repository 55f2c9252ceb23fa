import Verif.Misc.ShashSpec
import Mathlib.Analysis.SpecialFunctions.Pow.Real
import Mathlib.Analysis.SpecialFunctions.Trigonometric.Basic

/-!
# Moments, quantiles and random draws of the sinh-arcsinh distribution

`/repo/pystatsm/misc/shash1.py`; the functions of `/repo/pystatsm/misc/shashr.py` are the same after
`s, t = np.exp(s), np.exp(t)`.  `kv`, `ndtr`, `ndtri` are parameters (`scipy.special`); floats are
real numbers, arrays are one of their elements.
-/

namespace Verif.Misc.Shash

section
variable (kv : ℝ → ℝ → ℝ)

/-- `P` (`/repo/pystatsm/misc/shash1.py:20-21`, `/repo/pystatsm/misc/shashr.py:16-17`; `_pq` of
`/repo/pystatsm/misc/sinharcsinh_dist.py:317-320`). -/
noncomputable def P (q : ℝ) : ℝ :=
  Real.exp (1 / 4) / √(8 * Real.pi) * (kv ((q + 1) / 2) (1 / 4) + kv ((q - 1) / 2) (1 / 4))

/-- `mean` (`/repo/pystatsm/misc/shash1.py:23-24`). -/
noncomputable def mean (m s v t : ℝ) : ℝ := m + s * Real.sinh (v / t) * P kv (1 / t)

/-- `median` (`/repo/pystatsm/misc/shash1.py:26-27`). -/
noncomputable def median (m s v t : ℝ) : ℝ := m + s / 2 * (Real.exp (v / t) - Real.exp (-v / t))

/-- `variance` (`/repo/pystatsm/misc/shash1.py:29-32`). -/
noncomputable def variance (_m s v t : ℝ) : ℝ :=
  let E_Z := Real.sinh (v / t) * P kv (1 / t)
  let P_2_t := P kv (2 / t)
  s ^ 2 / 2 * (Real.cosh (2 * v / t) * P_2_t - 1) - s ^ 2 * E_Z ^ 2

/-- `skewness` (`/repo/pystatsm/misc/shash1.py:34-39`). -/
noncomputable def skewness (m s v t : ℝ) : ℝ :=
  let E_Z := Real.sinh (v / t) * P kv (1 / t)
  let Var_Z := (Real.cosh (2 * v / t) * P kv (2 / t) - 1) / 2
  let E_Z_3 := 1 / 4 * (Real.sinh (3 * v / t) * P kv (3 / t) - 3 * Real.sinh (v / t) * P kv (1 / t))
  let mu_3_Y := s ^ 3 * (E_Z_3 - 3 * Var_Z * E_Z - E_Z ^ 3)
  mu_3_Y / variance kv m s v t ^ (3 / 2 : ℝ)

/-- `excess_kurtosis` (`/repo/pystatsm/misc/shash1.py:41-46`). -/
noncomputable def excessKurtosis (m s v t : ℝ) : ℝ :=
  let E_Z := Real.sinh (v / t) * P kv (1 / t)
  let Var_Z := (Real.cosh (2 * v / t) * P kv (2 / t) - 1) / 2
  let E_Z_4 := 1 / 8 * (Real.cosh (4 * v / t) * P kv (4 / t) - 4 * Real.cosh (2 * v / t) * P kv (2 / t) + 3)
  let mu_4_Y := s ^ 4 * (E_Z_4 - 4 * E_Z ^ 3 + 6 * Var_Z * E_Z ^ 2 + 3 * E_Z ^ 4)
  mu_4_Y / variance kv m s v t ^ 2 - 3

/-- `m1`, …, `m4` of `moments` (`/repo/pystatsm/misc/shash1.py:69-72`, again in `skew` and `kurt`). -/
noncomputable def m1 (v t : ℝ) : ℝ := Real.sinh (v / t) * P kv (1 / t)
noncomputable def m2 (v t : ℝ) : ℝ := (Real.cosh (2 * v / t) * P kv (2 / t) - 1) / 2
noncomputable def m3 (v t : ℝ) : ℝ :=
  (Real.sinh (3 * v / t) * P kv (3 / t) - 3 * Real.sinh (v / t) * P kv (1 / t)) / 4
noncomputable def m4 (v t : ℝ) : ℝ :=
  (Real.cosh (4 * v / t) * P kv (4 / t) - 4 * Real.cosh (2 * v / t) * P kv (2 / t) + 3) / 8

/-- `my1`, …, `my4` (`/repo/pystatsm/misc/shash1.py:74-77`, again in `skew` and `kurt`). -/
noncomputable def my1 (m s v t : ℝ) : ℝ := m + m1 kv v t * s
noncomputable def my2 (m s v t : ℝ) : ℝ := m2 kv v t * s ^ 2 + 2 * m1 kv v t * m * s + m ^ 2
noncomputable def my3 (m s v t : ℝ) : ℝ :=
  m3 kv v t * s ^ 3 + 3 * m2 kv v t * m * s ^ 2 + 3 * m1 kv v t * m ^ 2 * s + m ^ 3
noncomputable def my4 (m s v t : ℝ) : ℝ :=
  m4 kv v t * s ^ 4 + 4 * m3 kv v t * m * s ^ 3 + 6 * m2 kv v t * m ^ 2 * s ^ 2 +
    4 * m1 kv v t * m ^ 3 * s + m ^ 4

/-- `moments` (`/repo/pystatsm/misc/shash1.py:68-78`). -/
noncomputable def moments (m s v t : ℝ) : List ℝ :=
  [my1 kv m s v t, my2 kv m s v t, my3 kv m s v t, my4 kv m s v t]

/-- `skew` (`/repo/pystatsm/misc/shash1.py:80-91`). -/
noncomputable def skew (m s v t : ℝ) : ℝ :=
  let my1 := my1 kv m s v t
  let my2 := my2 kv m s v t
  let my3 := my3 kv m s v t
  let sigma := √(my2 - my1 ^ 2)
  (my3 - 3 * my1 * sigma ^ 2 - my1 ^ 3) / sigma ^ 3

/-- `kurt` (`/repo/pystatsm/misc/shash1.py:93-104`). -/
noncomputable def kurt (m s v t : ℝ) : ℝ :=
  let my1 := my1 kv m s v t
  let my2 := my2 kv m s v t
  let my3 := my3 kv m s v t
  let my4 := my4 kv m s v t
  let sigma := √(my2 - my1 ^ 2)
  (my4 - 4 * my3 * my1 + 6 * my2 * my1 ^ 2 - 3 * my1 ^ 4) / sigma ^ 4

end

/-- `pdf` (`/repo/pystatsm/misc/shash1.py:48-52`). -/
noncomputable def pdf (y m s v t : ℝ) : ℝ :=
  let z := (y - m) / s
  let r := Real.sinh (t * Real.arsinh z - v)
  let c := Real.cosh (t * Real.arsinh z - v)
  t * c / (s * √(2 * Real.pi * (1 + z ^ 2))) * Real.exp (-r ^ 2 / 2)

/-- `cdf` (`/repo/pystatsm/misc/shash1.py:54-57`; `_cdf` of
`/repo/pystatsm/misc/sinharcsinh_dist.py:28-31`). -/
noncomputable def cdf (ndtr : ℝ → ℝ) (y m s v t : ℝ) : ℝ :=
  let z := (y - m) / s
  let r := Real.sinh (t * Real.arsinh z - v)
  ndtr r

/-- `inverse_cdf` (`/repo/pystatsm/misc/shash1.py:59-60`). -/
noncomputable def inverseCdf (ndtri : ℝ → ℝ) (p m s v t : ℝ) : ℝ :=
  m + s * Real.sinh (v / t + Real.arsinh (ndtri p) / t)

/-- `_qtf` (`/repo/pystatsm/misc/sinharcsinh_dist.py:34-38`). -/
noncomputable def qtf (ndtri : ℝ → ℝ) (q m s v t : ℝ) : ℝ :=
  let y := ndtri q
  let z := Real.sinh ((Real.arsinh y + v) / t)
  s * z + m

/-- `rvs` (`/repo/pystatsm/misc/shash1.py:62-66`) on one uniform draw. -/
noncomputable def rvs (ndtri : ℝ → ℝ) (u m s v t : ℝ) : ℝ := inverseCdf ndtri u m s v t

/-- `_logpdf` (`/repo/pystatsm/misc/sinharcsinh_dist.py:17-22`). -/
noncomputable def logpdf' (x m s v t : ℝ) : ℝ :=
  let z := (x - m) / s
  let y := Real.arsinh z * t - v
  let r := Real.sinh y
  let c := Real.cosh y
  let w := √(1 + z ^ 2)
  Real.log t + Real.log c - Real.log s - Real.log w - r ^ 2 / 2 - Real.log (2 * Real.pi) / 2

/-- `_pdf` (`/repo/pystatsm/misc/sinharcsinh_dist.py:24-25`). -/
noncomputable def pdf' (x m s v t : ℝ) : ℝ := Real.exp (logpdf' x m s v t)

/-- `_mean` (`/repo/pystatsm/misc/sinharcsinh_dist.py:322-324`). -/
noncomputable def mean' (kv : ℝ → ℝ → ℝ) (m s v t : ℝ) : ℝ := m + s * Real.sinh (v / t) * P kv (1 / t)

/-- `_variance` (`/repo/pystatsm/misc/sinharcsinh_dist.py:326-331`). -/
noncomputable def variance' (kv : ℝ → ℝ → ℝ) (_m s v t : ℝ) : ℝ :=
  let s2 := s ^ 2
  let f1 := (Real.cosh (2 * v / t) * P kv (2 / t) - 1) * s2 / 2
  let f2 := -s2 * (Real.sinh (v / t) * P kv (1 / t)) ^ 2
  f1 + f2

/-- `_rvs` (`/repo/pystatsm/misc/sinharcsinh_dist.py:40-43`) on one uniform draw. -/
noncomputable def rvs' (ndtri : ℝ → ℝ) (u m s v t : ℝ) : ℝ := qtf ndtri u m s v t

/-- `mean`, `median`, `variance`, `pdf`, `cdf`, `inverse_cdf`, `moments`, `skew`, `kurt` of
`/repo/pystatsm/misc/shashr.py:19-96`: the function of `shash1.py` after `s, t = np.exp(s), np.exp(t)`. -/
noncomputable def withExp {α : Type*} (f : ℝ → ℝ → ℝ → ℝ → α) (m s v t : ℝ) : α :=
  f m (Real.exp s) v (Real.exp t)

end Verif.Misc.Shash
