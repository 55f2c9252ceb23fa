import Mathlib.Algebra.BigOperators.Intervals
import Mathlib.Data.Real.Sqrt

/-!
Model of `pystatsm/utilities/xcorr.py`.  `x` and `y` have length `n`; arrays of length `2n - 1` are functions of the position `t`, which stands
for the lag `t - (n - 1)`.  `fftconvolve` is the exact convolution.
-/

namespace Verif.Np

variable (n : ℕ) (x y : ℕ → ℝ)

/-- `rho[i]` of `xcorr_brute` before the concatenation (lines 16-19): `x[i:]` against `y[:-i]`. -/
def rhoBrute (i : ℕ) : ℝ := if i = 0 then ∑ j ∈ Finset.range n, x j * y j else ∑ j ∈ Finset.range (n - i), x (i + j) * y j

/-- `xcorr_brute` (lines 14-21). -/
def xcorrBrute (t : ℕ) : ℝ := if t < n - 1 then rhoBrute n x y (n - 1 - t) else rhoBrute n x y (t - (n - 1))

/-- `fftconvolve(a, b, mode='full')` of two arrays of length `n`. -/
def convFull (a b : ℕ → ℝ) (t : ℕ) : ℝ := ∑ j ∈ Finset.range n, if j ≤ t ∧ t - j < n then a j * b (t - j) else 0

/-- `xcorr_fft` (lines 23-25). -/
def xcorrFft (t : ℕ) : ℝ := convFull n x (fun l => y (n - 1 - l)) t

/-- `rho` of `xcorr_fftc` before it is normalised (lines 28-32). -/
def rhoFftc (t : ℕ) : ℝ :=
  let r : ℕ → ℝ := fun i => convFull n x (fun l => y (n - 1 - l)) (n - 1 + i)
  if t < n - 1 then r (n - 1 - t) else r (t - (n - 1))

/-- `c` (lines 33-39) at position `t`; an unknown name leaves it unbound. -/
noncomputable def normC (normalization : String) (t : ℕ) : Option ℝ :=
  if normalization = "unbiased" then some (1 / ((n : ℝ) - |((t : ℝ) - ((n : ℝ) - 1))|))
  else if normalization = "biased" then some (1 / n)
  else if normalization = "coef" then some (1 / √((∑ j ∈ Finset.range n, x j * x j) * ∑ j ∈ Finset.range n, y j * y j))
  else none

/-- `xcorr_fftc(x, y, normalization, retlags=False)` (lines 27-44). -/
noncomputable def xcorrFftc (normalization : String) (t : ℕ) : Option ℝ := do
  let c ← normC n x y normalization t
  pure (rhoFftc n x y t * c)

/-- `r` of `xcorr_mat` before the mirroring (lines 50-54). -/
def rMat (t : ℕ) : ℝ := if n - 1 ≤ t then ∑ j ∈ Finset.range (n - (t - (n - 1))), x (j + (t - (n - 1))) * y j else 0

/-- `xcorr_mat` (lines 46-56): `r[:n-1] = r[n:][::-1]`. -/
def xcorrMat (t : ℕ) : ℝ := if t < n - 1 then rMat n x y (n + (n - 2 - t)) else rMat n x y t

end Verif.Np
