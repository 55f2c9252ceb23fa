import Mathlib.Data.Real.Sqrt
import Mathlib.Algebra.BigOperators.Fin

/-!
Model of `estimate_simultaneous` of `pystatsm/pyrobust/m_estimators.py` (lines 220-253).  The methods `rho_func`, `weights` and `scale_weights` of the
estimator are functions of a number; a missing method is `none`.  The start, the median and the value of `dispersion_est`, is a parameter.
-/

namespace Verif.Robust
open Finset

variable {n : ℕ}

/-- The objective — 225-226 and 244-246. -/
noncomputable def simulObj (rho : ℝ → ℝ) (x : Fin n → ℝ) (s : ℝ × ℝ) : ℝ := ∑ i, rho ((x i - s.1) / s.2)

/-- One turn — 237-241. -/
noncomputable def simulStep (w sw : ℝ → ℝ) (d : ℝ) (x : Fin n → ℝ) (s : ℝ × ℝ) : ℝ × ℝ :=
  let r := fun i => (x i - s.1) / s.2
  ((∑ i, w (r i) * x i) / ∑ i, w (r i), √(s.2 ^ 2 / (d * n) * ∑ i, sw (r i) * r i ^ 2))

/-- The entries of `fvals`, `mu_vec` and `sd_vec` up to the last turn — 236-249; `f0` is `f_prev`, which the loop does not change. -/
noncomputable def simulLoop (step : ℝ × ℝ → ℝ × ℝ) (obj : ℝ × ℝ → ℝ) (f0 tol : ℝ) : ℕ → ℝ × ℝ → List (ℝ × ℝ × ℝ)
  | 0, _ => []
  | k + 1, s =>
    let t := step s
    (obj t, t) :: (open Classical in if |obj t - f0| < tol then [] else simulLoop step obj f0 tol k t)

/-- The methods of an estimator that the function calls. -/
structure SimulMethods where
  rhoFunc : Option (ℝ → ℝ)
  weights : ℝ → ℝ
  scaleWeights : Option (ℝ → ℝ)

/-- All entries up to the last turn; `none` for a missing method or for no turns (line 232 has no place to write to). -/
noncomputable def simulRun (f : SimulMethods) (d tol : ℝ) (iters : ℕ) (x : Fin n → ℝ) (start : ℝ × ℝ) : Option (List (ℝ × ℝ × ℝ)) :=
  f.rhoFunc.bind fun rho => f.scaleWeights.bind fun sw =>
    if iters = 0 then none
    else some (simulLoop (simulStep f.weights sw d x) (simulObj rho x) (simulObj rho x start) tol iters start)

/-- The values with `rethist=False` — 253. -/
noncomputable def simulFit (f : SimulMethods) (d tol : ℝ) (iters : ℕ) (x : Fin n → ℝ) (start : ℝ × ℝ) : Option (ℝ × ℝ × ℝ) :=
  (simulRun f d tol iters x start).bind List.getLast?

/-- The values with `rethist=True` — 251: the slices end before the last turn. -/
noncomputable def simulHist (f : SimulMethods) (d tol : ℝ) (iters : ℕ) (x : Fin n → ℝ) (start : ℝ × ℝ) : Option (List (ℝ × ℝ × ℝ)) :=
  (simulRun f d tol iters x start).map List.dropLast

/-- `Huber` and `Bisquare` as far as the function uses them: they have `weights`, but neither `rho_func` nor `scale_weights`. -/
def simulOwn (w : ℝ → ℝ) : SimulMethods := ⟨none, w, none⟩

end Verif.Robust
