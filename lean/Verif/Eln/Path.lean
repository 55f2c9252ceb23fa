import Mathlib.Analysis.SpecialFunctions.Log.Basic
import Verif.Eln.Model
/-!
# Model of the penalty path of `pyglmnet/gaussian_eln.py` and of `GLMEN.fit`
-/
namespace Verif.Eln

/-- `np.linspace(a, b, m)`. -/
noncomputable def linspace (a b : ℝ) (m : ℕ) : List ℝ :=
  (List.range m).map fun i : ℕ => a + (i : ℝ) * ((b - a) / ((m - 1 : ℕ) : ℝ))

/-- `lambdas` of `cv_glmnet` — gaussian_eln.py 128-131. -/
noncomputable def lambdaPath (lmax pathLen : ℝ) (lmin : Option ℝ) (nl : ℕ) : List ℝ :=
  let lmin := lmin.getD (pathLen * lmax)
  (linspace (Real.log lmax) (Real.log lmin) nl).map Real.exp

/-- `beta, active, fvals, _ = self._fit(...)` of `GLMEN.fit` — glmen.py 64: unpacking the tuple `res`; the result
is `(self.beta, self.active, self.fvals)`. -/
def glmenFit {V : Type*} : List V → Option (V × V × V)
  | [b, a, f, _] => some (b, a, f)
  | _ => none

/-- The tuple returned by `elnet` — gaussian_eln.py 109. -/
def gaussianRes {V : Type*} (beta fvals active nits : V) : List V := [beta, fvals, active, nits]

/-- The tuple returned by `binom_glmnet` — binomial_eln.py 368. -/
def binomialRes {V : Type*} (beta b0 active fvals nits : V) : List V := [beta, b0, active, fvals, nits]

end Verif.Eln
