import Verif.Glm.Families
import Mathlib.Probability.Distributions.Gamma
import Mathlib.Probability.Distributions.Gaussian.Real
/-!
# Model of `rvs` and `ppf` of the families, and of `GLM._predict`

`rvs` and `ppf` only choose a distribution of `numpy` or `scipy.stats` and its arguments.  `Dist` lists
the distributions with their arguments; `dens` and `pmf` are the densities their documentation
gives.  The random stream and the inversion of the distribution function are left out.  The methods
of `pyglm/families.py` are the same (lines 324-329, 426-431, 537-544, 666-678, 755-761, 845-852).
-/
namespace Verif.Glm
open Real ProbabilityTheory

/-- Distributions of `numpy.random.Generator` and `scipy.stats`. -/
inductive Dist where
  /-- `normal(loc, scale)`, `norm(loc, scale)`. -/
  | normal (loc scale : ℝ)
  /-- `Generator.wald(mean, scale)`. -/
  | wald (mean scale : ℝ)
  /-- `scipy.stats.wald(loc, scale)`: `loc + scale * W` with `W` of mean and shape one. -/
  | swald (loc scale : ℝ)
  /-- `gamma(shape, scale)`. -/
  | gamma (shape scale : ℝ)
  /-- `negative_binomial(n, p)`, `nbinom(n, p)`. -/
  | nbinom (n p : ℝ)
  /-- `poisson(lam)`. -/
  | poisson (lam : ℝ)
  /-- `binomial(n, p)`, the result divided by `n`. -/
  | binom (n : ℕ) (p : ℝ)

/-- Density of the inverse Gaussian distribution with given mean and shape. -/
noncomputable def waldDens (mean shape y : ℝ) : ℝ :=
  if 0 < y then sqrt (shape / (2 * π * y ^ 3)) * exp (-(shape * (y - mean) ^ 2 / (2 * mean ^ 2 * y)))
  else 0

/-- Densities of the continuous distributions. -/
noncomputable def Dist.dens : Dist → ℝ → ℝ
  | .normal loc scale, y => gaussianPDFReal loc ⟨scale ^ 2, sq_nonneg scale⟩ y
  | .wald mean scale, y => waldDens mean scale y
  | .swald loc scale, y => waldDens 1 1 ((y - loc) / scale) / scale
  | .gamma shape scale, y => gammaPDFReal shape (1 / scale) y
  | _, _ => 0

/-- Probabilities of the discrete distributions (for the binomial of `r / n`). -/
noncomputable def Dist.pmf : Dist → ℕ → ℝ
  | .nbinom n p, y => Real.Gamma (y + n) / (Real.Gamma n * y.factorial) * p ^ n * (1 - p) ^ y
  | .poisson lam, y => exp (-lam) * lam ^ y / y.factorial
  | .binom n p, r => n.choose r * p ^ r * (1 - p) ^ (n - r)
  | _, _ => 0

/-- The families. -/
inductive Kind where
  | gaussian | invGaussian | gamma | negBinomial | poisson | binomial
  deriving DecidableEq

/-- `rvs(mu, phi, dispersion)` — pyglm2/families.py 322-324, 413-415, 513-515, 623-629, 705-708,
785-789; `weights` are the numbers of trials. -/
noncomputable def rvs (mu phi dispersion : ℝ) (weights : ℕ) : Kind → Dist
  | .gaussian => .normal mu (sqrt phi)
  | .invGaussian => .wald mu (sqrt phi)
  | .gamma => .gamma (1 / phi) (mu * phi)
  | .negBinomial =>
    let var := mu + dispersion * mu ^ 2
    let n := -mu ^ 2 / (mu - var)
    let p := mu / var
    .nbinom n p
  | .poisson => .poisson mu
  | .binomial => .binom weights mu

/-- `ppf(q, mu, ...)` — pyglm2/families.py 326-327, 417-418, 517-520, 631-635, 710-711, 791-792: the
distribution whose quantile is taken.  `scipy.stats.poisson(mu=mu, scale=...)` raises, since discrete
distributions have no scale. -/
noncomputable def ppf (mu phi dispersion : ℝ) (weights : ℕ) : Kind → Option Dist
  | .gaussian => some (.normal mu (sqrt phi))
  | .invGaussian => some (.swald mu (sqrt phi))
  | .gamma =>
    let a := 1 / phi
    let b := 1 / (mu * phi)
    some (.gamma a (1 / b))
  | .negBinomial =>
    let var := mu + dispersion * mu ^ 2
    let n := -mu ^ 2 / (mu - var)
    let p := mu / var
    some (.nbinom n p)
  | .poisson => none
  | .binomial => some (.binom weights mu)

/-- Names of the parameters of `ppf`. -/
def ppfParams : Kind → List String
  | .gaussian => ["q", "mu", "phi"]
  | .invGaussian => ["q", "mu", "phi"]
  | .gamma => ["q", "mu", "phi"]
  | .negBinomial => ["q", "mu", "dispersion"]
  | .poisson => ["q", "mu", "scale"]
  | .binomial => ["q", "mu", "scale"]

/-- `symmetric_conf_int` — utilities/func_utils.py 179-204. -/
noncomputable def symmetricConfInt (level : ℝ) : ℝ :=
  let q := if level > 1 then level / 100 else level
  let lower := (1 - q) / 2
  1 - lower

/-- One row of the confidence intervals of `_predict` — pyglm2/glm.py 439-460 (`se` true: with the
square root, as there; false: without, as in pyglm/linear_model.py 1821-1842).  `v` is the entry of
`wdiag_outer_prod(X, coefs_cov, X)`.  Result: `eta_lower_ci, eta_upper_ci, mu_lower_ci,
mu_upper_ci`. -/
noncomputable def meanCi (root : Bool) (ndtri inv : ℝ → ℝ) (level eta v : ℝ) : ℝ × ℝ × ℝ × ℝ :=
  let se := if root then sqrt v else v
  let m := ndtri (symmetricConfInt level)
  (eta - m * se, eta + m * se, inv (eta - m * se), inv (eta + m * se))

/-- `wdiag_outer_prod(X, W, X)` — utilities/linalg_operations.py 456-458, for one row. -/
def wdiag {p : ℕ} (x : Fin p → ℝ) (W : Fin p → Fin p → ℝ) : ℝ := ∑ j, ∑ k, x j * W j k * x k

/-- The prediction interval of `_predict` — pyglm2/glm.py 462-468: the levels and the distribution
whose quantiles are taken; `none`: an argument that `ppf` does not take, or `ppf` raises. -/
noncomputable def predictedCi (kind : Kind) (mu : ℝ) (weights : ℕ) (level : ℝ) :
    Option (ℝ × ℝ × Dist) :=
  if "scale" ∈ ppfParams kind then
    let l := symmetricConfInt level
    (ppf mu 1 1 weights kind).map fun d => (1 - l, l, d)
  else none

end Verif.Glm
