import Verif.Design.Model
import Verif.Glm.Model
import Mathlib.Probability.Distributions.Gaussian.Real
/-!
# Model of `utilities/complexdesign/population.py` and of the Gaussian `GLMAdapter`

Only the conditional mean of the response given the covariates is modelled; the effect of a cluster is
normal with mean zero and variance `v`.
-/
namespace Verif.Sim
open MeasureTheory ProbabilityTheory

/-- `_psu` — population.py 58: `np.repeat(np.arange(n_psu_total), n_obs_per_psu)`. -/
def psuOf (nObs i : ℕ) : ℕ := i / nObs

/-- `_strata` — population.py 56-57. -/
def strataOf (nPsu nObs i : ℕ) : ℕ := i / (nPsu * nObs)

/-- `1.0 / (1.0 + np.exp(-eta))` — population.py 123. -/
noncomputable def sigmoid (eta : ℝ) : ℝ := 1 / (1 + Real.exp (-eta))

/-- Mean of the response of `LinearPopulation` at fixed effects `eta` — population.py 76-92,
109-114. -/
noncomputable def linearMean (v : NNReal) (eta : ℝ) : ℝ := ∫ u, (eta + u) ∂gaussianReal 0 v

/-- Mean of the response of `BinomialPopulation` — population.py 120-125. -/
noncomputable def binomialMean (v : NNReal) (eta : ℝ) : ℝ := ∫ u, sigmoid (eta + u) ∂gaussianReal 0 v

/-- The `GLM` of `GLMAdapter` with its default family — replication.py 48-54. -/
noncomputable def gaussFam : Glm.Fam := ⟨Glm.gaussian, Glm.identityLink, false⟩

/-- `GLMAdapter.fit` — replication.py 56-64: `bread`, the inverse Hessian; the scale estimator is the
default `M`. -/
noncomputable def glmBread {n p : ℕ} (d : Glm.Dat n p) (beta : Fin p → ℝ) : Matrix (Fin p) (Fin p) ℝ :=
  (Matrix.of fun j k => Glm.hessBeta gaussFam .M d beta 0 j k)⁻¹

/-- `score_i`. -/
noncomputable def glmScore {n p : ℕ} (d : Glm.Dat n p) (beta : Fin p → ℝ) : Matrix (Fin n) (Fin p) ℝ :=
  Matrix.of fun i j => Glm.gradIBeta gaussFam .M d beta 0 i j

end Verif.Sim
