import Verif.Sim.Factor
import Verif.Sim.Population
/-!
# Model of the linear model simulators

`pyglm2/model_sim.py`, `pyglm/glm_sim.py`, `pyglm2/sim_mvols.py`, `pyglmnet/sparse_model_sim.py` and
`pyrobust/robust_model_sim.py`.  Random draws are parameters.
-/
namespace Verif.Sim
open Finset

/-- `np.var`. -/
noncomputable def varPop {n : ℕ} (x : Fin n → ℝ) : ℝ :=
  (∑ i, (x i - (∑ j, x j) / n) ^ 2) / n

/-- `X.dot(beta)`. -/
def linpred {n p : ℕ} (X : Matrix (Fin n) (Fin p) ℝ) (beta : Fin p → ℝ) (i : Fin n) : ℝ :=
  ∑ j, X i j * beta j

/-- `_get_var` — model_sim.py 113-116, glm_sim.py 106-109; `resid_scale` — sparse_model_sim.py 43,
robust_model_sim.py 46. -/
noncomputable def residScale (v rsq : ℝ) : ℝ := Real.sqrt ((1 - rsq) / rsq * v)

/-- `rescale_coefs` — model_sim.py 190-192, glm_sim.py 178-180: the new coefficients. -/
noncomputable def rescaleCoefs {p : ℕ} (beta : Fin p → ℝ) (v s : ℝ) (j : Fin p) : ℝ :=
  beta j / Real.sqrt v * s

/-- `_scale_to_target_r2` — sim_mvols.py 96-103: the factor of the residual covariance. -/
noncomputable def targetScale (vSignal vNoise target : ℝ) : ℝ :=
  if vSignal ≤ 0 ∨ target ≤ 0 ∨ 1 ≤ target then 1
  else vSignal * (1 - target) / (target * vNoise)

/-- `_make_coef_cat` — model_sim.py 136-146 (glm_sim.py 128-135 has only the first branch, with the
same result for one coefficient). -/
noncomputable def coefCat (nVar i : ℕ) : ℝ :=
  if 1 < nVar then
    let n := nVar / 2
    let m := nVar - n
    let c : ℕ → ℝ := fun i => if i < n then -(((n - i : ℕ) : ℝ) / n) else ((i - n + 1 : ℕ) : ℝ) / m
    if i < n then c i - ((∑ k ∈ range n, c k) + ∑ k ∈ range m, c (n + k)) / n else c i
  else 1

/-- `beta_vals` — sparse_model_sim.py 32-34, robust_model_sim.py 35-37; `beta_vals[-(n_nnz%2)]` is the
first entry for even `n_nnz` and the last for odd. -/
def betaVals (nnz i : ℕ) : ℝ :=
  let base : ℝ := if i < nnz - nnz % 2 then (if i % 2 = 0 then 1 else -1) else 0
  let idx := if nnz % 2 = 0 then 0 else nnz - 1
  if i = idx then 1 else base

/-- `beta` — sparse_model_sim.py 36-37, robust_model_sim.py 39-40: the first entry of every block of
`np.array_split`. -/
def sparseBeta (nVar nnz : ℕ) (vals : ℕ → ℝ) (i : ℕ) : ℝ :=
  match (List.range nnz).reverse.find? (fun j => splitStart nVar nnz j = i) with
  | some j => vals j
  | none => 0

/-- `x_cov` — sparse_model_sim.py 20-22. -/
noncomputable def sparseCov (_rho : ℝ) (i j : ℕ) : ℝ := (99 / 100 : ℝ) ^ lag i j

/-- `x_cov` — robust_model_sim.py 28-30, `_toeplitz_corr` — sim_mvols.py 50-52. -/
def robustCov (n : ℕ) (rho : ℝ) : Matrix (Fin n) (Fin n) ℝ := fun i j => rho ^ lag i j

/-- Mean of the binomial response of `simulate_dependent` — sparse_model_sim.py 59-69: noise is added
to the linear predictor before the logistic function. -/
noncomputable def sparseBinomialMean (v : NNReal) (lpred offset : ℝ) : ℝ :=
  binomialMean v (lpred + offset)

/-- `self.rng` — model_sim.py 31. -/
def simRng {R : Type} (given : Option R) (fresh : R) : Option R :=
  if given = none then given else some fresh

/-- `self.nlevels` after the constructor's lines 36-40 of model_sim.py (glm_sim.py 34-38): the defaults
are put into a dictionary that is then replaced by the argument (unless it is that argument). -/
def nlevelsAfter (given : Option (ℕ → Option ℕ)) (cats : List ℕ) : Option (ℕ → Option ℕ) :=
  match given with
  | none => none
  | some d => some fun c => if d c = none ∧ c ∈ cats then some 2 else d c

/-- `self.nlevels[c]` for a categorical variable. -/
def levelsOf (given : Option (ℕ → Option ℕ)) (cats : List ℕ) (c : ℕ) : Option ℕ :=
  (nlevelsAfter given cats).bind fun d => d c

/-- `make_coefs` for a formula of numerical terms — model_sim.py 124-133, 172-187: the intercept,
column 0, is of the numerical class; `sel` are the columns drawn. -/
def makeCoefs (sel : List ℕ) (i : ℕ) : ℝ :=
  if i = 0 then 0
  else match sel.idxOf? i with
    | some k => if k < sel.length / 2 then -1 else 1
    | none => 0

/-- `n_nnz` for `p_nnz = 1/2`. -/
def nNnz (nVar : ℕ) : ℕ := max (nVar / 2) 1

end Verif.Sim
