import Verif.Glm.Model
import Mathlib.Data.Matrix.Mul
/-!
# Model of `get_robust_res`, `_bootstrap` and the null model in `GLM.fit`

`GLM(weights=...)` stores the weights in `model_data`; the attribute `weights` of the family is that
of the family object, one by default.  The optimiser is a parameter.  Same lines in
pyglm/linear_model.py except where stated.
-/
namespace Verif.Glm
open Real

variable {n p : ℕ}

/-- The data with the weights of the family object in place of those of the model. -/
def Dat.withWeights (d : Dat n p) (fw : Fin n → ℝ) : Dat n p := { d with w := fw }

/-- `B = np.dot(G.T, G)` in `get_robust_res` — pyglm2/glm.py 419-426 (coefficients; `fw` is
`self.f.weights`). -/
noncomputable def robustMeat (f : Fam) (est : Scale) (d : Dat n p) (fw : Fin n → ℝ)
    (beta : Fin p → ℝ) (tau : ℝ) : Matrix (Fin p) (Fin p) ℝ := fun j k =>
  ∑ i, gradIBeta f est (d.withWeights fw) beta tau i j *
    gradIBeta f est (d.withWeights fw) beta tau i k

/-- `V = A.dot(B).dot(A)` — pyglm2/glm.py 427-428. -/
noncomputable def robustCov (A B : Matrix (Fin p) (Fin p) ℝ) : Matrix (Fin p) (Fin p) ℝ := A * B * A

/-- The data of one bootstrap sample, `(X[ii], y[ii], w[ii])` — pyglm2/glm.py 505-513. -/
def bootData (d : Dat n p) (fw : Fin n → ℝ) (ii : Fin n → Fin n) : Dat n p where
  X := fun i j => d.X (ii i) j
  y := fun i => d.y (ii i)
  w := fun i => fw (ii i)

/-- `_bootstrap` — pyglm2/glm.py 502-531: the estimates of all samples. -/
def bootstrap {P : Type} (opt : Dat n p → P) (d : Dat n p) (fw : Fin n → ℝ)
    (draws : List (Fin n → Fin n)) : List P :=
  draws.map fun ii => opt (bootData d fw ii)

/-- `_bootstrap` — pyglm/linear_model.py 1884-1901: the progress bar is updated in every iteration;
it is `None` unless `verbose`. -/
def bootstrapO {P : Type} (verbose : Bool) (opt : Dat n p → P) (d : Dat n p) (fw : Fin n → ℝ)
    (draws : List (Fin n → Fin n)) : Option (List P) :=
  let pbar : Option Unit := if verbose then some () else none
  draws.mapM fun ii => do
    let x := opt (bootData d fw ii)
    let _ ← pbar
    some x

/-- `lln` for families other than the negative binomial — pyglm2/glm.py 374-376; the data as pairs
`(y, weight)`. -/
noncomputable def lln (F : Family) (d : List (ℝ × ℝ)) (phi : ℝ) : ℝ :=
  let ybar := (d.map Prod.fst).sum / d.length
  (d.map fun o => F.full o.1 ybar o.2 phi 1).sum

/-- Length of the coefficient vector in `_unpack_params_data` for a parameter vector of length `m` —
pyglm2/glm.py 123-128. -/
def nBeta (est : Scale) (m : ℕ) : ℕ := if est = .NR then m - 1 else m

/-- The start of the null model of the negative binomial family — pyglm2/glm.py 369-373: two
parameters, one column of ones; `_optimize` replaces `M` by `fixed` (241-242).  `np.dot(X, beta)`
raises unless the lengths agree. -/
def nullNB (est : Scale) : Option ℕ :=
  let s := if est = .M then .fixed else est
  let b := nBeta s 2
  if b = 1 then some b else none

end Verif.Glm
