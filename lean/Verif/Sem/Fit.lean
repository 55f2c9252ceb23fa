import Verif.Sem.Moments
import Mathlib.LinearAlgebra.Matrix.Block
/-!
# Model of `SEM.fit_func` and `SEM.loglike` (pysem2/sem.py 45-89, 345-395) and of the constants and
sample statistics of `ModelData` (pysem2/model_data.py)

`np.inf` is `none`.  Cholesky factors are a parameter with the contract `IsChol`.
-/
namespace Verif.Sem
open Matrix

variable {p q r : Type*} [Fintype p] [Fintype q] [DecidableEq p] [DecidableEq q] [Fintype r]
  [DecidableEq r]

/-- `const[i]`, computed in `ModelData._initialize` (model_data.py 34-35) from the covariance of
all columns of the data; `subset_and_order` (43-54) does not recompute it. -/
noncomputable def modelConst (Sall : Matrix r r ℝ) : ℝ :=
  -Real.log (abs Sall.det) - Fintype.card r

/-- `fi` of `fit_func`: `none` for `+ np.inf` — sem.py 81-84. -/
noncomputable def fitTerm (d : Stats p) (c gw : ℝ) (θ : Mats p q) : Option ℝ :=
  let fi := fitGroup d c θ * gw
  open Classical in if θ.Sigma.det < 0 ∨ fi < -1 then none else some fi

/-- `fit_func` with `per_group=False`: the groups are (statistics, constant, size). -/
noncomputable def fitFunc (gs : List (Stats p × ℝ × ℝ)) (θs : List (Mats p q)) : Option ℝ :=
  let n := (gs.map fun g => g.2.2).sum
  ((gs.zip θs).mapM fun x => fitTerm x.1.1 x.1.2.1 (x.1.2.2 / n) x.2).map fun l => n / 2 * l.sum

/-- `sample_mean`, `sample_cov` with `ddof = 0` — model_data.py 96-98. -/
noncomputable def statsOf {n : ℕ} (y : Fin n → p → ℝ) : Stats p :=
  let m : p → ℝ := fun a => (∑ i, y i a) / n
  Stats.mk (fun a b => (∑ i, (y i a - m a) * (y i b - m b)) / n) m

/-- Contract of `sp.linalg.cholesky(Sigma)` (upper factor). -/
def IsChol {k : ℕ} (U S : Matrix (Fin k) (Fin k) ℝ) : Prop :=
  U.IsUpperTriangular ∧ (∀ i, 0 < U i i) ∧ Uᵀ * U = S

/-- `ll` of one observation in `loglike` — sem.py 383-390; `solve_triangular(L, Y.T, trans=1)`
solves `L^T z = y - mu`. -/
noncomputable def llObs {k : ℕ} (U : Matrix (Fin k) (Fin k) ℝ) (c : ℝ) (y : Fin k → ℝ)
    (θ : Mats (Fin k) q) : ℝ :=
  let z := (Uᵀ)⁻¹ *ᵥ (y - θ.mu)
  let t1 := 2 * ∑ i, Real.log (U i i)
  let t2 := ∑ i, z i ^ 2
  (t1 + t2 + c) / 2

end Verif.Sem
