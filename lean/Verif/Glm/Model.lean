import Verif.Glm.Families
import Mathlib.Data.Matrix.Mul
import Mathlib.Algebra.BigOperators.Fin
/-!
# Model of `pyglm2/glm.py` — `GLM._loglike`, `_gradient`, `_gradient_i`, `_hessian`

`X` is `n × p`, `y` and `weights` have length `n`.  The parameter vector is a pair: the
coefficients, and the log scale `tau`, which is only present (and only read) when
`scale_estimator = "NR"`.
-/
namespace Verif.Glm
open Real

/-- `scale_estimator`. -/
inductive Scale
  | M
  | NR
  | fixed
deriving DecidableEq

/-- The data `X, y, weights`. -/
structure Dat (n p : ℕ) where
  X : Matrix (Fin n) (Fin p) ℝ
  y : Fin n → ℝ
  w : Fin n → ℝ

/-- A family object: methods, link, and whether its name is "NegativeBinomial". -/
structure Fam where
  F : Family
  l : LinkFns
  isNB : Bool

variable {n p : ℕ}

/-- `mu = f.inv_link(np.dot(X, beta))` — glm.py 129. -/
noncomputable def fitted (f : Fam) (d : Dat n p) (beta : Fin p → ℝ) (i : Fin n) : ℝ :=
  f.l.inv (∑ j, d.X i j * beta j)

/-- `_unpack_params_data`: the pair `(phi, dispersion)` — glm.py 121-141.  `pearson_chi2` is called
without weights. -/
noncomputable def scales (f : Fam) (est : Scale) (d : Dat n p) (beta : Fin p → ℝ) (tau : ℝ) :
    ℝ × ℝ :=
  let phi := if est = .NR then exp tau else 1
  let dp := if f.isNB then (phi, 1) else (1, phi)
  let dispersion := dp.1
  let phi := dp.2
  let mu := fitted f d beta
  if est = .M then
    (pearsonChi2 f.F (List.ofFn fun i => (d.y i, mu i, 1)) dispersion / ((n : ℝ) - p), dispersion)
  else if est ≠ .NR then (1, dispersion)
  else (phi, dispersion)

/-- `_loglike` — glm.py 143-148. -/
noncomputable def loglike (f : Fam) (est : Scale) (d : Dat n p) (beta : Fin p → ℝ) (tau : ℝ) : ℝ :=
  let s := scales f est d beta tau
  ∑ i, f.F.nll (d.y i) (fitted f d beta i) (d.w i) s.1 s.2

/-- `_gradient`, coefficient part `np.dot(X.T, w)` — glm.py 176-184. -/
noncomputable def gradBeta (f : Fam) (est : Scale) (d : Dat n p) (beta : Fin p → ℝ) (tau : ℝ)
    (j : Fin p) : ℝ :=
  let s := scales f est d beta tau
  ∑ i, d.X i j * gw f.F f.l (d.y i) (fitted f d beta i) (d.w i) s.1 s.2

/-- `_gradient`, entry appended for `NR`; `none` if the family has no `dtau`. -/
noncomputable def gradTau (f : Fam) (d : Dat n p) (beta : Fin p → ℝ) (tau : ℝ) : Option ℝ := do
  let g ← (List.finRange n).mapM fun i => f.F.dtau tau (d.y i) (fitted f d beta i) (d.w i)
  some g.sum

/-- `_gradient_i` — glm.py 195-205: row `i`, coefficient part. -/
noncomputable def gradIBeta (f : Fam) (est : Scale) (d : Dat n p) (beta : Fin p → ℝ) (tau : ℝ)
    (i : Fin n) (j : Fin p) : ℝ :=
  let s := scales f est d beta tau
  d.X i j * gw f.F f.l (d.y i) (fitted f d beta i) (d.w i) s.1 s.2

/-- `_gradient_i`, the column appended for `NR`. -/
noncomputable def gradITau (f : Fam) (d : Dat n p) (beta : Fin p → ℝ) (tau : ℝ) (i : Fin n) :
    Option ℝ :=
  f.F.dtau tau (d.y i) (fitted f d beta i) (d.w i)

/-- `_hessian`, coefficient block `np.dot((X * hw).T, X)` — glm.py 216-221. -/
noncomputable def hessBeta (f : Fam) (est : Scale) (d : Dat n p) (beta : Fin p → ℝ) (tau : ℝ)
    (j k : Fin p) : ℝ :=
  let s := scales f est d beta tau
  ∑ i, d.X i j * (getGhw f.F f.l (d.y i) (fitted f d beta i) (d.w i) s.1 s.2).2 * d.X i k

/-- `_hessian`, off-diagonal block `-dbdt` for `NR` — glm.py 222-231. -/
noncomputable def hessCross (f : Fam) (d : Dat n p) (beta : Fin p → ℝ) (tau : ℝ) (j : Fin p) : ℝ :=
  let s := scales f .NR d beta tau
  let k := s.2
  let dbdt := if f.isNB then
      -∑ i, d.X i j * (k * (d.y i - fitted f d beta i) /
        ((1 + k * fitted f d beta i) ^ 2 * f.l.d1 (fitted f d beta i)))
    else ∑ i, d.X i j * (getGhw f.F f.l (d.y i) (fitted f d beta i) (d.w i) s.1 s.2).1;
  -dbdt

/-- `_hessian`, the corner `d2t` for `NR`. -/
noncomputable def hessTau (f : Fam) (d : Dat n p) (beta : Fin p → ℝ) (tau : ℝ) : Option ℝ := do
  let g ← (List.finRange n).mapM fun i => f.F.d2tau tau (d.y i) (fitted f d beta i) (d.w i)
  some g.sum

end Verif.Glm
