import Verif.Lmm.Lm
/-!
# Model of the class `MLMM` of `pylmm/mlmm.py`

The rows of the stacked data are addressed by `Fin n`, and `out` gives the response of a row: `r_indices` (206-208) picks out
the rows `i, i + k, i + 2k, …`.  The covariance of the random effects is that of `Verif.Lmm.Model`, with `nrv` the number of
variables of a term times the number of responses.  `r` are the residual variances, one for each response.  Ordering and
factorisation are treated as in `Verif.Lmm.Lm`.
-/
namespace Verif.Lmm.Mlmm
open Matrix Kronecker Verif.Fa Verif.Like Verif.Lmm.Lm
variable {T : Terms} {n p q N k : ℕ}

/-- `update_rmat(theta, inverse)` — mlmm.py 258-267: the diagonal of `R`. -/
noncomputable def updateR (out : Fin n → Fin k) (r : Fin k → ℝ) (inverse : Bool) : Fin n → ℝ :=
  fun i => if inverse then 1 / r (out i) else r (out i)

/-- `self.XZy` — 212-213. -/
noncomputable def xzy (m : Mme T n p) : Matrix (Fin n) (Ix T p ⊕ Unit) ℝ :=
  fromCols (fromCols m.X m.Z) (replicateCol Unit m.y)

/-- `update_mme(Ginv, Rinv)` — 239-244. -/
noncomputable def updateMme (m : Mme T n p) (Gi : Matrix T.RE T.RE ℝ) (w : Fin n → ℝ) :
    Matrix (Ix T p ⊕ Unit) (Ix T p ⊕ Unit) ℝ :=
  (xzy m)ᵀ * (diagonal w * xzy m) + fromBlocks (fromBlocks 0 0 0 Gi) 0 0 0

/-- `loglike(theta, use_sparse, reml)` — 269-290: `use_sparse` only selects the ordering `e`; the residual variances end
`theta`, so `theta[-1]` is the last of them (285). -/
noncomputable def loglike (cN : Mat (N + 1) (N + 1) → Option (Mat (N + 1) (N + 1))) (cq : Mat q q → Option (Mat q q))
    (e : Ix T p ⊕ Unit ≃ Fin (N + 1)) (e' : T.RE ≃ Fin q) (m : Mme T n p) (out : Fin n → Fin (k + 1)) (reml : Bool)
    (th : T.Par → ℝ) (r : Fin (k + 1) → ℝ) : Option ℝ := do
  let Gi ← T.ginv? th
  let L ← cN ((updateMme m Gi (updateR out r true)).submatrix e.symm e.symm)
  let ytPy := L (Fin.last N) (Fin.last N) ^ 2
  let ldG := T.lndetG th
  let ldR := ∑ i, Real.log (updateR out r false i)
  if reml then
    let ldC := ∑ i : Fin N, 2 * Real.log (L i.castSucc i.castSucc)
    return ldR + ldC + ldG + ytPy
  else
    let RZ := ((1 / r (Fin.last k)) • (1 : Mat n n)) * m.Z
    let Q := Gi + m.Zᵀ * RZ
    let Lq ← cq (Q.submatrix e'.symm e'.symm)
    let ldV := 2 * ∑ i, Real.log (Lq i i)
    return ldR + ldV + ldG + ytPy

/-- `loglike_c(theta_chol, reml)` after the transformation — 365-367: `reml` is passed in the place of `use_sparse`, so it
chooses between the sparse ordering `es` and the dense one `ed`, and the restricted likelihood is always formed. -/
noncomputable def loglikeC (cN : Mat (N + 1) (N + 1) → Option (Mat (N + 1) (N + 1))) (cq : Mat q q → Option (Mat q q))
    (es ed : Ix T p ⊕ Unit ≃ Fin (N + 1)) (e' : T.RE ≃ Fin q) (m : Mme T n p) (out : Fin n → Fin (k + 1)) (reml : Bool)
    (th : T.Par → ℝ) (r : Fin (k + 1) → ℝ) : Option ℝ :=
  let useSparse := reml
  loglike cN cq (if useSparse then es else ed) e' m out true th r

/-- `gradient(theta, reml)` until the loops — 293-317. -/
noncomputable def gparts (cq : Mat q q → Option (Mat q q)) (e : T.RE ≃ Fin q) (m : Mme T n p) (w : Fin n → ℝ)
    (th : T.Par → ℝ) : Option (GParts T n p) := do
  let Gi ← T.ginv? th
  let W : Mat n n := diagonal w
  let RZ := W * m.Z
  let RX := W * m.X
  let Ry := W *ᵥ m.y
  let ZtRZ := RZᵀ * m.Z
  let XtRX := m.Xᵀ * RX
  let ZtRX := RZᵀ * m.X
  let ZtRy := RZᵀ *ᵥ m.y
  let Q := Gi + ZtRZ
  let L ← cq (Q.submatrix e.symm e.symm)
  let M := ((L⁻¹)ᵀ * L⁻¹).submatrix e e
  let ZtWZ := ZtRZ - ZtRZ * M * ZtRZ
  let MZtRX := M * ZtRX
  let XtWX := XtRX - ZtRXᵀ * MZtRX
  let XtWXinv ← inv? XtWX
  let ZtWX := ZtRX - ZtRZ * MZtRX
  let WX := RX - RZ * MZtRX
  let U := XtWXinv * WXᵀ
  let Vy := Ry - RZ *ᵥ (M *ᵥ ZtRy)
  let Py := Vy - WX *ᵥ (U *ᵥ m.y)
  return ⟨W, RZ, M, ZtWZ, XtWXinv, ZtWX, WX, Py⟩

/-- `g_derivs['resid']` — 174-179: the derivative of `R` with respect to the residual variance of a response. -/
noncomputable def dR (out : Fin n → Fin k) (j : Fin k) : Mat n n := diagonal fun i => if out i = j then 1 else 0

/-- A component of the gradient for a residual variance — 334-342. -/
noncomputable def rcomp (reml : Bool) (P : GParts T n p) (D : Mat n n) : ℝ :=
  let g1 := (P.W * D).trace - (P.M * (P.RZᵀ * D * P.RZ)).trace
  let g2 := (D *ᵥ P.Py) ⬝ᵥ P.Py
  let g3 := if reml then (P.XtWXinv * (P.WXᵀ * (D * P.WX))).trace else 0
  g1 - g2 - g3

/-- `gradient(theta, reml)` — 292-345; the loop over the covariances of the random effects (319-332) is that of `LMM`. -/
noncomputable def gradient (cq : Mat q q → Option (Mat q q)) (e : T.RE ≃ Fin q) (m : Mme T n p) (out : Fin n → Fin k) (reml : Bool)
    (th : T.Par → ℝ) (r : Fin k → ℝ) : Option ((T.Par → ℝ) × (Fin k → ℝ)) := do
  let P ← gparts cq e m (updateR out r true) th
  return (gcomp reml m P, fun j => rcomp reml P (dR out j))

/-- `_compute_effects(theta)` — 392-410. -/
noncomputable def computeEffects (cN : Mat N N → Option (Mat N N)) (cq : Mat q q → Option (Mat q q))
    (e : Ix T p ≃ Fin N) (e' : T.RE ≃ Fin q) (m : Mme T n p) (out : Fin n → Fin k) (th : T.Par → ℝ) (r : Fin k → ℝ) :
    Option ((Fin p → ℝ) × Mat p p × (T.RE → ℝ)) := do
  let Gi ← T.ginv? th
  let Ri : Mat n n := diagonal (updateR out r true)
  let M := updateMme m Gi (updateR out r true)
  let XZy := (fromCols m.X m.Z)ᵀ *ᵥ (Ri *ᵥ m.y)
  let K := M.submatrix Sum.inl Sum.inl
  let L ← cN (K.submatrix e.symm e.symm)
  let betau := ((L⁻¹)ᵀ * L⁻¹).submatrix e e *ᵥ XZy
  let u := fun i => betau (Sum.inr i)
  let beta := fun i => betau (Sum.inl i)
  let RZ := Ri * m.Z
  let Q := Gi + m.Zᵀ * RZ
  let Lq ← cq (Q.submatrix e'.symm e'.symm)
  let Mq := ((Lq⁻¹)ᵀ * Lq⁻¹).submatrix e' e'
  let XtRX := m.Xᵀ * (Ri * m.X)
  let XtRZ := m.Xᵀ * (Ri * m.Z)
  let XtVX := XtRX - XtRZ * (Mq * XtRZᵀ)
  let XtVXinv ← inv? XtVX
  return (beta, XtVXinv, u)

/-- `predict()` — 492-499. -/
noncomputable def predict (m : Mme T n p) (b : Fin p → ℝ) (u : T.RE → ℝ) : Fin n → ℝ := m.X *ᵥ b + m.Z *ᵥ u

/-! ## Layout and labels -/

/-- `np.kron(X, np.eye(k))` — 192-193: row `o * k + a`, column `x * k + b`. -/
def kronI (k : ℕ) (X : ℕ → ℕ → ℝ) (i c : ℕ) : ℝ := X (i / k) (c / k) * if i % k = c % k then 1 else 0

/-- `vec(y.T)` — 194: the columns of the transpose, observation by observation. -/
def vecT (k : ℕ) (y : ℕ → ℕ → ℝ) (i : ℕ) : ℝ := y (i / k) (i % k)

/-- `r_indices` — 206-207: the rows of response `a`, `np.arange(a, n, k)`. -/
def rIdx (k n a : ℕ) : List ℕ := (List.range ((n - a + (k - 1)) / k)).map (fun t => a + t * k)

/-- The names of the fixed effects — 508-511: for every response, for every column; a name is the pair. -/
def feNames (k p : ℕ) : List (ℕ × ℕ) := (List.range k).flatMap fun a => (List.range p).map fun x => (a, x)

/-- `a` and `b` of a term with `nv` variables — 515-516: response and variable printed for a row of the covariance. -/
def reLab (k nv : ℕ) : List (ℕ × ℕ) :=
  ((List.range k).flatMap fun a => List.replicate nv a).zip ((List.range k).flatMap fun _ => List.range nv)

/-- The degrees of freedom and the constant of the likelihood — 469-486: `[ll, llf, AIC, AICC, BIC, CAIC]`; `N` rows, `p` columns,
`d` covariance parameters, `f` the value of the objective. -/
noncomputable def sumstats (reml : Bool) (N p d : ℕ) (f : ℝ) : List ℝ :=
  let c := if reml then ((N : ℝ) - p) * Real.log (2 * Real.pi) else N * Real.log (2 * Real.pi)
  let ll := c + f
  let n : ℝ := if reml then (N : ℝ) - p else N
  let d : ℝ := if reml then (d : ℝ) else p + d
  [ll, ll / -2, ll + 2 * d, ll + 2 * d * n / (n - d - 1), ll + d * Real.log n, ll + d * (Real.log n + 1)]

/-- The residual entries of `self.theta` and `self.theta_chol` after `__init__` — 74, 216, 126: `transform_theta` replaces the entries
of its argument, so the two attributes are one array. -/
noncomputable def initResid (k : ℕ) : List ℝ × List ℝ :=
  let theta := List.replicate k (1 : ℝ)
  let chol := theta.map Real.log
  (chol, chol)

/-- The residual variances at which `_optimize` first evaluates the objective, from the entries of `self.theta` — 427, 366, 135. -/
noncomputable def startResid (theta : List ℝ) : List ℝ := theta.map Real.exp

/-- `self.theta` after a fit that ends at the transformed parameters `x` — 438, 460. -/
noncomputable def fitResid (x : List ℝ) : List ℝ := x.map Real.exp

/-- `res['p']` — 524-525: `sf` is the survival function of the t distribution. -/
noncomputable def pval (sf : ℝ → ℝ) (est se : ℝ) : ℝ := sf |est / se|

end Verif.Lmm.Mlmm
