import Verif.Lmm.Infer
import Mathlib.Analysis.SpecialFunctions.Exp
import Mathlib.Analysis.Real.Pi.Bounds
import Mathlib.Data.Matrix.ColumnRowPartitioned
/-!
# Model of the class `LMM` of `pylmm/lmm.py`

Random effects and covariance parameters are addressed as in `Verif.Lmm.Model`; the terms of `LMM` have no level
covariance, so `acov` is `none` for all of them.  `e : _ ≃ Fin _` is the position of a row of a factored matrix: the block
order followed by the fill-reducing permutation, which `cholesky` of CHOLMOD chooses by itself and the dense factorisation
does not have.  A Cholesky factorisation is a parameter.  Weights are absent: `self.R` is the identity.
-/
namespace Verif.Lmm.Lm
open Matrix Kronecker Verif.Fa Verif.Like
variable {T : Terms} {n p q N : ℕ}

/-- The unknowns of the mixed model equations. -/
abbrev Ix (T : Terms) (p : ℕ) := Fin p ⊕ T.RE

/-- `self.M` — lmm.py 41-50. -/
noncomputable def bigM (m : Mme T n p) : Matrix (Ix T p ⊕ Unit) (Ix T p ⊕ Unit) ℝ :=
  let y := replicateCol Unit m.y
  let XtX := m.Xᵀ * m.X
  let ZtX := m.Zᵀ * m.X
  let ytX := yᵀ * m.X
  let ZtZ := m.Zᵀ * m.Z
  let ytZ := (m.Zᵀ * y)ᵀ
  let yty := yᵀ * y
  fromBlocks (fromBlocks XtX ZtXᵀ ZtX ZtZ) (fromRows ytXᵀ ytZᵀ) (fromCols ytX ytZ) yty

/-- `update_mme(Ginv, theta)` — 143-148; `_update_mme` and `update_mme2` are the same (132-141). -/
noncomputable def updateMme (m : Mme T n p) (Gi : Matrix T.RE T.RE ℝ) (s2 : ℝ) : Matrix (Ix T p ⊕ Unit) (Ix T p ⊕ Unit) ℝ :=
  (1 / s2) • bigM m + fromBlocks (fromBlocks 0 0 0 Gi) 0 0 0

/-- `loglike(theta, reml)` — 157-174: `e` is the ordering of the factor of `M`, `e'` that of `Q`. -/
noncomputable def loglike (cN : Mat (N + 1) (N + 1) → Option (Mat (N + 1) (N + 1))) (cq : Mat q q → Option (Mat q q))
    (e : Ix T p ⊕ Unit ≃ Fin (N + 1)) (e' : T.RE ≃ Fin q) (m : Mme T n p) (reml : Bool) (th : T.Par → ℝ) (s2 : ℝ) :
    Option ℝ := do
  let Gi ← T.ginv? th
  let L ← cN ((updateMme m Gi s2).submatrix e.symm e.symm)
  let ytPy := L (Fin.last N) (Fin.last N) ^ 2
  let ldG := T.lndetG th
  let ldR := Real.log s2 * n
  if reml then
    let ldC := ∑ i : Fin N, 2 * Real.log (L i.castSucc i.castSucc)
    return ldR + ldC + ldG + ytPy
  else
    let Q := Gi + (1 / s2) • (m.Zᵀ * m.Z)
    let Lq ← cq (Q.submatrix e'.symm e'.symm)
    let ldV := 2 * ∑ i, Real.log (Lq i i)
    return ldR + ldV + ldG + ytPy

/-- The quantities of `gradient` before the loops. -/
structure GParts (T : Terms) (n p : ℕ) where
  W : Mat n n
  RZ : Matrix (Fin n) T.RE ℝ
  M : Matrix T.RE T.RE ℝ
  ZtWZ : Matrix T.RE T.RE ℝ
  XtWXinv : Mat p p
  ZtWX : Matrix T.RE (Fin p) ℝ
  WX : Mat n p
  Py : Fin n → ℝ

/-- `gradient(theta, reml)` until the loops — 364-406, also `_gradient_old` 256-277 and `_gradient_dense` 308-332: the
inverse is formed from the factor; `tr` is the branch multiplying transposed matrices (393). -/
noncomputable def gparts (cq : Mat q q → Option (Mat q q)) (e : T.RE ≃ Fin q) (m : Mme T n p) (tr : Bool) (th : T.Par → ℝ)
    (s2 : ℝ) : Option (GParts T n p) := do
  let W : Mat n n := (1 / s2) • 1
  let Gi ← T.ginv? th
  let RZ := W * m.Z
  let RX := W * m.X
  let Ry := W *ᵥ m.y
  let ZtRZ := RZᵀ * m.Z
  let XtRX := m.Xᵀ * RX
  let ZtRX := RZᵀ * m.X
  let ZtRy := RZᵀ *ᵥ m.y
  let Q := Gi + ZtRZ
  let L ← cq (Q.submatrix e.symm e.symm)
  let M := ((L⁻¹)ᵀ * L⁻¹).submatrix e e
  let ZtWZ := if tr then ZtRZ - (ZtRZᵀ * (ZtRZ * M)ᵀ)ᵀ else ZtRZ - ZtRZ * M * ZtRZ
  let MZtRX := M * ZtRX
  let XtWX := XtRX - ZtRXᵀ * MZtRX
  let XtWXinv ← inv? XtWX
  let ZtWX := ZtRX - ZtRZ * MZtRX
  let WX := RX - RZ * MZtRX
  let U := XtWXinv * WXᵀ
  let Vy := Ry - RZ *ᵥ (M *ᵥ ZtRy)
  let Py := Vy - WX *ᵥ (U *ᵥ m.y)
  return ⟨W, RZ, M, ZtWZ, XtWXinv, ZtWX, WX, Py⟩

/-- A component of the gradient — 407-421, also 278-292 and 333-347. -/
noncomputable def gcomp (reml : Bool) (m : Mme T n p) (P : GParts T n p) (j : T.Par) : ℝ :=
  let bl := fun x : Fin (T.nlv j.1) × Fin (T.nrv j.1) => (⟨j.1, x⟩ : T.RE)
  let ZtPy := m.Zᵀ *ᵥ P.Py
  let ZtWZi := P.ZtWZ.submatrix bl bl
  let ZtWXi := P.ZtWX.submatrix bl id
  let ZtPyi := fun x => ZtPy (bl x)
  let g1 := (T.dG j * ZtWZi).trace
  let g2 := ZtPyi ⬝ᵥ (T.dG j *ᵥ ZtPyi)
  let g3 := if reml then (P.XtWXinv * (ZtWXiᵀ * (T.dG j * ZtWXi))).trace else 0
  g1 - g2 - g3

/-- The last component — 423-439, also 293-302 and 348-358; `tr` is the branch multiplying transposed matrices. -/
noncomputable def rcomp (reml : Bool) (tr : Bool) (P : GParts T n p) : ℝ :=
  let RZdRRZ := P.RZᵀ * (1 : Mat n n) * P.RZ
  let g1 := P.W.trace - if tr then (RZdRRZᵀ * P.Mᵀ).trace else (P.M * RZdRRZ).trace
  let g2 := P.Py ⬝ᵥ P.Py
  let g3 := if reml then (P.XtWXinv * (P.WXᵀ * P.WX)).trace else 0
  g1 - g2 - g3

/-- `gradient(theta, reml)` — 363-442: `tr` and `tr'` are the branches chosen by the sparsity of the matrices. -/
noncomputable def gradient (cq : Mat q q → Option (Mat q q)) (e : T.RE ≃ Fin q) (m : Mme T n p) (tr tr' : Bool) (reml : Bool)
    (th : T.Par → ℝ) (s2 : ℝ) : Option ((T.Par → ℝ) × ℝ) := do
  let P ← gparts cq e m tr th s2
  return (gcomp reml m P, rcomp reml tr' P)

/-- The quantities of `hessian` before the loops. -/
structure HParts (T : Terms) (n p : ℕ) where
  ZtP : Matrix T.RE (Fin n) ℝ
  ZtPZ : Matrix T.RE T.RE ℝ
  Py : Fin n → ℝ
  ZtPy : T.RE → ℝ
  PPy : Fin n → ℝ
  ZtPPy : T.RE → ℝ
  P : Mat n n

/-- `hessian(theta, reml)` until the loops — 444-465, 495: `reml` is not used. -/
noncomputable def hparts (cq : Mat q q → Option (Mat q q)) (e : T.RE ≃ Fin q) (m : Mme T n p) (th : T.Par → ℝ) (s2 : ℝ) :
    Option (HParts T n p) := do
  let R : Mat n n := (1 / s2) • 1
  let Gi ← T.ginv? th
  let RZ := R * m.Z
  let ZtRZ := RZᵀ * m.Z
  let Q := ZtRZ + Gi
  let L ← cq (Q.submatrix e.symm e.symm)
  let M := ((L⁻¹)ᵀ * L⁻¹).submatrix e e
  let W := R - RZ * M * RZᵀ
  let WZ := W * m.Z
  let WX := W * m.X
  let XtWX := WXᵀ * m.X
  let ZtWX := m.Zᵀ * WX
  let Xi ← inv? XtWX
  let U := Xi * WXᵀ
  let ZtP := WZᵀ - ZtWX * (Xi * WXᵀ)
  let ZtPZ := m.Zᵀ * ZtPᵀ
  let Py := W *ᵥ m.y - WX *ᵥ (U *ᵥ m.y)
  let ZtPy := m.Zᵀ *ᵥ Py
  let PPy := W *ᵥ Py - WX *ᵥ (U *ᵥ Py)
  let ZtPPy := m.Zᵀ *ᵥ PPy
  return ⟨ZtP, ZtPZ, Py, ZtPy, PPy, ZtPPy, W - WX * U⟩

/-- `H[i, j]` for two parameters of the random effects — 469-487. -/
noncomputable def hGG (H : HParts T n p) (i j : T.Par) : ℝ :=
  let bi := fun x : Fin (T.nlv i.1) × Fin (T.nrv i.1) => (⟨i.1, x⟩ : T.RE)
  let bj := fun x : Fin (T.nlv j.1) × Fin (T.nrv j.1) => (⟨j.1, x⟩ : T.RE)
  let ZtPZij := H.ZtPZ.submatrix bi bj
  let PJi := (T.dG i * H.ZtPZ.submatrix bi id).submatrix id bj
  let PJj := (T.dG j * H.ZtPZ.submatrix bj id).submatrix id bi
  let yi := T.dG i *ᵥ fun x => H.ZtPy (bi x)
  let yj := T.dG j *ᵥ (fun x => H.ZtPy (bj x))
  let tr := ∑ a, ∑ b, PJi a b * PJj b a
  (-tr) + 2 * (yi ᵥ* ZtPZij ⬝ᵥ yj)

/-- `H[i, -1]` — 488-494. -/
noncomputable def hGR (H : HParts T n p) (i : T.Par) : ℝ :=
  let bi := fun x : Fin (T.nlv i.1) × Fin (T.nrv i.1) => (⟨i.1, x⟩ : T.RE)
  let yi := T.dG i *ᵥ fun x => H.ZtPy (bi x)
  let ZPJi := (T.dG i * H.ZtP.submatrix bi id)ᵀ
  let dRZtP := (1 : Mat n n) * H.ZtPᵀ
  2 * (yi ⬝ᵥ (fun x => H.ZtPPy (bi x))) - ∑ a, ∑ b, ZPJiᵀ a b * dRZtP b (bi a)

/-- `H[-1, -1]` — 496. -/
noncomputable def hRR (H : HParts T n p) : ℝ := (H.Py ⬝ᵥ H.PPy) * 2 - ∑ a, ∑ b, H.P a b * H.P b a

/-- `hessian(theta, reml)` — 444-497; the loop over the upper triangle also sets the lower one. -/
noncomputable def hessian (cq : Mat q q → Option (Mat q q)) (e : T.RE ≃ Fin q) (m : Mme T n p) (_reml : Bool) (th : T.Par → ℝ)
    (s2 : ℝ) : Option ((T.Par → T.Par → ℝ) × (T.Par → ℝ) × ℝ) := do
  let H ← hparts cq e m th s2
  return (hGG H, hGR H, hRR H)

/-- `vinvcrossprod(A, B, theta)` — 500-510; the first product is formed the other way round and transposed. -/
noncomputable def vinvcross {a b : Type} [Fintype a] [Fintype b] (cq : Mat q q → Option (Mat q q)) (e : T.RE ≃ Fin q)
    (m : Mme T n p) (A : Matrix (Fin n) a ℝ) (B : Matrix (Fin n) b ℝ) (th : T.Par → ℝ) (s2 : ℝ) : Option (Matrix a b ℝ) := do
  let Ri : Mat n n := (1 / s2) • 1
  let Gi ← T.ginv? th
  let RZ := Ri * m.Z
  let Q := Gi + m.Zᵀ * RZ
  let L ← cq (Q.submatrix e.symm e.symm)
  let M := ((L⁻¹)ᵀ * L⁻¹).submatrix e e
  let AtRB := ((Ri * B)ᵀ * A)ᵀ
  let AtRZ := (RZᵀ * A)ᵀ
  let ZtRB := RZᵀ * B
  return AtRB - ((M * ZtRB)ᵀ * AtRZᵀ)ᵀ

/-- `_compute_effects(theta)` — 512-530. -/
noncomputable def computeEffects (cN : Mat N N → Option (Mat N N)) (cq : Mat q q → Option (Mat q q))
    (e : Ix T p ≃ Fin N) (e' : T.RE ≃ Fin q) (m : Mme T n p) (th : T.Par → ℝ) (s2 : ℝ) :
    Option ((Fin p → ℝ) × Mat p p × (T.RE → ℝ)) := do
  let Gi ← T.ginv? th
  let M := updateMme m Gi s2
  let XZy := (1 / s2) • Sum.elim (m.Xᵀ *ᵥ m.y) (m.Zᵀ *ᵥ m.y)
  let K := M.submatrix Sum.inl Sum.inl
  let L ← cN (K.submatrix e.symm e.symm)
  let betau := ((L⁻¹)ᵀ * L⁻¹).submatrix e e *ᵥ XZy
  let u := fun i => betau (Sum.inr i)
  let beta := fun i => betau (Sum.inl i)
  let Ri : Mat n n := (1 / s2) • 1
  let RZ := Ri * m.Z
  let Q := Gi + m.Zᵀ * RZ
  let Lq ← cq (Q.submatrix e'.symm e'.symm)
  let Mq := ((Lq⁻¹)ᵀ * Lq⁻¹).submatrix e' e'
  let XtRX := m.Xᵀ * (Ri * m.X)
  let XtRZ := (RZᵀ * m.X)ᵀ
  let XtVX := XtRX - XtRZ * (Mq * XtRZᵀ)
  let XtVXinv ← inv? XtVX
  return (beta, XtVXinv, u)

open Classical in
/-- `update_lmat(theta)` — 117-125: the Cholesky factors of the covariances along the diagonal, as many times as there are
levels. -/
noncomputable def lmat? (ch : (k : ℕ) → Mat k k → Option (Mat k k)) (th : T.Par → ℝ) : Option (Matrix T.RE T.RE ℝ) :=
  if h : ∀ k, (ch _ (invech (Terms.sl th k))).isSome then
    some (blockDiagonal' fun k => (1 : Mat (T.nlv k) (T.nlv k)) ⊗ₖ (ch _ (invech (Terms.sl th k))).get (h k))
  else none

/-- `pls(theta, w)` — 176-199: `w` are the weights, `Lm` is the matrix of `update_lmat`, `e` is the order of the random effects
and `σ` the fill-reducing permutation of `cholesky_AAt`, which `solve_L` and `solve_Lt` do not apply. -/
noncomputable def pls (cq : Mat q q → Option (Mat q q)) (e : T.RE ≃ Fin q) (σ : Fin q ≃ Fin q) (m : Mme T n p) (w : Fin n → ℝ)
    (Lm : Matrix T.RE T.RE ℝ) (s2 : ℝ) : Option (ℝ × (Fin p → ℝ) × (T.RE → ℝ)) := do
  let W := diagonal w
  let ZtW := m.Zᵀ * W
  let WX := W * m.X
  let Wy := W *ᵥ m.y
  let XtWX := WXᵀ * WX
  let XtWy := WXᵀ *ᵥ Wy
  let ZtWX := ZtW * WX
  let ZtWy := ZtW *ᵥ Wy
  let LtZtW := Lmᵀ * ZtW
  let A := (LtZtW * LtZtWᵀ + 1).submatrix e.symm e.symm
  let Lf ← cq (A.submatrix σ.symm σ.symm)
  let cu := Lf⁻¹ *ᵥ fun i => (Lmᵀ *ᵥ ZtWy) (e.symm i)
  let RZX := Lf⁻¹ * (Lmᵀ * ZtWX).submatrix e.symm id
  let RXtRX := XtWX - RZXᵀ * RZX
  let Ri ← inv? RXtRX
  let b := Ri *ᵥ (XtWy - RZXᵀ *ᵥ cu)
  let v := (Lf⁻¹)ᵀ *ᵥ (cu - RZX *ᵥ b)
  let u := Lm *ᵥ fun i => v (e i)
  let mu := m.X *ᵥ b + m.Z *ᵥ u
  let wtres := W *ᵥ (m.y - mu)
  let pwrss := wtres ⬝ᵥ wtres + v ⬝ᵥ v
  let ld := 2 * ∑ i, Real.log (Lf i i) + Real.log |RXtRX.det|
  let dev := n * Real.log (2 * Real.pi * s2) + ld + pwrss / s2
  return (dev, b, u)

end Verif.Lmm.Lm
