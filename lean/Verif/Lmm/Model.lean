import Mathlib.LinearAlgebra.Matrix.Kronecker
import Mathlib.Analysis.Matrix.Spectrum
import Mathlib.Data.Matrix.Block
import Verif.Like.Leverage
/-!
# Model of the linear mixed model of `pylmm/re_mod.py`

A random effect is addressed by its term, level and variable instead of the position
`ranef_sl[k].start + level * n_revars + variable`, a covariance parameter by its term and its cell in the lower triangle
instead of its position in `theta` (`r_inds`, `c_inds` enumerate the lower triangle).  The residual covariance is
`DiagResidualCovTerm`: `R` is `theta[-1]` times the identity.  Matrices are dense.

`KronAG` stores the inverse of the given level covariance in the sparsity pattern of that covariance: the model is
undefined (`none`) when the patterns differ, see `C112`.
-/
namespace Verif.Lmm
open Matrix Kronecker Verif.Fa Verif.Like

/-- The positions `(r_inds[i], c_inds[i])` of the lower triangle. -/
abbrev Tri (r : ℕ) := {a : Fin r × Fin r // a.2 ≤ a.1}

/-- The position holding the entry of a symmetric matrix. -/
def tri {r : ℕ} (a b : Fin r) : Tri r := if h : b ≤ a then ⟨(a, b), h⟩ else ⟨(b, a), (not_le.1 h).le⟩

/-- `_invech(params)` — 132-134, 179. -/
def invech {r : ℕ} (th : Tri r → ℝ) : Matrix (Fin r) (Fin r) ℝ := of fun a b => th (tri a b)

/-- `UnstructuredCovariance.dcov_dparams` — 136-141. -/
def dcov {r : ℕ} (i : Tri r) : Matrix (Fin r) (Fin r) ℝ :=
  of fun a b => if (a = i.1.1 ∧ b = i.1.2) ∨ (a = i.1.2 ∧ b = i.1.1) then 1 else 0

/-- The random effect terms — 362-372: numbers of levels and variables, and `a_cov`. -/
structure Terms where
  K : ℕ
  nlv : Fin K → ℕ
  nrv : Fin K → ℕ
  acov : ∀ k, Option (Matrix (Fin (nlv k)) (Fin (nlv k)) ℝ)

namespace Terms
variable (T : Terms)

/-- The random effects. -/
abbrev RE := Σ k : Fin T.K, Fin (T.nlv k) × Fin (T.nrv k)

/-- The covariance parameters except the last. -/
abbrev Par := Σ k : Fin T.K, Tri (T.nrv k)

/-- The level covariance: the identity for `KronIG`. -/
noncomputable def A (k : Fin T.K) : Matrix (Fin (T.nlv k)) (Fin (T.nlv k)) ℝ := (T.acov k).getD 1

/-- `theta[theta_sl[k]]`. -/
def sl {T : Terms} (th : T.Par → ℝ) (k : Fin T.K) : Tri (T.nrv k) → ℝ := fun a => th ⟨k, a⟩

/-- `RandomEffects.update_gcov(theta)` — 529-545, 555-559: `KronIG` tiles `G0` (245-247), `KronAG` is the Kronecker product (315-317). -/
noncomputable def gcov (th : T.Par → ℝ) : Matrix T.RE T.RE ℝ := blockDiagonal' fun k => T.A k ⊗ₖ invech (sl th k)

/-- `dcov_dparams` of the term — 195-197, 254-264, 324-328. -/
noncomputable def dG (j : T.Par) : Matrix (Fin (T.nlv j.1) × Fin (T.nrv j.1)) (Fin (T.nlv j.1) × Fin (T.nrv j.1)) ℝ :=
  T.A j.1 ⊗ₖ dcov j.2

open Classical in
/-- `RandomEffects.update_gcov(theta, inv=True)` — 178-184, 315-317, 555-559. -/
noncomputable def ginv? (th : T.Par → ℝ) : Option (Matrix T.RE T.RE ℝ) :=
  if (∀ k, IsUnit (invech (sl th k)).det) ∧ ∀ k, ∀ B, T.acov k = some B → ∀ i j, B⁻¹ i j = 0 ↔ B i j = 0 then
    some (blockDiagonal' fun k => (T.A k)⁻¹ ⊗ₖ (invech (sl th k))⁻¹)
  else none

open Classical in
/-- `logpdet` — 54-57. -/
noncomputable def logpdet {m : ℕ} (B : Matrix (Fin m) (Fin m) ℝ) : ℝ :=
  if h : B.IsHermitian then ∑ i, if 0 < h.eigenvalues i then Real.log (h.eigenvalues i) else 0 else 0

/-- `lda_const` — 228, 305. -/
noncomputable def lda (k : Fin T.K) : ℝ := match T.acov k with
  | none => 0
  | some B => logpdet B * T.nrv k

/-- `lndet_gmat` — 577-581, 249-252, 319-322. -/
noncomputable def lndetG (th : T.Par → ℝ) : ℝ := ∑ k, (T.nlv k * Real.log |(invech (sl th k)).det| + T.lda k)

end Terms

variable {T : Terms} {n p q : ℕ}

/-- The data of `MMEBlocked` — 592-605. -/
structure Mme (T : Terms) (n p : ℕ) where
  X : Mat n p
  y : Fin n → ℝ
  Z : Matrix (Fin n) T.RE ℝ

namespace Mme

/-- `np.hstack([X, y])` — 644. -/
def Xy (m : Mme T n p) : Mat n (p + 1) := of fun i => Fin.snoc (α := fun _ => ℝ) (m.X i) (m.y i)

/-- `_update_crossprods_scalar` — 710-714. -/
noncomputable def ZtRZ (m : Mme T n p) (s2 : ℝ) : Matrix T.RE T.RE ℝ := (1 / s2) • (m.Zᵀ * m.Z)
noncomputable def ZtRXy (m : Mme T n p) (s2 : ℝ) : Matrix T.RE (Fin (p + 1)) ℝ := (1 / s2) • (m.Zᵀ * m.Xy)
noncomputable def XytRXy (m : Mme T n p) (s2 : ℝ) : Mat (p + 1) (p + 1) := (1 / s2) • (m.Xyᵀ * m.Xy)

end Mme

/-- `apply_Pt(solve_L(apply_P(B)))`: `e` is the flattening followed by the fill-reducing permutation.  Without the
permutation and its inverse this is the triangular solve of the dense branch. -/
noncomputable def facSolve {k : Type} (e : T.RE ≃ Fin q) (L : Mat q q) (B : Matrix T.RE k ℝ) : Matrix T.RE k ℝ :=
  (L⁻¹ * B.submatrix e.symm id).submatrix e id

/-- `update_chol_diag` — 755-778: `logdet_C` and the diagonal of `L22`. -/
noncomputable def cholDiag (cq : Mat q q → Option (Mat q q)) (cp : Mat (p + 1) (p + 1) → Option (Mat (p + 1) (p + 1)))
    (e : T.RE ≃ Fin q) (m : Mme T n p) (th : T.Par → ℝ) (s2 : ℝ) : Option (ℝ × (Fin (p + 1) → ℝ)) := do
  let Gi ← T.ginv? th
  let C := m.ZtRZ s2 + Gi
  let L ← cq (C.submatrix e.symm e.symm)
  let L21 := (facSolve e L (m.ZtRXy s2))ᵀ
  let L22 ← cp (m.XytRXy s2 - L21 * L21ᵀ)
  return (2 * ∑ i, Real.log (L i i), fun i => L22 i i)

/-- `_loglike` — 622-632, 583-587. -/
noncomputable def loglike (cq : Mat q q → Option (Mat q q)) (cp : Mat (p + 1) (p + 1) → Option (Mat (p + 1) (p + 1)))
    (e : T.RE ≃ Fin q) (m : Mme T n p) (reml : Bool) (th : T.Par → ℝ) (s2 : ℝ) : Option ℝ := do
  let (ldC, d) ← cholDiag cq cp e m th s2
  let ytPy := d (Fin.last p) ^ 2
  let ldG := T.lndetG th
  let ldR := n * Real.log |s2|
  if reml then
    let ldX := 2 * ∑ i : Fin p, Real.log (d i.castSucc)
    return ldR + ldC + ldX + ldG + ytPy
  else return ldR + ldC + ldG + ytPy

/-- What the gradient routines hand to `accumulate_gradient`. -/
structure Parts (T : Terms) (n p : ℕ) where
  Lzz : Matrix T.RE T.RE ℝ
  Tzx : Matrix T.RE (Fin p) ℝ
  vy : T.RE → ℝ
  TxxInv : Mat p p
  uxy : Fin p → ℝ

/-- The first part of `_gradient` — 780-805. -/
noncomputable def parts (cq : Mat q q → Option (Mat q q)) (e : T.RE ≃ Fin q) (m : Mme T n p) (th : T.Par → ℝ) (s2 : ℝ) :
    Option (Parts T n p) := do
  let Gi ← T.ginv? th
  let L ← cq ((m.ZtRZ s2 + Gi).submatrix e.symm e.symm)
  let ZtRX := (m.ZtRXy s2).submatrix id Fin.castSucc
  let ZtRy := fun i => m.ZtRXy s2 i (Fin.last p)
  let XtRX := (m.XytRXy s2).submatrix Fin.castSucc Fin.castSucc
  let XtRy := fun i : Fin p => m.XytRXy s2 i.castSucc (Fin.last p)
  let Lzz := (facSolve e L (m.ZtRZ s2))ᵀ
  let Lzxyt := facSolve e L (m.ZtRXy s2)
  let Lzxt := Lzxyt.submatrix id Fin.castSucc
  let Lzyt := fun i => Lzxyt i (Fin.last p)
  let Tzx := ZtRX - Lzz * Lzxt
  let Txx := XtRX - Lzxtᵀ * Lzxt
  let TxxInv ← inv? Txx
  let uxy := XtRy - Lzxtᵀ *ᵥ Lzyt
  let uzy := ZtRy - Lzz *ᵥ Lzyt
  let vy := uzy - Tzx *ᵥ (TxxInv *ᵥ uxy)
  return ⟨Lzz, Tzx, vy, TxxInv, uxy⟩

/-- `BaseProductCovariance.accumulate_gradient` — 202-220; `sparse_pattern_trace` is the sum over the entries of `dGj`: one component. -/
noncomputable def accBase (reml : Bool) (m : Mme T n p) (s2 : ℝ) (P : Parts T n p) (j : T.Par) : ℝ :=
  let bl := fun x : Fin (T.nlv j.1) × Fin (T.nrv j.1) => (⟨j.1, x⟩ : T.RE)
  let dGj := T.dG j
  let ZtRZb := (m.ZtRZ s2).submatrix bl bl
  let T1 := ∑ i, (ZtRZb * dGj) i i - ∑ i, ∑ i', dGj i i' * ∑ l, P.Lzz (bl i) l * P.Lzz (bl i') l
  let T3 := -((dGj *ᵥ fun i => P.vy (bl i)) ⬝ᵥ fun i => P.vy (bl i))
  let Tb := P.Tzx.submatrix bl id
  let T2 := if reml then -∑ c, ∑ c', (Tbᵀ * (dGj * Tb)) c c' * P.TxxInv c c' else 0
  T1 + T2 + T3

/-- `KronIG.accumulate_gradient` — 280-297: one component; `block_diag_self_dot` sums the
diagonal blocks of `L_zz L_zzᵀ`, and the cached index map is taken to find the diagonal blocks of `ZtRZ`, see `C112`. -/
noncomputable def accIG (reml : Bool) (m : Mme T n p) (s2 : ℝ) (P : Parts T n p) (j : T.Par) : ℝ :=
  let at' := fun (l : Fin (T.nlv j.1)) (a : Fin (T.nrv j.1)) => (⟨j.1, (l, a)⟩ : T.RE)
  let M := fun a b : Fin (T.nrv j.1) =>
    let M0 := ∑ l, m.ZtRZ s2 (at' l a) (at' l b) - ∑ l, ∑ x, P.Lzz (at' l a) x * P.Lzz (at' l b) x -
      ∑ l, P.vy (at' l a) * P.vy (at' l b)
    if reml then M0 - ∑ l, ∑ c, ∑ c', P.Tzx (at' l a) c * P.TxxInv c c' * P.Tzx (at' l b) c' else M0
  let mult : ℝ := if j.2.1.1 = j.2.1.2 then 1 else 2
  M j.2.1.1 j.2.1.2 * mult

/-- The gradient with respect to the parameters of the random effects. -/
noncomputable def gradG (reml : Bool) (m : Mme T n p) (s2 : ℝ) (P : Parts T n p) (j : T.Par) : ℝ :=
  match T.acov j.1 with
  | none => accIG reml m s2 P j
  | some _ => accBase reml m s2 P j

/-- `DiagResidualCovTerm.accumulate_gradient` — 463-475. -/
noncomputable def gradR (reml : Bool) (m : Mme T n p) (th : T.Par → ℝ) (s2 : ℝ) (P : Parts T n p) : ℝ :=
  let b := P.TxxInv *ᵥ P.uxy
  let u := T.gcov th *ᵥ P.vy
  let r := m.y - m.X *ᵥ b - m.Z *ᵥ u
  let ydr := m.y ⬝ᵥ r
  let neff : ℝ := if reml then (n : ℝ) - p else n
  let tdg := ∑ j, th j * gradG reml m s2 P j
  neff / s2 - ydr / s2 ^ 2 - tdg / s2

/-- `_gradient` — 780-818. -/
noncomputable def gradient (cq : Mat q q → Option (Mat q q)) (e : T.RE ≃ Fin q) (m : Mme T n p) (reml : Bool)
    (th : T.Par → ℝ) (s2 : ℝ) : Option ((T.Par → ℝ) × ℝ) := do
  let P ← parts cq e m th s2
  return (gradG reml m s2 P, gradR reml m th s2 P)

/-- The first part of `_gradient_v2` — 857-878; `chol_fac.solve_A` solves with `C`. -/
noncomputable def partsV2 (cq : Mat q q → Option (Mat q q)) (e : T.RE ≃ Fin q) (m : Mme T n p) (th : T.Par → ℝ) (s2 : ℝ) :
    Option (Parts T n p) := do
  let Gi ← T.ginv? th
  let C := m.ZtRZ s2 + Gi
  let L ← cq (C.submatrix e.symm e.symm)
  let ZtRX := (m.ZtRXy s2).submatrix id Fin.castSucc
  let ZtRy := fun i => m.ZtRXy s2 i (Fin.last p)
  let XtRX := (m.XytRXy s2).submatrix Fin.castSucc Fin.castSucc
  let XtRy := fun i : Fin p => m.XytRXy s2 i.castSucc (Fin.last p)
  let MZtRX := C⁻¹ * ZtRX
  let MZtRy := C⁻¹ *ᵥ ZtRy
  let Tzx := ZtRX - m.ZtRZ s2 * MZtRX
  let Txx := XtRX - ZtRXᵀ * MZtRX
  let TxxInv ← inv? Txx
  let uxy := XtRy - ZtRXᵀ *ᵥ MZtRy
  let uzy := ZtRy - m.ZtRZ s2 *ᵥ MZtRy
  let vy := uzy - Tzx *ᵥ (TxxInv *ᵥ uxy)
  return ⟨(facSolve e L (m.ZtRZ s2))ᵀ, Tzx, vy, TxxInv, uxy⟩

/-- `_gradient_v2` — 857-895: `accumulate_gradient` of `KronAG` has no argument `L_zz_sl` and raises. -/
noncomputable def gradientV2 (cq : Mat q q → Option (Mat q q)) (e : T.RE ≃ Fin q) (m : Mme T n p) (reml : Bool)
    (th : T.Par → ℝ) (s2 : ℝ) : Option ((T.Par → ℝ) × ℝ) := do
  let P ← partsV2 cq e m th s2
  if ∀ k, (T.acov k).isNone then
    return (fun j => accIG reml m s2 P j, gradR reml m th s2 P)
  else none

/-- `compute_effects` — 1034-1053. -/
noncomputable def computeEffects (cq : Mat q q → Option (Mat q q)) (e : T.RE ≃ Fin q) (m : Mme T n p) (th : T.Par → ℝ)
    (s2 : ℝ) : Option ((Fin p → ℝ) × Mat p p × (T.RE → ℝ)) := do
  let P ← partsV2 cq e m th s2
  return (P.TxxInv *ᵥ P.uxy, P.TxxInv, T.gcov th *ᵥ P.vy)

/-- `vinv_apply` — 901-908. -/
noncomputable def vinvApply (m : Mme T n p) (C : Matrix T.RE T.RE ℝ) (v : Fin n → ℝ) (s2 : ℝ) : Fin n → ℝ :=
  let iv := 1 / s2
  let Rv := iv • v
  let rhs := m.Zᵀ *ᵥ Rv
  let Cinv := C⁻¹ *ᵥ rhs
  Rv - iv • (m.Z *ᵥ Cinv)

/-- `p_apply` — 910-915. -/
noncomputable def pApply (m : Mme T n p) (C : Matrix T.RE T.RE ℝ) (TxxInv : Mat p p) (v : Fin n → ℝ) (s2 : ℝ) (reml : Bool) :
    Fin n → ℝ :=
  let Vv := vinvApply m C v s2
  if reml then
    let corr := m.X *ᵥ (TxxInv *ᵥ (m.Xᵀ *ᵥ Vv))
    Vv - vinvApply m C corr s2
  else Vv

/-- `vinvcrossprod(A, B)` — 1062-1070. -/
noncomputable def vinvCross {a b : ℕ} (m : Mme T n p) (C : Matrix T.RE T.RE ℝ) (A : Mat n a) (B : Mat n b) (s2 : ℝ) : Mat a b :=
  let Ri : Mat n n := (1 / s2) • 1
  let ZA := m.Zᵀ * (Ri * A)
  let ZB := m.Zᵀ * (Ri * B)
  Aᵀ * (Ri * B) - ZAᵀ * (C⁻¹ * ZB)

/-- `random_effects_se(full=True)` squared — 1194-1212. -/
noncomputable def ranefVar (m : Mme T n p) (C : Matrix T.RE T.RE ℝ) (TxxInv : Mat p p) (s2 : ℝ) (i : T.RE) : ℝ :=
  let MX := C⁻¹ * (m.ZtRXy s2).submatrix id Fin.castSucc
  let varx := ∑ k, ∑ l, MX i k * TxxInv k l * MX i l
  max (C⁻¹ i i + varx) 0

/-- `_dC_dtheta` — 1249-1280: one matrix for each parameter. -/
noncomputable def dCG (m : Mme T n p) (C : Matrix T.RE T.RE ℝ) (Cx : Mat p p) (s2 : ℝ) (j : T.Par) : Mat p p :=
  let Ri : Mat n n := (1 / s2) • 1
  let bl := fun x : Fin (T.nlv j.1) × Fin (T.nrv j.1) => (⟨j.1, x⟩ : T.RE)
  let ZtRX := m.Zᵀ * (Ri * m.X)
  let Zk := m.Z.submatrix id bl
  let XtRZk := m.Xᵀ * (Ri * Zk)
  let MZ := C⁻¹ * (m.Zᵀ * (Ri * Zk))
  let XVZ := XtRZk - ZtRXᵀ * MZ
  let CXVZ := Cx * XVZ
  CXVZ * (T.dG j * CXVZᵀ)

noncomputable def dCR (m : Mme T n p) (C : Matrix T.RE T.RE ℝ) (Cx : Mat p p) (s2 : ℝ) : Mat p p :=
  let Ri : Mat n n := (1 / s2) • 1
  let RX := Ri * m.X
  let M := C⁻¹ * (m.Zᵀ * RX)
  let VX := RX - Ri * m.Z * M
  let CVX := Cx * VXᵀ
  CVX * CVXᵀ

end Verif.Lmm
