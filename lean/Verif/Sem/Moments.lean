import Verif.Calc.Matrix
/-!
# Model of `pysem2/sem.py` implied moments, fit function, and `pysem2/derivatives.py`

Over `ℝ` with Mathlib matrices; `p` indexes observed, `q` latent-side variables.
`np.linalg.inv` is the matrix inverse (theorems assume the matrix is invertible, where numpy does
not raise).
-/
namespace Verif.Sem
open Matrix

variable {p q : Type*} [Fintype p] [Fintype q] [DecidableEq p] [DecidableEq q]

/-- The model matrices returned by `par_to_model_mats` — model_specification.py 160-169. -/
structure Mats (p q : Type*) where
  L : Matrix p q ℝ
  B : Matrix q q ℝ
  F : Matrix q q ℝ
  P : Matrix p p ℝ
  a : p → ℝ
  b : q → ℝ

/-- `np.linalg.inv(np.eye(q) - B)`, which the code rebinds to `B`. -/
noncomputable def Mats.Bi (θ : Mats p q) : Matrix q q ℝ := (1 - θ.B)⁻¹

/-- `_implied_cov_mean` — sem.py 253-258. -/
noncomputable def Mats.Sigma (θ : Mats p q) : Matrix p p ℝ :=
  (θ.L * θ.Bi) * θ.F * (θ.L * θ.Bi)ᵀ + θ.P

noncomputable def Mats.mu (θ : Mats p q) : p → ℝ := θ.a + (θ.L * θ.Bi) *ᵥ θ.b

/-- A free parameter: which matrix it is in and the matrix `J = dA[i]` of its direction
(`create_derivative_arrays`, indexers.py 168-178); `a`, `b` have one row. -/
inductive Dir (p q : Type*) where
  | L (J : Matrix p q ℝ)
  | B (J : Matrix q q ℝ)
  | F (J : Matrix q q ℝ)
  | P (J : Matrix p p ℝ)
  | a (J : p → ℝ)
  | b (J : q → ℝ)

/-- The sigma part of `_dsigma_mu` — derivatives.py 5-39; also of `_d2loglike_mu` 214-235. -/
noncomputable def dSigma (θ : Mats p q) : Dir p q → Matrix p p ℝ
  | .L J =>
    let J1 := θ.L * (θ.Bi * θ.F * θ.Biᵀ) * Jᵀ
    J1 + J1ᵀ
  | .B J =>
    let J1 := J * (θ.Bi * θ.F)
    (θ.L * θ.Bi) * (J1 + J1ᵀ) * (θ.L * θ.Bi)ᵀ
  | .F J => (θ.L * θ.Bi) * J * (θ.L * θ.Bi)ᵀ
  | .P J => J
  | .a _ => 0
  | .b _ => 0

/-- The mean part of `_dsigma_mu`. -/
noncomputable def dMu (θ : Mats p q) : Dir p q → p → ℝ
  | .L J => J *ᵥ (θ.Bi *ᵥ θ.b)
  | .B J => (θ.L * θ.Bi * J) *ᵥ (θ.Bi *ᵥ θ.b)
  | .F _ => 0
  | .P _ => 0
  | .a J => J
  | .b J => (θ.L * θ.Bi) *ᵥ J

/-- The sigma part of `_d2sigma_mu` (derivatives.py 42-98) and of `_d2loglike_mu` (245-281); the
pairs are `(i, j)` with the block of `i` at or after the block of `j`. -/
noncomputable def d2Sigma (θ : Mats p q) : Dir p q → Dir p q → Matrix p p ℝ
  | .L Ji, .L Jj =>
    let BFBt := θ.Bi * θ.F * θ.Biᵀ
    Ji * BFBt * Jjᵀ + Jj * BFBt * Jiᵀ
  | .B Ji, .L Jj =>
    let BJj := θ.Biᵀ * Jjᵀ
    let JiBF := Ji * (θ.Bi * θ.F)
    let C := JiBF + JiBFᵀ
    let D := (θ.L * θ.Bi) * C * BJj
    D + Dᵀ
  | .F Ji, .L Jj =>
    let C := (Jj * θ.Bi) * Ji * (θ.L * θ.Bi)ᵀ
    C + Cᵀ
  | .B Ji, .B Jj =>
    let C1 := Ji * (θ.Bi * θ.F)
    let C1 := C1 + C1ᵀ
    let C2 := Ji * θ.Bi
    let C3 := Jj * θ.Bi
    let t1 := C3 * C1
    let t3 := C2 * (C3 * θ.F)
    let t4 := θ.Fᵀ * C3ᵀ * C2ᵀ
    (θ.L * θ.Bi) * (t1 + t1ᵀ + t3 + t4) * (θ.L * θ.Bi)ᵀ
  | .F Ji, .B Jj =>
    let C := Jj * θ.Bi * Ji
    (θ.L * θ.Bi) * (C + Cᵀ) * (θ.L * θ.Bi)ᵀ
  | _, _ => 0

/-- The mean part of `_d2sigma_mu` — derivatives.py 42-98. -/
noncomputable def d2Mu (θ : Mats p q) : Dir p q → Dir p q → p → ℝ
  | .B Ji, .L Jj => (Jj * θ.Bi * Ji) *ᵥ (θ.Bi *ᵥ θ.b)
  | .B Ji, .B Jj => (θ.L * θ.Bi * Ji * θ.Bi * Jj) *ᵥ (θ.Bi *ᵥ θ.b)
  | .b Ji, .L Jj => Jj *ᵥ (θ.Bi *ᵥ Ji)
  | .b Ji, .B Jj => (θ.L * θ.Bi * Jj * θ.Bi) *ᵥ Ji
  | _, _ => 0

/-- The mean part inside `_d2loglike_mu` — derivatives.py 245-281 (both orders for B, B). -/
noncomputable def d2MuLL (θ : Mats p q) : Dir p q → Dir p q → p → ℝ
  | .B Ji, .L Jj => (Jj * θ.Bi * Ji) *ᵥ (θ.Bi *ᵥ θ.b)
  | .B Ji, .B Jj =>
    let JiB := Ji * θ.Bi
    let JjB := Jj * θ.Bi
    ((θ.L * θ.Bi) * (JjB * Ji + JiB * Jj)) *ᵥ (θ.Bi *ᵥ θ.b)
  | .b Ji, .L Jj => Jj *ᵥ (θ.Bi *ᵥ Ji)
  | .b Ji, .B Jj => (θ.L * θ.Bi * Jj * θ.Bi) *ᵥ Ji
  | _, _ => 0

/-- `np.dot(A.flatten(), B.flatten())`. -/
def frob {m n : Type*} [Fintype m] [Fintype n] (A B : Matrix m n ℝ) : ℝ :=
  ∑ i, ∑ j, A i j * B i j

/-- Group data: covariance `S` and mean `m`. -/
structure Stats (p : Type*) where
  S : Matrix p p ℝ
  m : p → ℝ

/-- The group's term of `fit_func` without weight — sem.py 71-80 (`c` is the constant):
`rVr + log|Sigma| + tr(V S) + c`. -/
noncomputable def fitGroup (d : Stats p) (c : ℝ) (θ : Mats p q) : ℝ :=
  let r := d.m - θ.mu
  let V := θ.Sigma⁻¹
  (r ᵥ* V) ⬝ᵥ r + Real.log (abs θ.Sigma.det) + (V * d.S).trace + c

noncomputable def VRV (d : Stats p) (θ : Mats p q) : Matrix p p ℝ :=
  θ.Sigma⁻¹ * (d.S - θ.Sigma) * θ.Sigma⁻¹

noncomputable def rtV (d : Stats p) (θ : Mats p q) : p → ℝ := (d.m - θ.mu) ᵥ* θ.Sigma⁻¹

/-- `_dloglike_mu` — derivatives.py 101-140 (`g` starts at zero). -/
noncomputable def dLoglike (d : Stats p) (θ : Mats p q) : Dir p q → ℝ
  | .L J =>
    let BFBt := θ.Bi * θ.F * θ.Biᵀ
    let dmi := J *ᵥ (θ.Bi *ᵥ θ.b)
    let g1 : ℝ := -2 * frob (Jᵀ * (VRV d θ * θ.L)) BFBt
    let g2 : ℝ := 2 * (dmi ⬝ᵥ rtV d θ) + 2 * ((rtV d θ ᵥ* θ.L) ⬝ᵥ (BFBt *ᵥ (rtV d θ ᵥ* J)))
    g1 + -g2
  | .B J =>
    let J1 := J * (θ.Bi * θ.F)
    let JJ := J1 + J1ᵀ
    let BtLtVRV := (θ.L * θ.Bi)ᵀ * ((VRV d θ * θ.L) * θ.Bi)
    let rtVLB := (rtV d θ ᵥ* θ.L) ᵥ* θ.Bi
    let g1 : ℝ := -frob BtLtVRV JJ
    let g2 : ℝ := 2 * (rtVLB ⬝ᵥ (J *ᵥ (θ.Bi *ᵥ θ.b))) + (rtVLB ᵥ* JJ) ⬝ᵥ rtVLB
    g1 + -g2
  | .F J =>
    let dSi := (θ.L * θ.Bi) * J * (θ.L * θ.Bi)ᵀ
    let g1 : ℝ := -frob (VRV d θ) dSi
    let g2 : ℝ := rtV d θ ⬝ᵥ (dSi *ᵥ rtV d θ)
    g1 + -g2
  | .P J =>
    let g1 : ℝ := -frob (VRV d θ) J
    let g2 : ℝ := rtV d θ ⬝ᵥ (J *ᵥ rtV d θ)
    g1 + -g2
  | .a J => -2 * (J ⬝ᵥ rtV d θ)
  | .b J => -2 * (((θ.L * θ.Bi) *ᵥ J) ⬝ᵥ rtV d θ)

/-- Kind tests of `_d2loglike_mu`. -/
def Dir.isMean : Dir p q → Bool
  | .a _ => true
  | .b _ => true
  | _ => false

def Dir.isCov : Dir p q → Bool
  | .F _ => true
  | .P _ => true
  | _ => false

/-- `second_deriv_type in (6, 7)`. -/
def meanPair : Dir p q → Dir p q → Bool
  | .b _, .L _ => true
  | .b _, .B _ => true
  | _, _ => false

/-- `second_deriv_type in (1, 3, 5)`. -/
def covPair : Dir p q → Dir p q → Bool
  | .L _, .L _ => true
  | .F _, .L _ => true
  | .F _, .B _ => true
  | _, _ => false

/-- `H[i, j]` of `_d2loglike_mu` — derivatives.py 200-331. -/
noncomputable def d2Loglike (d : Stats p) (θ : Mats p q) (di dj : Dir p q) : ℝ :=
  let V := θ.Sigma⁻¹
  let r := rtV d θ
  let vecVRV := VRV d θ
  let vecVRV2 := vecVRV + (1 / 2 : ℝ) • V
  let si := dSigma θ di
  let sj := dSigma θ dj
  let mi := dMu θ di
  let mj := dMu θ dj
  let sij := d2Sigma θ di dj
  let mij := d2MuLL θ di dj
  let t6 := if !di.isMean then
      (if !dj.isCov then 2 * ((r ᵥ* si) ⬝ᵥ (V *ᵥ mj)) else 0) else 0
  let t1 := if !di.isMean then
      (if !dj.isMean then 2 * frob vecVRV2 (si * V * sj) else 0) else 0
  let t2 := if !meanPair di dj then -frob vecVRV sij else 0
  let t3 := if !di.isCov then 2 * (mj ⬝ᵥ (V *ᵥ mi)) else 0
  let t4 := if !covPair di dj then -2 * (r ⬝ᵥ mij) else 0
  let t5 := if !dj.isMean then
      (if !di.isCov then 2 * ((r ᵥ* sj) ⬝ᵥ (V *ᵥ mi)) else 0) else 0
  let t7 := if !dj.isMean then
      (if !di.isMean then 2 * (((r ᵥ* sj) ᵥ* V) ⬝ᵥ (si *ᵥ r)) else 0) else 0
  let t8 := if !meanPair di dj then -((r ᵥ* sij) ⬝ᵥ r) else 0
  t1 + t2 + t3 + t4 + t5 + t6 + t7 + t8

/-- One entry of `gradient_obs` for the observation `y` — sem.py 330-340: half of
`-2 (-t1/2 + t2 + t3/2)`. -/
noncomputable def gradObs (y : p → ℝ) (θ : Mats p q) (di : Dir p q) : ℝ :=
  let V := θ.Sigma⁻¹
  let t1 := frob (dSigma θ di) V
  let Y := y - θ.mu
  let YV := Y ᵥ* V
  let t2 := YV ⬝ᵥ dMu θ di
  let t3 := YV ⬝ᵥ (dSigma θ di *ᵥ YV)
  (-2 * (-t1 / 2 + t2 + t3 / 2)) / 2

end Verif.Sem
