import Verif.Fa.Rotation
import Verif.Np.Basic
import Mathlib.LinearAlgebra.Matrix.Kronecker
/-!
# Model of `pyfa/rotation.py`

A position of a stacked matrix (`vec`) is the pair of its column and row, so that `np.kron` is the Kronecker product of
Mathlib.  `np.linalg.inv` raises on a singular matrix (`none`); `np.linalg.svd` and `np.linalg.pinv` are parameters.  A
column of length zero is divided by zero in the oblique retraction; the theorems show that this does not occur.
-/
namespace Verif.Fa.Old
open Matrix Kronecker Verif.Np

variable {p m : ℕ}

abbrev Mat (p m : ℕ) := Matrix (Fin p) (Fin m) ℝ

/-- `vec(X)` — linalg_operations.py 322-325. -/
def vec (X : Mat p m) : Fin m × Fin p → ℝ := fun x => X x.2 x.1

/-- `invec(x, p, m)` — linalg_operations.py 328-329. -/
def invec (v : Fin m × Fin p → ℝ) : Mat p m := of fun i j => v (j, i)

/-- `vdg(X)` — linalg_operations.py 401-403. -/
def vdg (X : Mat p m) : Matrix (Fin m × Fin p) (Fin m × Fin p) ℝ := diagonal (vec X)

/-- `kmat(p, m)` — special_mats.py 42-58. -/
def kmat (p m : ℕ) : Matrix (Fin p × Fin m) (Fin m × Fin p) ℝ := of fun x y => if y = (x.2, x.1) then 1 else 0

/-- `np.ones((p, m))`. -/
def ones (p m : ℕ) : Mat p m := of fun _ _ => 1

/-- `X * Y` of two arrays of one shape. -/
def had (X Y : Mat p m) : Mat p m := of fun i j => X i j * Y i j

/-! ## Criteria -/

/-- `get_gcf_constants(method, p, m)` — rotation.py 174-183: the name of the result is not bound for another method, and
Python divides integers. -/
noncomputable def constsF (method : String) (p m : ℕ) : Option (ℝ × ℝ × ℝ × ℝ) :=
  if p = 0 then none
  else if method = "varimax" then some (0.0, ((p : ℝ) - 1) / p, 1 / p, -1)
  else if method = "quartimax" then some (0.0, 1, 1, -1)
  else if method = "equamax" then some (0.0, 1 - m / (2.0 * p), m / (2.0 * p), -1)
  else if method = "parsimax" then
    if p + m = 2 then none else some (0.0, 1 - ((m : ℝ) - 1) / (p + m - 2), ((m : ℝ) - 1) / (p + m - 2), -1)
  else none

/-- `GeneralizedCrawfordFerguson.get_gcf_constants` — 191-212. -/
noncomputable def consts (method : String) (p m : ℕ) : Option (ℝ × ℝ × ℝ × ℝ) :=
  if p = 0 then none
  else if method = "varimax" then
    let k1 := 0.0
    let k2 := ((p : ℝ) - 1) / p
    let k3 := 1 / (p : ℝ)
    let k4 := -1
    some (k1, k2, k3, k4)
  else if method = "quartimax" then
    let k1 := 0.0
    let k2 := 1.0
    let k3 := 1.0
    let k4 := -1.0
    some (k1, k2, k3, k4)
  else if method = "equamax" then
    let k1 := 0.0
    let k2 := 1 - (m : ℝ) / (2.0 * p)
    let k3 := (m : ℝ) / (2.0 * p)
    let k4 := -1.0
    some (k1, k2, k3, k4)
  else if method = "parsimax" then
    if p + m = 2 then none
    else
      let k1 := 0.0
      let k2 := 1 - ((m : ℝ) - 1) / (p + m - 2)
      let k3 := ((m : ℝ) - 1) / (p + m - 2)
      let k4 := -1.0
      some (k1, k2, k3, k4)
  else none

/-- `GeneralizedCrawfordFerguson.Q` — 215-222. -/
noncomputable def cfQ (k : ℝ × ℝ × ℝ × ℝ) (L : Mat p m) : ℝ :=
  let B := sqM L
  let f1 := k.1 * (∑ i, ∑ j, B i j) ^ 2
  let f2 := k.2.1 * ∑ i, rowS B i ^ 2
  let f3 := k.2.2.1 * ∑ j, colS B j ^ 2
  let f4 := k.2.2.2 * ∑ i, ∑ j, B i j * B i j
  (f1 + f2 + f3 + f4) / 4

/-- `dQ1 + dQ2 + dQ3 + dQ4` — 225-230, 239-244, 314-319. -/
def cfW (k : ℝ × ℝ × ℝ × ℝ) (L : Mat p m) : Mat p m :=
  let B := sqM L
  of fun i j => k.1 * (∑ a, ∑ b, B a b) + k.2.1 * rowS B i + k.2.2.1 * colS B j + k.2.2.2 * B i j

/-- `GeneralizedCrawfordFerguson.dQ` — 224-231. -/
def cfDQ (k : ℝ × ℝ × ℝ × ℝ) (L : Mat p m) : Mat p m := had (cfW k L) L

/-- `TargetRotation.Q` — 339-341. -/
noncomputable def tgQ (H W L : Mat p m) : ℝ := (∑ i, ∑ j, (W i j * (L i j - H i j)) ^ 2) / 2

/-- `TargetRotation.dQ` — 343-345. -/
def tgDQ (H W L : Mat p m) : Mat p m := had W (L - H)

/-- The attributes `Q`, `dQ` and `vgQ` of a `RotationMethod`. -/
structure Method (p m : ℕ) where
  Q : Mat p m → ℝ
  dQ : Mat p m → Mat p m
  vgQ : Mat p m → ℝ × Mat p m

/-- `GeneralizedCrawfordFerguson`; `vgQ` is 233-236. -/
noncomputable def cf (k : ℝ × ℝ × ℝ × ℝ) : Method p m := ⟨cfQ k, cfDQ k, fun L => (cfQ k L, cfDQ k L)⟩

/-- `TargetRotation`; `vgQ` is 347-350. -/
noncomputable def tg (H W : Mat p m) : Method p m :=
  ⟨tgQ H W, tgDQ H W, fun L =>
    let Gq := had W (L - H)
    let fq := (∑ i, ∑ j, Gq i j ^ 2) / 2
    (fq, Gq)⟩

/-- `vgq_cf(L, gamma)` — 354-376. -/
noncomputable def vgqCf (L : Mat p m) (gamma : ℝ) : ℝ × Mat p m :=
  let L2 := sqM L
  let N := ones m m - 1
  let M := ones p p - 1
  let f1 := (1 - gamma) * (L2ᵀ * (L2 * N)).trace / 4.0
  let f2 := gamma * (L2ᵀ * (M * L2)).trace / 4.0
  let G1 := had ((1.0 - gamma) • L) (L2 * N)
  let G2 := had (gamma • L) (M * L2)
  (f1 + f2, G1 + G2)

/-- `vgq_ob(L, gamma)` — 379-398. -/
noncomputable def vgqOb (L : Mat p m) (gamma : ℝ) : ℝ × Mat p m :=
  let L2 := sqM L
  let C := 1 - (1 / (p : ℝ)) • (gamma • ones p p)
  let N := ones m m - 1
  let B := C * (L2 * N)
  ((L2ᵀ * B).trace / 4.0, had L B)

/-- `get_gamma_ob(criterion, p, custom_gamma)` — 493-506. -/
noncomputable def gammaOb (criterion : String) (p : ℕ) (custom : Option ℝ) : ℝ :=
  if criterion = "quartimin" ∨ criterion = "quartimax" then 0.0
  else if criterion = "biquartimin" ∨ criterion = "biquartimax" then 1.0 / 2.0
  else if criterion = "varimax" ∨ criterion = "covarimin" then 1.0
  else if criterion = "equamax" then p / 2.0
  else if criterion = "oblique" then custom.getD (-0.1)
  else 0.0

/-- `get_gamma_cf(criterion, p, k)` — 508-521. -/
noncomputable def gammaCf (criterion : String) (p k : ℕ) : ℝ :=
  if criterion = "quartimax" then 0.0
  else if criterion = "varimax" then 1.0 / p
  else if criterion = "equamax" then k / (2.0 * p)
  else if criterion = "parsimax" then (k - 1.0) / (p + k - 2.0)
  else if criterion = "parsimony" then 1
  else 0.0

/-! ## `RotationMethod` -/

/-- `rotate(T)` — 28-33. -/
noncomputable def rotate (ortho : Bool) (A : Mat p m) (T : Mat m m) : Option (Mat p m) :=
  if ortho then some (A * T) else (inv? Tᵀ).map fun B => A * B

/-- `d_rotate(T)` — 36-52. -/
noncomputable def dRotate (ortho : Bool) (A : Mat p m) (T : Mat m m) :
    Option (Matrix (Fin m × Fin p) (Fin m × Fin m) ℝ) :=
  if ortho then some ((1 : Mat m m) ⊗ₖ A)
  else (inv? Tᵀ).map fun B =>
    let L := A * B
    let J := -(kmat m p * (L ⊗ₖ Bᵀ))
    J

/-- `f(T)` — 54-56. -/
noncomputable def f (c : Method p m) (ortho : Bool) (A : Mat p m) (T : Mat m m) : Option ℝ :=
  (rotate ortho A T).map c.Q

/-- `df(T)` — 58-63. -/
noncomputable def df (c : Method p m) (ortho : Bool) (A : Mat p m) (T : Mat m m) : Option (Mat m m) := do
  let L ← rotate ortho A T
  let Gq := c.dQ L
  let dR ← dRotate ortho A T
  return invec (vec Gq ᵥ* dR)

/-! ## Gradient projection

The loops of the methods `_rotate_ortho`, `_rotate_obli` and of the functions `rotate_ortho`, `rotate_obli` are the same
but for the last test of `_rotate_obli` and the transpose returned by `rotate_obli`. -/

abbrev Svd (m : ℕ) := Mat m m → Mat m m × (Fin m → ℝ) × Mat m m

/-- A trial: the rotation, `Tinv`, the loadings, the value and `Gq`. -/
structure Tr (p m : ℕ) where
  T : Mat m m
  L : Mat p m
  ft : ℝ
  Gq : Mat p m
  Tinv : Mat m m

/-- One orthogonal trial — 84-87, 433-436. -/
noncomputable def tryOrtho (svd : Svd m) (vgq : Mat p m → ℝ × Mat p m) (A : Mat p m) (X : Mat m m) : Tr p m :=
  let Tt := (svd X).1 * (svd X).2.2
  let L := A * Tt
  ⟨Tt, L, (vgq L).1, (vgq L).2, 0⟩

/-- One oblique trial — 117-122, 479-484. -/
noncomputable def tryObli (pinv : Mat m m → Mat m m) (vgq : Mat p m → ℝ × Mat p m) (A : Mat p m) (X : Mat m m) : Tr p m :=
  let V : Mat m m := diagonal fun j => 1 / √(∑ i, X i j ^ 2)
  let Tt := X * V
  let Tinv := pinv Tt
  let L := A * Tinvᵀ
  ⟨Tt, L, (vgq L).1, (vgq L).2, Tinv⟩

open Classical in
/-- The inner loop — 82-91, 115-126, 431-440, 477-488: after the last trial the loop ends without a test; `alpha` has then
been halved once more. -/
noncomputable def search (tr : Mat m m → Tr p m) (T Gp : Mat m m) (ft s : ℝ) : ℕ → ℝ → Tr p m × ℝ
  | 0, alpha =>
    let t := tr (T - alpha • Gp)
    if t.ft < ft - 0.5 * s ^ 2 * alpha then (t, alpha) else (t, alpha * 0.5)
  | n + 1, alpha =>
    let t := tr (T - alpha • Gp)
    if t.ft < ft - 0.5 * s ^ 2 * alpha then (t, alpha) else search tr T Gp ft s n (alpha * 0.5)

/-- State of the outer loop. -/
structure St (p m : ℕ) where
  T : Mat m m
  ft : ℝ
  G : Mat m m
  Gq : Mat p m
  alpha : ℝ
  hist : List (ℝ × ℝ)

open Classical in
/-- The outer loop of an orthogonal rotation — 73-95, 422-442; `alpha` stays at `alpha0`. -/
noncomputable def orthoLoop (svd : Svd m) (vgq : Mat p m → ℝ × Mat p m) (A : Mat p m) (tol : ℝ) : ℕ → St p m → St p m
  | 0, st => st
  | n + 1, st =>
    let M := st.Tᵀ * st.G
    let S := (1 / 2.0 : ℝ) • (M + Mᵀ)
    let Gp := st.G - st.T * S
    let s := froNorm Gp
    let st := { st with hist := st.hist ++ [(st.ft, s)] }
    if s < tol then st
    else
      let t := (search (tryOrtho svd vgq A) st.T Gp st.ft s 9 (2.0 * st.alpha)).1
      orthoLoop svd vgq A tol n { st with ft := t.ft, T := t.T, G := Aᵀ * t.Gq, Gq := t.Gq }

/-- `_rotate_ortho` and `rotate_ortho` — 65-96, 400-443. -/
noncomputable def rotateOrtho (svd : Svd m) (vgq : Mat p m → ℝ × Mat p m) (A : Mat p m) (T : Option (Mat m m))
    (alpha tol : ℝ) (n : ℕ) : St p m :=
  let T := T.getD 1
  let L := A * T
  let G := Aᵀ * (vgq L).2
  orthoLoop svd vgq A tol n ⟨T, (vgq L).1, G, (vgq L).2, alpha, []⟩

open Classical in
/-- The outer loop of an oblique rotation — 107-130, 469-490; `ftol` is `none` in the function. -/
noncomputable def obliLoop (pinv : Mat m m → Mat m m) (vgq : Mat p m → ℝ × Mat p m) (A : Mat p m) (tol : ℝ)
    (ftol : Option ℝ) : ℕ → St p m → St p m
  | 0, st => st
  | n + 1, st =>
    let Gp := st.G - st.T * diagonal fun j => ∑ i, st.T i j * st.G i j
    let s := froNorm Gp
    let st := { st with hist := st.hist ++ [(st.ft, s)] }
    if s < tol then st
    else
      let r := search (tryObli pinv vgq A) st.T Gp st.ft s 9 (2.0 * st.alpha)
      let t := r.1
      let st := { st with alpha := r.2, Gq := t.Gq }
      if ∃ e, ftol = some e ∧ |st.ft - t.ft| ≤ e then st
      else obliLoop pinv vgq A tol ftol n { st with ft := t.ft, T := t.T, G := -(t.Lᵀ * t.Gq * t.Tinv)ᵀ }

/-- `_rotate_obli` (98-131, with `ftol`) and `rotate_obli` (447-491, without) up to the transpose. -/
noncomputable def rotateObli (pinv : Mat m m → Mat m m) (vgq : Mat p m → ℝ × Mat p m) (A : Mat p m) (T : Option (Mat m m))
    (alpha tol : ℝ) (ftol : Option ℝ) (n : ℕ) : Option (St p m) :=
  let T := T.getD 1
  (inv? T).map fun Tinv =>
    let L := A * Tinvᵀ
    let G := -(Lᵀ * (vgq L).2 * Tinv)ᵀ
    obliLoop pinv vgq A tol ftol n ⟨T, (vgq L).1, G, (vgq L).2, alpha, []⟩

/-- `rotate(A, criterion, method, rotation_type)` — 621-667: the loadings and the matrix `T`; other names of the method or
the type leave a name unbound. -/
noncomputable def rotateF (svd : Svd m) (pinv : Mat m m → Mat m m) (A : Mat p m) (criterion method type : String)
    (T : Option (Mat m m)) (tol alpha : ℝ) (n : ℕ) (custom : Option ℝ) : Option (Mat p m × Mat m m) := do
  let vgq ← if method = "oblimin" then some fun L : Mat p m => vgqOb L (gammaOb criterion p custom)
    else if method = "cf" then some fun L : Mat p m => vgqCf L (gammaCf criterion p m) else none
  if type = "orthogonal" then
    let st := rotateOrtho svd vgq A T alpha tol n
    return (A * st.T, st.T)
  else if type = "oblique" then
    let st ← rotateObli pinv vgq A T alpha tol none n
    let T := st.Tᵀ
    let Ti ← inv? T
    return (A * Ti, T)
  else none

/-! ## Constraints at a stationary point and their derivatives -/

/-- `oblique_constraints(L, Phi)` — 141-145. -/
noncomputable def obliCon (c : Method p m) (L : Mat p m) (Phi : Mat m m) : Option (Mat m m) :=
  (inv? Phi).map fun V =>
    let C := Lᵀ * c.dQ L * V
    of fun u v => if u = v then 1.0 else C u v

/-- `ortho_constraints(L, Phi)` — 147-150. -/
def orthoCon (c : Method p m) (L : Mat p m) : Mat m m := Lᵀ * c.dQ L - (c.dQ L)ᵀ * L

/-- `dC_dL_Obl(L, Phi)[u, v, i, r]` — 238-263. -/
noncomputable def dCdLObl (k : ℝ × ℝ × ℝ × ℝ) (L : Mat p m) (Phi : Mat m m) :
    Option (Fin m → Fin m → Fin p → Fin m → ℝ) :=
  (inv? Phi).map fun V =>
    let W := cfW k L
    let Q := had L W
    let QV := Q * V
    let LV := L * V
    let LtLV := Lᵀ * LV
    let LtL := Lᵀ * L
    fun u v i r =>
      if v ≠ u then
        let t1 := (if u = r then 1 else 0) * QV i v
        let t2 := W i r * L i u * V r v
        let t3 := 2.0 * k.1 * L i r * LtLV u v
        let t4 := 2.0 * k.2.1 * L i r * L i u * LV i v
        let t5 := 2.0 * k.2.2.1 * L i r * LtL u r * V r v
        let t6 := 2.0 * k.2.2.2 * L i r * L i r * L i u * V r v
        t1 + t2 + t3 + t4 + t5 + t6
      else 0

/-- `T1 + T2 + T3 + T4` — 271-274, 295-298. -/
def cfT (k : ℝ × ℝ × ℝ × ℝ) (L : Mat p m) : Mat p m :=
  let B := had L L
  k.1 • (ones p p * B * ones m m) + k.2.1 • (B * ones m m) + k.2.2.1 • (ones p p * B) + k.2.2.2 • B

/-- `Y`, `DQ`: the derivative of `vec(Q)` — 276-283, 300-307. -/
def cfDD (k : ℝ × ℝ × ℝ × ℝ) (L : Mat p m) : Matrix (Fin m × Fin p) (Fin m × Fin p) ℝ :=
  let V := vdg L
  let R1 := k.1 • (ones m m ⊗ₖ ones p p)
  let R2 := k.2.1 • (ones m m ⊗ₖ (1 : Mat p p))
  let R3 := k.2.2.1 • ((1 : Mat m m) ⊗ₖ ones p p)
  let R4 := k.2.2.2 • V
  let D1 := V * ((2.0 : ℝ) • ((R1 + R2 + R3) * V) + (2.0 : ℝ) • R4)
  let D2 := vdg (cfT k L)
  D1 + D2

/-- `dL_dA_Ortho`: the matrices of the linear system — 265-286. -/
def dLdALeft (k : ℝ × ℝ × ℝ × ℝ) (A L : Mat p m) : Matrix (Fin m × Fin p) (Fin m × Fin p) ℝ :=
  let AAt := A * Aᵀ
  let Q := had (cfT k L) L
  let Y := cfDD k L
  let Omega := (Lᵀ ⊗ₖ L) * kmat p m - (1 : Mat m m) ⊗ₖ AAt
  let Xi := (Lᵀ * Q) ⊗ₖ (1 : Mat p p) + (1 : Mat m m) ⊗ₖ (L * Qᵀ)
  Omega * Y + Xi

def dLdARight (k : ℝ × ℝ × ℝ × ℝ) (A L : Mat p m) : Matrix (Fin m × Fin p) (Fin m × Fin p) ℝ :=
  let Q := had (cfT k L) L
  (Qᵀ * A) ⊗ₖ (1 : Mat p p) + (Qᵀ ⊗ₖ A) * kmat p m

open Classical in
/-- `dL_dA_Ortho(L, Phi)` — 265-288: `np.linalg.solve` raises on a singular matrix. -/
noncomputable def dLdAOrtho (k : ℝ × ℝ × ℝ × ℝ) (A L : Mat p m) : Option (Matrix (Fin m × Fin p) (Fin m × Fin p) ℝ) :=
  if IsUnit (dLdALeft k A L).det then some ((dLdALeft k A L)⁻¹ * dLdARight k A L) else none

/-- `dC_dL_Ortho(L, Phi)` — 290-311. -/
def dCdLOrtho (k : ℝ × ℝ × ℝ × ℝ) (L : Mat p m) : Matrix (Fin m × Fin m) (Fin m × Fin p) ℝ :=
  let Q := had (cfT k L) L
  let DQ := cfDD k L
  let HQ1 := (Qᵀ ⊗ₖ (1 : Mat m m)) * kmat p m + ((1 : Mat m m) ⊗ₖ Lᵀ) * DQ
  let HQ2 := (Lᵀ ⊗ₖ (1 : Mat m m)) * kmat p m * DQ + (1 : Mat m m) ⊗ₖ Qᵀ
  HQ1 - HQ2

/-- `dC_dP_Obl(L, Phi)[u, v, x, y]` — 313-330. -/
noncomputable def dCdPObl (k : ℝ × ℝ × ℝ × ℝ) (L : Mat p m) (Phi : Mat m m) :
    Option (Fin m → Fin m → Fin m → Fin m → ℝ) :=
  (inv? Phi).map fun V =>
    let Q := had L (cfW k L)
    let C := Lᵀ * Q * V
    fun u v x y =>
      if v ≠ u ∧ x ≠ y then
        let t1 := (if u = x then 1 else 0) * V y v
        let t2 := (if u = y then 1 else 0) * V x v
        let J := -C u u * (t1 + t2)
        J
      else 0

/-- `oblique_constraints(lvec, tvec, p, q, gamma, vgq)` — 540-551. -/
noncomputable def obliConF (vgq : Mat p m → ℝ × Mat p m) (L : Mat p m) (T : Mat m m) : Option (Mat m m) :=
  let Gq := (vgq L).2
  let N := ones m m - 1
  let Phi := T * Tᵀ
  (inv? Phi).map fun V => had (Lᵀ * Gq * V) N

/-- `DL` of `oblique_constraint_derivs` — 594-608, given `V`. -/
noncomputable def obDL (gamma : ℝ) (L : Mat p m) (V : Mat m m) : Matrix (Fin m × Fin m) (Fin m × Fin p) ℝ :=
  let L2 := sqM L
  let A : Mat p p := 1 - (1 / (p : ℝ)) • (gamma • ones p p)
  let B : Mat m m := ones m m - 1
  let G := had L (A * L2 * B)
  let dgL := vdg L
  let DL1A := ((Vᵀ * Gᵀ) ⊗ₖ (1 : Mat m m)) * kmat p m
  let DL2A := Vᵀ ⊗ₖ Lᵀ
  let DL2B := (2.0 : ℝ) • (dgL * (Bᵀ ⊗ₖ A) * dgL) + vdg (A * L2 * B)
  DL1A + DL2A * DL2B

/-- `DPhi` of `oblique_constraint_derivs` — 609. -/
noncomputable def obDPhi (gamma : ℝ) (L : Mat p m) (V : Mat m m) : Matrix (Fin m × Fin m) (Fin m × Fin m) ℝ :=
  let L2 := sqM L
  let A : Mat p p := 1 - (1 / (p : ℝ)) • (gamma • ones p p)
  let B : Mat m m := ones m m - 1
  let G := had L (A * L2 * B)
  let DPhi := -(Vᵀ ⊗ₖ (Lᵀ * G * V))
  DPhi

/-- Row `(v, u)` of `oblique_constraint_derivs(params, model)` in the loadings and in the element `(x, y)`, `y < x`, of
`Phi` — 593-613: `l_ind` holds the positions of the lower triangle. -/
noncomputable def obDerivs (gamma : ℝ) (L : Mat p m) (Phi : Mat m m) :
    Option (Matrix (Fin m × Fin m) (Fin m × Fin p) ℝ × (Fin m × Fin m → Fin m → Fin m → ℝ)) :=
  (inv? Phi).map fun V => (obDL gamma L V, fun a x y => obDPhi gamma L V a (y, x))

/-- One row of `unrotated_constraints` before the selection: element `(a, b)` of the lower triangle — 160-168. -/
noncomputable def unrotRow (L : Mat p m) (psi : Fin p → ℝ) (a b : Fin m) : (Fin m × Fin p → ℝ) × (Fin p → ℝ) :=
  let LtP := Lᵀ * diagonal fun i => 1.0 / psi i
  let Nm := kmat m m + 1
  (((Nm * ((1 : Mat m m) ⊗ₖ LtP)) (b, a)), fun i => -(LtP ⊗ₖ LtP) (b, a) (i, i))

/-- The rows that `unrotated_constraints` keeps — 168-170: `J` has the rows of `vech`, the mask has the length of the lower
triangle of a `p × p` matrix in the order of `np.tril_indices`; a mask of another length raises. -/
def unrotKept (p m : ℕ) : Option (List (ℕ × ℕ)) :=
  let rows := (npTriu m 0).map fun q => (q.2, q.1)
  let mask := (npTril p 0).map fun q => decide (q.1 ≠ q.2)
  if mask.length = rows.length then some (((rows.zip mask).filter fun q => q.2).map fun q => q.1) else none

end Verif.Fa.Old
