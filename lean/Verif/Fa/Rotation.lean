import Verif.Fa.Criterion
import Mathlib.Analysis.SpecialFunctions.Pow.Real
/-!
# Model of `pyfa2/rotation.py` and `pyfa2/solvers.py`

`np.linalg.inv` raises on a singular matrix (`none`); `np.linalg.svd` is a parameter with the contract
`SvdOk`.  Column division by a zero norm gives `nan` in the code; the theorems ask for nonzero columns.
-/
namespace Verif.Fa
open Matrix

variable {p m : ℕ}

open Classical in
/-- `np.linalg.inv`. -/
noncomputable def inv? (T : Matrix (Fin m) (Fin m) ℝ) : Option (Matrix (Fin m) (Fin m) ℝ) :=
  if IsUnit T.det then some T⁻¹ else none

/-- `np.linalg.svd(X)` of a square matrix: `X = U diag(s) V`. -/
structure SvdOk (svd : Matrix (Fin m) (Fin m) ℝ →
    Matrix (Fin m) (Fin m) ℝ × (Fin m → ℝ) × Matrix (Fin m) (Fin m) ℝ) : Prop where
  eq : ∀ X, (svd X).1 * diagonal (svd X).2.1 * (svd X).2.2 = X
  u : ∀ X, (svd X).1ᵀ * (svd X).1 = 1
  v : ∀ X, (svd X).2.2 * (svd X).2.2ᵀ = 1
  nonneg : ∀ X i, 0 ≤ (svd X).2.1 i
  anti : ∀ X i j, i ≤ j → (svd X).2.1 j ≤ (svd X).2.1 i

/-! ## `OrthoRotation` -/

/-- `rotated_loadings` — rotation.py 16-17. -/
def orthoLoad (A : Matrix (Fin p) (Fin m) ℝ) (T : Matrix (Fin m) (Fin m) ℝ) : Matrix (Fin p) (Fin m) ℝ :=
  A * T

/-- `implied_corr` — rotation.py 19-20. -/
def orthoCorr (_ : Matrix (Fin m) (Fin m) ℝ) : Matrix (Fin m) (Fin m) ℝ := 1

/-- `grad` — rotation.py 22-23. -/
def orthoGrad (A : Matrix (Fin p) (Fin m) ℝ) (_ : Matrix (Fin m) (Fin m) ℝ) (D : Matrix (Fin p) (Fin m) ℝ) :
    Matrix (Fin m) (Fin m) ℝ := Aᵀ * D

/-- `constraint_project` — rotation.py 25-28. -/
noncomputable def orthoProject (T G : Matrix (Fin m) (Fin m) ℝ) : Matrix (Fin m) (Fin m) ℝ :=
  let M := Tᵀ * G
  G - T * ((0.5 : ℝ) • (M + Mᵀ))

open Classical in
/-- `constraint_retract` — rotation.py 30-38; `V[-1] = -V[-1]` negates the last row. -/
noncomputable def orthoRetract (svd : Matrix (Fin m) (Fin m) ℝ →
    Matrix (Fin m) (Fin m) ℝ × (Fin m → ℝ) × Matrix (Fin m) (Fin m) ℝ) (X : Matrix (Fin m) (Fin m) ℝ) :
    Matrix (Fin m) (Fin m) ℝ :=
  let U := (svd X).1
  let V := (svd X).2.2
  let UV := U * V
  if UV.det < 0 then
    let V : Matrix (Fin m) (Fin m) ℝ := Matrix.of fun i j => if (i : ℕ) + 1 = m then -V i j else V i j
    U * V
  else UV

open Classical in
/-- `d_rotation` — rotation.py 50-54 (`lu_solve` with the factor of `I + S`, `trans=1` for its
transpose). -/
noncomputable def dRotation (theta : List ℝ) (H : Matrix (Fin m) (Fin m) ℝ) : Option (List ℝ) := do
  let S ← vecToSkew theta m
  let F := 1 + S
  if IsUnit F.det then
    let X := F⁻¹ * Hᵀ
    let K := (Fᵀ⁻¹ * Xᵀ)ᵀ
    some ((skewToVec (K - Kᵀ)).map fun x => 2.0 * x)
  else none

/-! ## `ObliqueRotation` -/

/-- `rotated_loadings` — rotation.py 91-92. -/
noncomputable def oblLoad (A : Matrix (Fin p) (Fin m) ℝ) (T : Matrix (Fin m) (Fin m) ℝ) :
    Option (Matrix (Fin p) (Fin m) ℝ) := (inv? T).map fun Ti => A * Tiᵀ

/-- `implied_corr` — rotation.py 94-95. -/
def oblCorr (T : Matrix (Fin m) (Fin m) ℝ) : Matrix (Fin m) (Fin m) ℝ := Tᵀ * T

/-- `grad` — rotation.py 97-100 (the negation written as a product with `-1`). -/
noncomputable def oblGrad (A : Matrix (Fin p) (Fin m) ℝ) (T : Matrix (Fin m) (Fin m) ℝ)
    (D : Matrix (Fin p) (Fin m) ℝ) : Option (Matrix (Fin m) (Fin m) ℝ) :=
  (inv? T).map fun Tinv =>
    let L := A * Tinvᵀ
    (-1 : ℝ) • (Lᵀ * D * Tinv)ᵀ

/-- `constraint_project` — rotation.py 102-103. -/
def oblProject (T G : Matrix (Fin m) (Fin m) ℝ) : Matrix (Fin m) (Fin m) ℝ :=
  G - T * diagonal fun j => ∑ i, T i j * G i j

/-- `constraint_retract` — rotation.py 105-106. -/
noncomputable def oblRetract (X : Matrix (Fin m) (Fin m) ℝ) : Matrix (Fin m) (Fin m) ℝ :=
  Matrix.of fun i j => X i j / √(∑ a, X a j * X a j)

/-! ## `GPA` — solvers.py 5-51 -/

/-- The primitives of a rotator used by `GPA`. -/
structure Rot (p m : ℕ) where
  load : Matrix (Fin p) (Fin m) ℝ → Matrix (Fin m) (Fin m) ℝ → Option (Matrix (Fin p) (Fin m) ℝ)
  grad : Matrix (Fin p) (Fin m) ℝ → Matrix (Fin m) (Fin m) ℝ → Matrix (Fin p) (Fin m) ℝ →
    Option (Matrix (Fin m) (Fin m) ℝ)
  project : Matrix (Fin m) (Fin m) ℝ → Matrix (Fin m) (Fin m) ℝ → Matrix (Fin m) (Fin m) ℝ
  retract : Matrix (Fin m) (Fin m) ℝ → Matrix (Fin m) (Fin m) ℝ

noncomputable def orthoRot (svd : Matrix (Fin m) (Fin m) ℝ →
    Matrix (Fin m) (Fin m) ℝ × (Fin m → ℝ) × Matrix (Fin m) (Fin m) ℝ) (p : ℕ) : Rot p m :=
  ⟨fun A T => some (orthoLoad A T), fun A T D => some (orthoGrad A T D), orthoProject, orthoRetract svd⟩

noncomputable def oblRot (p m : ℕ) : Rot p m := ⟨oblLoad, oblGrad, oblProject, oblRetract⟩

/-- `np.linalg.norm` of a matrix. -/
noncomputable def froNorm (G : Matrix (Fin m) (Fin m) ℝ) : ℝ := √(∑ i, ∑ j, G i j * G i j)

/-- Loadings and value at a trial rotation. -/
abbrev Trial (p m : ℕ) := Matrix (Fin m) (Fin m) ℝ × Matrix (Fin p) (Fin m) ℝ × ℝ

open Classical in
/-- The step-halving loop — solvers.py 37-44; returns the accepted trial, if any, and `alpha`. -/
noncomputable def gpaSearch (c : Crit p m) (rot : Rot p m) (A : Matrix (Fin p) (Fin m) ℝ)
    (T Gp : Matrix (Fin m) (Fin m) ℝ) (f s : ℝ) : ℕ → ℝ → Option (Option (Trial p m) × ℝ)
  | 0, alpha => some (none, alpha)
  | n + 1, alpha => do
    let Tt := rot.retract (T - alpha • Gp)
    let Lt ← rot.load A Tt
    let ft := c.Q Lt
    if ft < f - 0.5 * s * s * alpha then some (some (Tt, Lt, ft), alpha)
    else gpaSearch c rot A T Gp f s n (alpha * 0.5)

/-- State of the outer loop (`s = none` is `np.inf`). -/
structure GpaState (p m : ℕ) where
  T : Matrix (Fin m) (Fin m) ℝ
  L : Matrix (Fin p) (Fin m) ℝ
  f : ℝ
  G : Matrix (Fin m) (Fin m) ℝ
  s : Option ℝ
  alpha : ℝ
  hist : List (ℝ × ℝ)

open Classical in
/-- The outer loop — solvers.py 28-49. -/
noncomputable def gpaLoop (c : Crit p m) (rot : Rot p m) (A : Matrix (Fin p) (Fin m) ℝ) (tol : ℝ) (lsIters : ℕ) :
    ℕ → GpaState p m → Option (GpaState p m)
  | 0, st => some st
  | n + 1, st => do
    let Gp := rot.project st.T st.G
    let s := froNorm Gp
    let st := { st with s := some s, hist := st.hist ++ [(st.f, s)] }
    if s < tol then some st
    else
      let alpha := st.alpha * 2.0
      let r ← gpaSearch c rot A st.T Gp st.f s lsIters alpha
      match r.1 with
      | none => some { st with alpha := r.2 }
      | some (Tt, Lt, ft) =>
        let G ← rot.grad A Tt (c.dQ Lt)
        gpaLoop c rot A tol lsIters n { st with T := Tt, L := Lt, f := ft, G := G, alpha := r.2 }

/-- `GPA.solve` — solvers.py 20-51 (`T0 = None` is the identity). -/
noncomputable def gpaSolve (c : Crit p m) (rot : Rot p m) (A : Matrix (Fin p) (Fin m) ℝ)
    (alpha0 tol : ℝ) (nIters lsIters : ℕ) (T0 : Option (Matrix (Fin m) (Fin m) ℝ)) : Option (GpaState p m) := do
  let T := T0.getD 1
  let L ← rot.load A T
  let f := c.Q L
  let G ← rot.grad A T (c.dQ L)
  gpaLoop c rot A tol lsIters nIters
    { T := T, L := L, f := f, G := G, s := none, alpha := alpha0, hist := [] }

/-- `CayleySolver._fg` — solvers.py 66-71. -/
noncomputable def cayleyFg (c : Crit p m) (theta : List ℝ) (A : Matrix (Fin p) (Fin m) ℝ) :
    Option (ℝ × List ℝ) := do
  let T ← vecToRot theta m
  let L := orthoLoad A T
  let f := c.Q L
  let g := orthoGrad A T (c.dQ L)
  let d ← dRotation theta g
  some (f, d)

end Verif.Fa
