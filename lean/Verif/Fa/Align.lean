import Verif.Fa.Theta
import Mathlib.Logic.Equiv.Basic
/-!
# Model of `pyfa2/alignment.py` and of `CanonicalIdentification.fit`

`scipy.optimize.linear_sum_assignment`, `np.linalg.eigh` and `np.argsort` are parameters described by contracts.
-/
namespace Verif.Fa
open Matrix

variable {p m : ℕ}

/-- `linear_sum_assignment(C)[1]` of a square cost matrix: the columns assigned to rows `0, 1, ...`. -/
def LsaOk (lsa : Matrix (Fin m) (Fin m) ℝ → Equiv.Perm (Fin m)) : Prop :=
  ∀ (C : Matrix (Fin m) (Fin m) ℝ) (t : Equiv.Perm (Fin m)), ∑ i, C i (lsa C i) ≤ ∑ i, C i (t i)

/-- `np.linalg.norm(L, axis=0)`. -/
noncomputable def colNorm (L : Matrix (Fin p) (Fin m) ℝ) (j : Fin m) : ℝ := Real.sqrt (∑ i, L i j ^ 2)

/-- `np.sign` followed by `signs[signs == 0] = 1.0`. -/
noncomputable def sign1 (x : ℝ) : ℝ :=
  let s := if 0 < x then (1 : ℝ) else if x < 0 then -1 else 0
  if s = 0 then 1.0 else s

/-- The matrix `M` of `align` — alignment.py 6-10. -/
noncomputable def alignM (Lest Ltar : Matrix (Fin p) (Fin m) ℝ) (normalize : Bool) : Matrix (Fin m) (Fin m) ℝ :=
  let M := Ltarᵀ * Lest
  if normalize then
    Matrix.of fun i j => M i j / (colNorm Ltar i * colNorm Lest j + 1e-30)
  else M

/-- `align` — alignment.py 5-14. -/
noncomputable def align (lsa : Matrix (Fin m) (Fin m) ℝ → Equiv.Perm (Fin m)) (Lest Ltar : Matrix (Fin p) (Fin m) ℝ)
    (normalize : Bool) : Equiv.Perm (Fin m) × (Fin m → ℝ) :=
  let M := alignM Lest Ltar normalize
  let perm := lsa (Matrix.of fun i j => -|M i j|)
  let signs := fun j => sign1 (∑ i, Ltar i j * Lest i (perm j))
  (perm, signs)

/-- `apply` — alignment.py 17-18. -/
def alApply (L : Matrix (Fin p) (Fin m) ℝ) (perm : Equiv.Perm (Fin m)) (signs : Fin m → ℝ) : Matrix (Fin p) (Fin m) ℝ :=
  Matrix.of fun i j => L i (perm j) * signs j

/-- `apply_phi` — alignment.py 21-24. -/
def alPhi (Phi : Matrix (Fin m) (Fin m) ℝ) (perm : Equiv.Perm (Fin m)) (signs : Fin m → ℝ) : Matrix (Fin m) (Fin m) ℝ :=
  Matrix.of fun i j => signs i * Phi (perm i) (perm j) * signs j

/-- `apply_se` — alignment.py 27-28. -/
def alSe (Lse : Matrix (Fin p) (Fin m) ℝ) (perm : Equiv.Perm (Fin m)) : Matrix (Fin p) (Fin m) ℝ :=
  Matrix.of fun i j => Lse i (perm j)

/-- `np.linalg.eigh` of a symmetric matrix: ascending eigenvalues and orthonormal eigenvectors. -/
structure EighOk {n : ℕ} (W : Matrix (Fin n) (Fin n) ℝ) (u : Fin n → ℝ) (V : Matrix (Fin n) (Fin n) ℝ) : Prop where
  orth : Vᵀ * V = 1
  eig : W * V = V * diagonal u
  mono : Monotone u

/-- The matrix `M` of `CanonicalIdentification.fit` — identification.py 57-59. -/
noncomputable def canonM (A : Matrix (Fin p) (Fin m) ℝ) (psi : Option (Fin p → ℝ)) : Matrix (Fin m) (Fin m) ℝ :=
  let AD := match psi with
    | none => A
    | some s => Matrix.of fun i j => A i j / s i
  ADᵀ * A

/-- `CanonicalIdentification.fit` — identification.py 56-65: `L`, `Phi`, `T` and the eigenvalues. -/
noncomputable def canonFit (eigh : Matrix (Fin m) (Fin m) ℝ → (Fin m → ℝ) × Matrix (Fin m) (Fin m) ℝ)
    (argsort : (Fin m → ℝ) → Equiv.Perm (Fin m)) (A : Matrix (Fin p) (Fin m) ℝ) (psi : Option (Fin p → ℝ)) :
    Matrix (Fin p) (Fin m) ℝ × Matrix (Fin m) (Fin m) ℝ × Matrix (Fin m) (Fin m) ℝ × (Fin m → ℝ) :=
  let M := canonM A psi
  let vals := (eigh M).1
  let vecs := (eigh M).2
  let order := fun j => argsort vals (Fin.rev j)
  let T : Matrix (Fin m) (Fin m) ℝ := Matrix.of fun i j => vecs i (order j)
  let L := A * T
  (L, 1, T, fun j => vals (order j))

end Verif.Fa
