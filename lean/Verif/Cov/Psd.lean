import Verif.Fa.Rotation
import Verif.Like.Leverage
import Mathlib.Data.Finset.Max

/-!
Model of `project_psd`, `near_psd`, `_whiten`, `_exact_cov` and `get_canvar_corr`
(`pystatsm/utilities/cov_utils.py`).  `np.linalg.eigh` is a parameter with the contract `EighOk`,
`np.linalg.cholesky` one with `Verif.Like.CholOk`, `np.linalg.svd` one with `Verif.Fa.SvdOk`; `np.linalg.inv` is
`Verif.Fa.inv?`.  Floating point is replaced by the reals.
-/

namespace Verif.Cov
open Matrix Verif.Fa

/-- `np.linalg.eigh` of a symmetric matrix. -/
def EighOk {m : ℕ} (eigh : Matrix (Fin m) (Fin m) ℝ → (Fin m → ℝ) × Matrix (Fin m) (Fin m) ℝ) : Prop :=
  ∀ A, A.IsSymm → (eigh A).2ᵀ * (eigh A).2 = 1 ∧ A = (eigh A).2 * diagonal (eigh A).1 * (eigh A).2ᵀ

section
variable {m : ℕ} (eigh : Matrix (Fin m) (Fin m) ℝ → (Fin m → ℝ) × Matrix (Fin m) (Fin m) ℝ)

/-- `project_psd` (lines 19-26) with `use_transpose=True`. -/
noncomputable def projectPsd (tolE : ℝ) (A : Matrix (Fin m) (Fin m) ℝ) : Matrix (Fin m) (Fin m) ℝ :=
  (eigh A).2 * diagonal (fun i => max ((eigh A).1 i) tolE) * (eigh A).2ᵀ

/-- `np.linalg.norm(A)` of a matrix. -/
noncomputable def fro (A : Matrix (Fin m) (Fin m) ℝ) : ℝ := √(∑ i, ∑ j, A i j ^ 2)

/-- `X[dg_indices] = dgs`. -/
def setDiag (dgs : Fin m → ℝ) (X : Matrix (Fin m) (Fin m) ℝ) : Matrix (Fin m) (Fin m) ℝ := fun i j => if i = j then dgs i else X i j

/-- The options of `near_psd`. -/
structure Opts where
  dykstra : Bool := true
  symmetrize : Bool := false
  unitDiag : Bool := true
  keepDiag : Bool := false

end

section
variable {m : ℕ} (eigh : Matrix (Fin (m + 1)) (Fin (m + 1)) ℝ → (Fin (m + 1) → ℝ) × Matrix (Fin (m + 1)) (Fin (m + 1)) ℝ)

/-- `d.max()`. -/
noncomputable def dmax (d : Fin (m + 1) → ℝ) : ℝ := Finset.univ.sup' ⟨0, Finset.mem_univ _⟩ d

/-- The diagonal that is written, if any. -/
def Opts.dgs (o : Opts) (A : Matrix (Fin (m + 1)) (Fin (m + 1)) ℝ) : Option (Fin (m + 1) → ℝ) :=
  if o.unitDiag then some fun _ => 1 else if o.keepDiag then some A.diag else none

/-- `X[dg_indices] = dgs` if there is one. -/
def putDiag (dg : Option (Fin (m + 1) → ℝ)) (X : Matrix (Fin (m + 1)) (Fin (m + 1)) ℝ) : Matrix (Fin (m + 1)) (Fin (m + 1)) ℝ :=
  match dg with
  | none => X
  | some d => setDiag d X

/-- The body of the loop of `near_psd` after `eigh` (lines 48-60): the new `X` and `D`. -/
noncomputable def nearStep (o : Opts) (dg : Option (Fin (m + 1) → ℝ)) (tolE : ℝ) (R D : Matrix (Fin (m + 1)) (Fin (m + 1)) ℝ) (d : Fin (m + 1) → ℝ)
    (Q : Matrix (Fin (m + 1)) (Fin (m + 1)) ℝ) : Matrix (Fin (m + 1)) (Fin (m + 1)) ℝ × Matrix (Fin (m + 1)) (Fin (m + 1)) ℝ :=
  let X := Q * diagonal (fun i => if tolE * dmax d < d i then d i else 0) * Qᵀ
  (putDiag dg (if o.symmetrize then (1 / 2 : ℝ) • (X + Xᵀ) else X), if o.dykstra then X - R else D)

open Classical in
/-- The loop of `near_psd` (lines 41-63) with `k` iterations left; a quotient by zero is not below `tol`. -/
noncomputable def nearLoop (o : Opts) (dg : Option (Fin (m + 1) → ℝ)) (tol tolE : ℝ) :
    ℕ → Matrix (Fin (m + 1)) (Fin (m + 1)) ℝ → Matrix (Fin (m + 1)) (Fin (m + 1)) ℝ → Matrix (Fin (m + 1)) (Fin (m + 1)) ℝ
  | 0, X, _ => X
  | k + 1, Y, D =>
    let R := if o.dykstra then Y - D else Y
    if ∀ i, ¬ tolE * dmax (eigh R).1 < (eigh R).1 i then Y else
    let X := nearStep o dg tolE R D (eigh R).1 (eigh R).2
    if fro Y ≠ 0 ∧ fro (Y - X.1) / fro Y < tol then X.1 else nearLoop o dg tol tolE k X.1 X.2

/-- `near_psd` (lines 29-71), without the information. -/
noncomputable def nearPsd (o : Opts) (nIters : ℕ) (tol tolE : ℝ) (A : Matrix (Fin (m + 1)) (Fin (m + 1)) ℝ) : Matrix (Fin (m + 1)) (Fin (m + 1)) ℝ :=
  putDiag (o.dgs A) (projectPsd eigh tolE (nearLoop eigh o (o.dgs A) tol tolE nIters A 0))

end

section
variable {n p q : ℕ}

/-- `np.mean(X, axis=0)`. -/
noncomputable def mean (X : Matrix (Fin n) (Fin p) ℝ) (j : Fin p) : ℝ := (∑ i, X i j) / n

/-- `X - np.mean(X, axis=0)`. -/
noncomputable def center (X : Matrix (Fin n) (Fin p) ℝ) : Matrix (Fin n) (Fin p) ℝ := fun i j => X i j - mean X j

/-- `cov(X)` (data_utils.py 83-90). -/
noncomputable def scov (X : Matrix (Fin n) (Fin p) ℝ) : Matrix (Fin p) (Fin p) ℝ := (1 / (n : ℝ)) • ((center X)ᵀ * center X)

/-- `mean + X`. -/
def addRow (mu : Fin p → ℝ) (X : Matrix (Fin n) (Fin p) ℝ) : Matrix (Fin n) (Fin p) ℝ := fun i j => mu j + X i j

/-- `_whiten` (lines 75-80). -/
noncomputable def whiten (chol : Matrix (Fin p) (Fin p) ℝ → Option (Matrix (Fin p) (Fin p) ℝ)) (keep : Bool) (X : Matrix (Fin n) (Fin p) ℝ) :
    Option (Matrix (Fin n) (Fin p) ℝ) := do
  let C ← chol (scov X)
  let L ← inv? C
  some (addRow (if keep then mean X else 0) (X * Lᵀ))

/-- `_svd_cov_transform` (lines 82-87). -/
noncomputable def svdCov (svd : Matrix (Fin p) (Fin p) ℝ → Matrix (Fin p) (Fin p) ℝ × (Fin p → ℝ) × Matrix (Fin p) (Fin p) ℝ)
    (S : Matrix (Fin p) (Fin p) ℝ) : Matrix (Fin p) (Fin p) ℝ := (svd S).1 * diagonal fun i => √((svd S).2.1 i)

/-- `_exact_cov` (lines 89-96). -/
noncomputable def exactCov (chol : Matrix (Fin p) (Fin p) ℝ → Option (Matrix (Fin p) (Fin p) ℝ))
    (svd : Matrix (Fin p) (Fin p) ℝ → Matrix (Fin p) (Fin p) ℝ × (Fin p → ℝ) × Matrix (Fin p) (Fin p) ℝ)
    (mu : Fin p → ℝ) (S : Matrix (Fin p) (Fin p) ℝ) (keep : Bool) (X : Matrix (Fin n) (Fin p) ℝ) : Option (Matrix (Fin n) (Fin p) ℝ) :=
  (whiten chol keep X).map fun Y => addRow mu (Y * (svdCov svd S)ᵀ)

/-- The whitening transform `A0 * np.sqrt(1/x_eig)` (lines 302-306). -/
noncomputable def whitenMat (eigh : Matrix (Fin p) (Fin p) ℝ → (Fin p → ℝ) × Matrix (Fin p) (Fin p) ℝ) (S : Matrix (Fin p) (Fin p) ℝ) : Matrix (Fin p) (Fin p) ℝ :=
  (eigh S).2 * diagonal fun i => √(1 / (eigh S).1 i)

/-- `Sxy` of `_get_joint_corr_r` (lines 301-312) for `p ≤ p + q` variables; otherwise the product raises.  The order of
the eigenvalues (`eighs` reverses it) is part of `ex` and `ey`. -/
noncomputable def jointR (ex : Matrix (Fin p) (Fin p) ℝ → (Fin p → ℝ) × Matrix (Fin p) (Fin p) ℝ)
    (ey : Matrix (Fin (p + q)) (Fin (p + q)) ℝ → (Fin (p + q) → ℝ) × Matrix (Fin (p + q)) (Fin (p + q)) ℝ)
    (Sxx : Matrix (Fin p) (Fin p) ℝ) (Syy : Matrix (Fin (p + q)) (Fin (p + q)) ℝ) (r : Fin p → ℝ) : Option (Matrix (Fin p) (Fin (p + q)) ℝ) := do
  let A := whitenMat ex Sxx
  let B := whitenMat ey Syy
  let Bi ← inv? B
  let Ai ← inv? Aᵀ
  some (Ai * diagonal r * Bi.submatrix (Fin.castAdd q) id)

/-- `normalize_xtrx` (data_utils.py 103-118). -/
noncomputable def normalizeXtrx {k : ℕ} (X : Matrix (Fin p) (Fin k) ℝ) (R : Matrix (Fin p) (Fin p) ℝ) : Matrix (Fin p) (Fin k) ℝ :=
  fun i j => X i j / √(∑ a, ∑ b, X a j * R a b * X b j)

/-- `Sxy` of `_get_joint_corr_eig` (lines 294-299). -/
noncomputable def jointEig {k : ℕ} (Sxx : Matrix (Fin p) (Fin p) ℝ) (Syy : Matrix (Fin q) (Fin q) ℝ) (Vx : Matrix (Fin p) (Fin k) ℝ) (Vy : Matrix (Fin q) (Fin k) ℝ)
    (r : Fin k → ℝ) : Matrix (Fin p) (Fin q) ℝ :=
  Sxx * (normalizeXtrx Vx Sxx * diagonal r * (normalizeXtrx Vy Syy)ᵀ) * Syy

/-- `np.block([[Sxx, Sxy], [Sxy.T, Syy]])`. -/
def joint (Sxx : Matrix (Fin p) (Fin p) ℝ) (Syy : Matrix (Fin q) (Fin q) ℝ) (Sxy : Matrix (Fin p) (Fin q) ℝ) : Matrix (Fin p ⊕ Fin q) (Fin p ⊕ Fin q) ℝ :=
  fromBlocks Sxx Sxy Sxyᵀ Syy

end

end Verif.Cov
