import Mathlib.Data.Real.Sqrt
import Mathlib.Data.Matrix.Mul
import Mathlib.Data.Fin.Basic
import Mathlib.Data.Matrix.Diagonal

/-!
Model of `diagonalize_smooth` (`pystatsm/pygam/transforms.py`) and of the prior of
`pystatsm/pygam/gam_mcmc.py`.  `np.linalg.eigh` followed by the reversal of the order (lines 16-18) is
the contract `EigOk` on the arrays `U`, `D` that result.  A smooth has `r + 1` columns.
-/

namespace Verif.Gam
open Matrix

variable {r : ℕ}

/-- `D, U = eigh(S)` in decreasing order of `D` (lines 16-18). -/
def EigOk (S U : Matrix (Fin (r + 1)) (Fin (r + 1)) ℝ) (D : Fin (r + 1) → ℝ) : Prop :=
  Uᵀ * U = 1 ∧ S = U * diagonal D * Uᵀ ∧ Antitone D

/-- `D[-1] = 1; D = np.sqrt(1.0 / D)` (lines 19-20). -/
noncomputable def scaleD (D : Fin (r + 1) → ℝ) (i : Fin (r + 1)) : ℝ := √(1 / if i = Fin.last r then 1 else D i)

/-- `V = U.dot(np.diag(D))` (line 21). -/
noncomputable def diagV (U : Matrix (Fin (r + 1)) (Fin (r + 1)) ℝ) (D : Fin (r + 1) → ℝ) : Matrix (Fin (r + 1)) (Fin (r + 1)) ℝ :=
  U * diagonal (scaleD D)

/-- `Vi = U.dot(np.diag(1/D))` (line 21). -/
noncomputable def diagVi (U : Matrix (Fin (r + 1)) (Fin (r + 1)) ℝ) (D : Fin (r + 1) → ℝ) : Matrix (Fin (r + 1)) (Fin (r + 1)) ℝ :=
  U * diagonal fun i => 1 / scaleD D i

/-- What the loop keeps of a smooth. -/
structure Eig where
  r : ℕ
  U : Matrix (Fin (r + 1)) (Fin (r + 1)) ℝ
  D : Fin (r + 1) → ℝ

/-- Entry of a matrix by natural numbers. -/
def ent {m : ℕ} (M : Matrix (Fin m) (Fin m) ℝ) (i j : ℕ) : ℝ := if h : i < m ∧ j < m then M ⟨i, h.1⟩ ⟨j, h.2⟩ else 0

/-- `T[ix, ix[:, None]] = M` with `ix = start, ..., start + m - 1`: the index arrays broadcast to
`T[ix[b], ix[a]] = M[a, b]`. -/
def setBlock {m : ℕ} (start : ℕ) (M : Matrix (Fin m) (Fin m) ℝ) (T : ℕ → ℕ → ℝ) (i j : ℕ) : ℝ :=
  if start ≤ i ∧ i < start + m ∧ start ≤ j ∧ j < start + m then ent M (j - start) (i - start) else T i j

/-- `T` and `Ti` (lines 10, 22-23); `start` is where the first smooth begins. -/
noncomputable def diagLoop : ℕ → List Eig → (ℕ → ℕ → ℝ) × (ℕ → ℕ → ℝ) → (ℕ → ℕ → ℝ) × (ℕ → ℕ → ℝ)
  | _, [], t => t
  | start, e :: es, t => diagLoop (start + (e.r + 1)) es
      (setBlock start (diagV e.U e.D)ᵀ t.1, setBlock start (diagVi e.U e.D) t.2)

/-- `np.eye`. -/
def eyeN (i j : ℕ) : ℝ := if i = j then 1 else 0

noncomputable def diagT (start : ℕ) (es : List Eig) : (ℕ → ℕ → ℝ) × (ℕ → ℕ → ℝ) := diagLoop start es (eyeN, eyeN)

/-- `ixp` before one is added: `ix[:-1]` of every smooth (lines 25, 30); `rs` are the `r` of the smooths. -/
def ixPen : ℕ → List ℕ → List ℕ
  | _, [] => []
  | start, r :: rs => List.range' start r ++ ixPen (start + (r + 1)) rs

/-- `ix[-1]` of every smooth (line 26). -/
def ixLast : ℕ → List ℕ → List ℕ
  | _, [] => []
  | start, r :: rs => (start + r) :: ixLast (start + (r + 1)) rs

/-- `ixf` before one is added: `np.arange(min(ixp))` and the last ones (line 31); `min` of an empty array raises. -/
def ixFree (start : ℕ) (rs : List ℕ) : Option (List ℕ) :=
  match (ixPen start rs).min? with
  | none => none
  | some m => some (List.range m ++ ixLast start rs)

/-- `ixl` before one is added: the smooth of each penalised coefficient (line 27). -/
def ixSmooth : ℕ → List ℕ → List ℕ
  | _, [] => []
  | i, r :: rs => List.replicate r i ++ ixSmooth (i + 1) rs

/-- The logarithm of the prior of one coefficient, `b ~ normal(0, 1.0 ./ s)` (gam_mcmc.py line 49),
without its normalising constant: the second argument of `normal` is a standard deviation. -/
noncomputable def stanPrior (s b : ℝ) : ℝ := -(1 / 2) * (b / (1 / s)) ^ 2

end Verif.Gam
