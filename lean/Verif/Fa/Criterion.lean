import Verif.Fa.Model
import Mathlib.Algebra.BigOperators.Ring.Finset
/-!
# Model of `pyfa2/criterion.py`

A `p × m` array is a Mathlib matrix over `Fin p`, `Fin m`; a one-dimensional array produced by a
Fortran-order reshape is a function of the flat position `f = i + p * j`.  The argument `Y` of
`d2Q_apply` is the two-dimensional case; a one-dimensional `Y` is its single-column instance.
-/
namespace Verif.Fa
open Matrix

variable {p m : ℕ}

/-- `X.reshape(-1, order='F')`. -/
def flatF (X : Matrix (Fin p) (Fin m) ℝ) : ℕ → ℝ := fun f => entry X (f % p) (f / p)

/-- `y.reshape(p, m, order='F')`. -/
def unflatF (p m : ℕ) (y : ℕ → ℝ) : Matrix (Fin p) (Fin m) ℝ := Matrix.of fun i j => y (i + p * j)

/-- `_gcf_constants` — criterion.py 5-14 (`none` is the `ValueError`). -/
noncomputable def gcfConstants (method : String) (p m : ℕ) : Option (ℝ × ℝ × ℝ × ℝ) :=
  if method = "varimax" then some (0, ((p : ℝ) - 1) / p, 1 / p, -1)
  else if method = "quartimax" then some (0, 1, 1, -1)
  else if method = "equamax" then some (0, 1 - m / (2 * p), m / (2 * p), -1)
  else if method = "parsimax" then
    some (0, 1 - ((m : ℝ) - 1) / (p + m - 2), ((m : ℝ) - 1) / (p + m - 2), -1)
  else none

/-- `np.sum(B, axis=1)`. -/
def rowS (B : Matrix (Fin p) (Fin m) ℝ) (i : Fin p) : ℝ := ∑ j, B i j
/-- `np.sum(B, axis=0)`. -/
def colS (B : Matrix (Fin p) (Fin m) ℝ) (j : Fin m) : ℝ := ∑ i, B i j
/-- `L * L`. -/
def sqM (L : Matrix (Fin p) (Fin m) ℝ) : Matrix (Fin p) (Fin m) ℝ := Matrix.of fun i j => L i j * L i j

/-- `GCFCriterion.Q` — criterion.py 24-30. -/
noncomputable def gcfQ (k : ℝ × ℝ × ℝ × ℝ) (L : Matrix (Fin p) (Fin m) ℝ) : ℝ :=
  let B := sqM L
  let r := rowS B
  let c := colS B
  let s := ∑ j, c j
  let s' := s * s
  let c' := ∑ j, c j * c j
  let r' := ∑ i, r i * r i
  1 / 4 * (k.1 * s' + k.2.1 * r' + k.2.2.1 * c' + k.2.2.2 * ∑ i, ∑ j, B i j * B i j)

/-- The array `W` of `dQ` and `d2Q_apply`. -/
noncomputable def gcfW (k : ℝ × ℝ × ℝ × ℝ) (L : Matrix (Fin p) (Fin m) ℝ) : Matrix (Fin p) (Fin m) ℝ :=
  let B := sqM L
  let r := rowS B
  let c := colS B
  let s := ∑ j, c j
  Matrix.of fun i j => k.1 * s + k.2.1 * r i + k.2.2.1 * c j + k.2.2.2 * B i j

/-- `GCFCriterion.dQ` — criterion.py 32-38. -/
noncomputable def gcfdQ (k : ℝ × ℝ × ℝ × ℝ) (L : Matrix (Fin p) (Fin m) ℝ) : Matrix (Fin p) (Fin m) ℝ :=
  Matrix.of fun i j => L i j * gcfW k L i j

open Classical in
/-- `GCFCriterion.d2Q_apply` — criterion.py 40-63. -/
noncomputable def gcfApply (k : ℝ × ℝ × ℝ × ℝ) (L : Matrix (Fin p) (Fin m) ℝ) (Y : ℕ → ℕ → ℝ) :
    ℕ → ℕ → ℝ :=
  let vL := flatF L
  let vW := flatF (gcfW k L)
  let Y1 : ℕ → ℕ → ℝ := fun f c => vL f * Y f c
  let Y3 : ℕ → Matrix (Fin p) (Fin m) ℝ := fun c => unflatF p m fun f => Y1 f c
  let RY : ℕ → ℕ → ℝ := fun _ _ => 0
  let RY := if k.1 ≠ 0 then fun f c => RY f c + k.1 * ∑ g ∈ Finset.range (p * m), Y1 g c else RY
  let RY := if k.2.1 ≠ 0 then fun f c =>
    RY f c + k.2.1 * flatF (p := p) (m := m) (Matrix.of fun i _ => rowS (Y3 c) i) f else RY
  let RY := if k.2.2.1 ≠ 0 then fun f c =>
    RY f c + k.2.2.1 * flatF (p := p) (m := m) (Matrix.of fun _ j => colS (Y3 c) j) f else RY
  fun f c => vL f * (2 * RY f c + 2 * k.2.2.2 * Y1 f c) + vW f * Y f c

/-- `TargetCriterion.Q` — criterion.py 76-77. -/
noncomputable def targetQ (H W L : Matrix (Fin p) (Fin m) ℝ) : ℝ :=
  1 / 2 * ∑ i, ∑ j, W i j * (L i j - H i j) ^ 2

/-- `TargetCriterion.dQ` — criterion.py 79-80. -/
def targetdQ (H W L : Matrix (Fin p) (Fin m) ℝ) : Matrix (Fin p) (Fin m) ℝ :=
  Matrix.of fun i j => W i j * (L i j - H i j)

/-- `TargetCriterion.d2Q_apply` — criterion.py 82-84. -/
def targetApply (W : Matrix (Fin p) (Fin m) ℝ) (Y : ℕ → ℕ → ℝ) : ℕ → ℕ → ℝ :=
  fun f c => flatF W f * Y f c

/-- A criterion: its three methods. -/
structure Crit (p m : ℕ) where
  Q : Matrix (Fin p) (Fin m) ℝ → ℝ
  dQ : Matrix (Fin p) (Fin m) ℝ → Matrix (Fin p) (Fin m) ℝ
  app : Matrix (Fin p) (Fin m) ℝ → (ℕ → ℕ → ℝ) → ℕ → ℕ → ℝ

/-- `GCFCriterion(method, p, m)`. -/
noncomputable def gcf (k : ℝ × ℝ × ℝ × ℝ) (p m : ℕ) : Crit p m := ⟨gcfQ k, gcfdQ k, gcfApply k⟩

/-- `TargetCriterion(H, W)`. -/
noncomputable def target (H W : Matrix (Fin p) (Fin m) ℝ) : Crit p m :=
  ⟨targetQ H W, targetdQ H W, fun _ => targetApply W⟩

/-- `d2Q` of `GCFCriterion`: `d2Q_apply` on the identity — criterion.py 65-67. -/
noncomputable def Crit.d2Q (c : Crit p m) (L : Matrix (Fin p) (Fin m) ℝ) : ℕ → ℕ → ℝ :=
  c.app L fun f g => if f = g then 1 else 0

/-- `TargetCriterion.d2Q`: `np.diag(_vec(W))` — criterion.py 86-87. -/
def targetD2Q (W : Matrix (Fin p) (Fin m) ℝ) : ℕ → ℕ → ℝ := fun f g => if f = g then flatF W f else 0

end Verif.Fa
