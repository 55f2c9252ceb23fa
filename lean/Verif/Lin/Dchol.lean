import Mathlib.Analysis.SpecialFunctions.Pow.Real
/-!
# Model of `dchol` and `unit_matrices` — dchol.py 13-108

Simplifications: within one of the three phases of a pivot step every iteration writes cells which
no other iteration of that phase reads, so a phase is written as one simultaneous update; `0.5` is
the exact `1/2`.
-/
namespace Verif.Lin
open Real

structure DState where
  L : ℕ → ℕ → ℝ
  dL : ℕ → ℕ → ℕ → ℝ
  d2L : ℕ → ℕ → ℕ → ℕ → ℝ

/-- Lines 60-64.  `np.tril` acts on the last two axes: those are `(i, j)` for `L` and (after the
axis swaps) for `dL`, but `(x, y)` for `d2L`. -/
def dInit (M : ℕ → ℕ → ℝ) (dM : ℕ → ℕ → ℕ → ℝ) (d2M : ℕ → ℕ → ℕ → ℕ → ℝ) : DState where
  L i j := if j ≤ i then M i j else 0
  dL i j x := if j ≤ i then dM i j x else 0
  d2L i j x y := if y ≤ x then d2M i j x y else 0

/-- The assignments `d2L[:, :, y, x] = d2L[:, :, x, y]` for `y ≤ x < m`. -/
def mirror (m : ℕ) (D : ℕ → ℕ → ℕ → ℕ → ℝ) (i j x y : ℕ) : ℝ :=
  if x < m ∧ y < m ∧ x < y then D i j y x else D i j x y

/-- Phase (a), lines 69-77. -/
noncomputable def pivotPhase (order m k : ℕ) (s : DState) : DState :=
  let L : ℕ → ℕ → ℝ := fun i j => if i = k ∧ j = k then sqrt (s.L k k) else s.L i j
  let dL : ℕ → ℕ → ℕ → ℝ :=
    if 0 < order then fun i j x =>
      if i = k ∧ j = k ∧ x < m then 1 / 2 * s.dL k k x / L k k else s.dL i j x
    else s.dL
  let d2L : ℕ → ℕ → ℕ → ℕ → ℝ :=
    if 1 < order then mirror m fun i j x y =>
      if i = k ∧ j = k ∧ x < m ∧ y ≤ x then
        (1 / 2 * s.d2L k k x y - dL k k x * dL k k y) / L k k
      else s.d2L i j x y
    else s.d2L
  { L := L, dL := dL, d2L := d2L }

/-- Phase (b), lines 79-87. -/
noncomputable def colPhase (order n m k : ℕ) (s : DState) : DState :=
  let L : ℕ → ℕ → ℝ := fun i j => if k + 1 ≤ i ∧ i < n ∧ j = k then s.L i k / s.L k k else s.L i j
  let dL : ℕ → ℕ → ℕ → ℝ :=
    if 0 < order then fun i j x =>
      if k + 1 ≤ i ∧ i < n ∧ j = k ∧ x < m then (s.dL i k x - L i k * s.dL k k x) / L k k
      else s.dL i j x
    else s.dL
  let d2L : ℕ → ℕ → ℕ → ℕ → ℝ :=
    if 1 < order then mirror m fun i j x y =>
      if k + 1 ≤ i ∧ i < n ∧ j = k ∧ x < m ∧ y ≤ x then
        (s.d2L i k x y - L i k * s.d2L k k x y - dL i k x * dL k k y - dL i k y * dL k k x) / L k k
      else s.d2L i j x y
    else s.d2L
  { L := L, dL := dL, d2L := d2L }

/-- Phase (c), lines 89-98. -/
noncomputable def rowPhase (order n m k : ℕ) (s : DState) : DState :=
  let L : ℕ → ℕ → ℝ := fun i j =>
    if k + 1 ≤ j ∧ j ≤ i ∧ i < n then s.L i j - s.L i k * s.L j k else s.L i j
  let dL : ℕ → ℕ → ℕ → ℝ :=
    if 0 < order then fun i j x =>
      if k + 1 ≤ j ∧ j ≤ i ∧ i < n ∧ x < m then
        s.dL i j x - s.dL i k x * s.L j k - s.L i k * s.dL j k x
      else s.dL i j x
    else s.dL
  let d2L : ℕ → ℕ → ℕ → ℕ → ℝ :=
    if 1 < order then mirror m fun i j x y =>
      if k + 1 ≤ j ∧ j ≤ i ∧ i < n ∧ x < m ∧ y ≤ x then
        s.d2L i j x y - s.d2L i k x y * s.L j k - s.L i k * s.d2L j k x y
          - s.dL i k x * s.dL j k y - s.dL i k y * s.dL j k x
      else s.d2L i j x y
    else s.d2L
  { L := L, dL := dL, d2L := d2L }

noncomputable def dStep (order n m : ℕ) (s : DState) (k : ℕ) : DState :=
  rowPhase order n m k (colPhase order n m k (pivotPhase order m k s))

/-- The loop; a pivot which is not positive gives NaN or a division by zero: `none`. -/
noncomputable def dStepO (order n m : ℕ) (s : DState) (k : ℕ) : Option DState :=
  if s.L k k ≤ 0 then none else some (dStep order n m s k)

/-- `dchol(M, dM, d2M, order)` with `m = dM.shape[-1]`. -/
noncomputable def dchol (order n m : ℕ) (M : ℕ → ℕ → ℝ) (dM : ℕ → ℕ → ℕ → ℝ)
    (d2M : ℕ → ℕ → ℕ → ℕ → ℝ) : Option DState :=
  (List.range n).foldlM (dStepO order n m) (dInit M dM d2M)

/-- `unit_matrices(n)`: direction `k` is a unit in the `k`-th cell `(i, j)`, `i ≥ j`, of the
column-wise lower triangle (`j, i = np.triu_indices(n)`); only that cell is set. -/
def unitMat (cells : List (ℕ × ℕ)) (i j k : ℕ) : ℝ :=
  if cells[k]? = some (i, j) then 1 else 0

end Verif.Lin
