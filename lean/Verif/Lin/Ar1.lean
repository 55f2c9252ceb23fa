import Mathlib.Analysis.SpecialFunctions.Pow.Real
/-!
# Model of `ar1_chol` and `toeplitz_cholesky_lower_nb` — linalg_operations.py 283-321
-/
namespace Verif.Lin
open Real

/-- `ar1_chol(n, rho)`.  For `n < 2` the index `L[1:, 1]` is out of range (the compiled function
does not check it): `none`.  The slice `L[1:1-i, 1]` is rows `1, ..., n-i`. -/
noncomputable def ar1Chol (n : ℕ) (rho : ℝ) : Option (ℕ → ℕ → ℝ) :=
  if n < 2 then none else
    let L : ℕ → ℕ → ℝ := fun _ _ => 0
    let L := fun r c => if c = 0 ∧ r < n then rho ^ r else L r c
    let L := fun r c => if c = 1 ∧ 1 ≤ r ∧ r < n then L (r - 1) 0 * sqrt (1 - rho ^ 2) else L r c
    let L := ((List.range n).drop 2).foldl (fun L i => fun r c =>
      if c = i ∧ i ≤ r ∧ r < n then L (1 + (r - i)) 1 else L r c) L
    some L

/-- State of the Schur algorithm: the two generator rows and the factor. -/
structure TState where
  g0 : ℕ → ℝ
  g1 : ℕ → ℝ
  L : ℕ → ℕ → ℝ

/-- Lines 290-297: initialisation and first column; `g[0]` is shifted from index 1. -/
noncomputable def toepInit (n : ℕ) (A : ℕ → ℕ → ℝ) : TState :=
  let g0 : ℕ → ℝ := fun j => if j < n then A j 0 else 0
  let g1 : ℕ → ℝ := fun j => if 1 ≤ j ∧ j < n then A j 0 else 0
  { g0 := fun j => if j = 0 then 0 else if j < n then g0 (j - 1) else 0
    g1 := g1
    L := fun j c => if c = 0 ∧ j < n then g0 j else 0 }

/-- Lines 298-311: one step `i`. -/
noncomputable def toepStep (n : ℕ) (s : TState) (i : ℕ) : TState :=
  let rho := -s.g1 i / s.g0 i
  let gamma := sqrt ((1 - rho) * (1 + rho))
  let g0 : ℕ → ℝ := fun j =>
    if i ≤ j ∧ j < n then (s.g0 j + rho * s.g1 j) / gamma else s.g0 j
  let g1 : ℕ → ℝ := fun j =>
    if i ≤ j ∧ j < n then (rho * s.g0 j + s.g1 j) / gamma else s.g1 j
  { g0 := fun j => if j = i then 0 else if i < j ∧ j < n then g0 (j - 1) else g0 j
    g1 := g1
    L := fun j c => if c = i ∧ i ≤ j ∧ j < n then g0 j else s.L j c }

noncomputable def toepChol (n : ℕ) (A : ℕ → ℕ → ℝ) : ℕ → ℕ → ℝ :=
  (((List.range n).drop 1).foldl (toepStep n) (toepInit n A)).L

end Verif.Lin
