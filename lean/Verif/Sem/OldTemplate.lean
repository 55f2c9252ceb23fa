import Verif.Sem.OldData
/-!
Model of `sort_symmetric` (lines 321-326), `to_model_mats` (lines 430-483) and `to_param_template` (lines 497-507) of `pystatsm/pysem/formula.py`:
the matrices of numbers, fixed values and starting values made from the parameter table.

Simplifications: the cells are numbers; a missing cell raises and is left out.  Only the cells of the rows are modelled, not the order.
-/

namespace Verif.Sem.OldTable

/-- A row after `sort_table` and `index_params`: the matrix, the cell, the fixed value and the number. -/
structure MatRow where
  mat : ℕ
  r : ℕ
  c : ℕ
  fixed : Bool
  val : ℚ
  num : ℕ

/-- `sort_symmetric` on the cell of a row — 321-326; the matrices 2 and 3 are symmetric (356-357). -/
def mmSwap (x : MatRow) : MatRow := if (x.mat = 2 ∨ x.mat = 3) ∧ x.r < x.c then { x with r := x.c, c := x.r } else x

/-- `A[(rows["r"], rows["c"])] = g(rows)`: of two rows with one cell the later wins. -/
def mmWrite {α : Type*} (g : MatRow → α) (A : ℕ → ℕ → α) (rows : List MatRow) : ℕ → ℕ → α :=
  rows.foldl (fun A x i j => if i = x.r ∧ j = x.c then g x else A i j) A

/-- `free_mats[m]` — 442-449. -/
def mmFree (t : List MatRow) (m : ℕ) : ℕ → ℕ → ℕ := mmWrite MatRow.num (fun _ _ => 0) (t.filter fun x => x.mat = m && !x.fixed)

/-- `start_mat` before the fixed values — 452-459: `nx` are the places of the observed variables that are not exogenous. -/
def mmInit (nx : List ℕ) (m i j : ℕ) : ℚ :=
  if m = 2 then if i = j then 1 else 0
  else if m = 3 then if i = j ∧ i ∈ nx then 1 else 0
  else 0

/-- The assignments for observed variables among the latent — 473-478: `lo` their places among the observed and the latent. -/
def mmOver (lo : List (ℕ × ℕ)) (m : ℕ) (A : ℕ → ℕ → ℚ) (i j : ℕ) : ℚ :=
  if m = 0 ∧ (i, j) ∈ lo then 1 else if m = 3 ∧ i = j ∧ i ∈ lo.map Prod.fst then 0 else A i j

/-- `start_mats[m]` — 451-463, 473-478. -/
def mmStart (nx : List ℕ) (lo : List (ℕ × ℕ)) (t : List MatRow) (m : ℕ) : ℕ → ℕ → ℚ :=
  mmOver lo m (mmWrite MatRow.val (mmInit nx m) (t.filter fun x => x.mat = m && x.fixed))

/-- `_vech` of a matrix of size `d` — utilities/linalg_operations.py 522-526: the lower triangle by columns. -/
def mmVech (d : ℕ) (A : ℕ → ℕ → ℚ) : List ℚ := (List.range d).flatMap fun c => ((List.range d).filter (c ≤ ·)).map fun r => A r c

end Verif.Sem.OldTable
