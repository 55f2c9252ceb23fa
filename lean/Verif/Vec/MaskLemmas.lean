import Verif.Vec.Lemmas
import Mathlib.Algebra.Group.Action.Defs
/-! Lemmas relating the numba (boolean mask) versions of vech/vecl to the index versions. -/
namespace Verif.Vec
open Verif.Np Verif.Index

variable {R : Type*}

/-- The C-order list of cells of an `m × n` grid. -/
def grid (m n : ℕ) : List (ℕ × ℕ) :=
  (List.range m).flatMap fun i => (List.range n).map fun j => (i, j)

theorem flattenC_eq_grid {α : Type*} (X : ℕ → ℕ → α) (m n : ℕ) :
    flattenC X m n = (grid m n).map fun p => X p.1 p.2 := by
  simp [flattenC, grid, List.map_flatMap, Function.comp_def]

theorem grid_getElem? (m n i j : ℕ) (hi : i < m) (hj : j < n) :
    (grid m n)[i * n + j]? = some (i, j) := by
  have := getElem?_flatMap_range (fun i => (List.range n).map fun j => (i, j)) m i j hi
    (by simpa using hj)
  simp only [List.length_map, List.length_range, Finset.sum_const, Finset.card_range,
    smul_eq_mul] at this
  rw [grid, this]
  simp [hj]

theorem grid_filter_triu (n : ℕ) (k : ℤ) (p : ℕ × ℕ → Bool)
    (hp : ∀ i j, p (i, j) = decide ((i : ℤ) + k ≤ j)) : (grid n n).filter p = npTriu n k := by
  unfold grid npTriu
  rw [List.filter_flatMap]
  congr 1
  funext i
  rw [List.filter_map]
  congr 2
  funext j
  simp [hp]

theorem maskAssign_map {α β : Type*} (l : List α) (f : α → β) (p : α → Bool) (v : α → β) :
    maskAssign (l.map f) (l.map p) ((l.filter p).map v) =
      some (l.map fun a => if p a then v a else f a) := by
  induction l with
  | nil => simp [maskAssign]
  | cons x xs ih =>
    simp only [List.map_cons, List.filter_cons]
    by_cases h : p x = true
    · simp only [h, if_true, List.map_cons, maskAssign, ih]; rfl
    · simp only [h, Bool.false_eq_true, if_false, maskAssign, ih]; rfl

theorem vechMaskVersion_eq (X : ℕ → ℕ → R) (p : ℕ) : vechMaskVersion X p = vech X p := by
  unfold vechMaskVersion vechMask vech
  rw [flattenC_eq_grid, flattenC_eq_grid, maskSelect_map]
  rw [grid_filter_triu p 0 _ (by intro i j; apply decide_eq_decide.2; omega)]
  rfl

theorem veclMaskVersion_eq (X : ℕ → ℕ → R) (p : ℕ) : veclMaskVersion X p = vecl X p := by
  unfold veclMaskVersion veclMask' vecl
  rw [flattenC_eq_grid, flattenC_eq_grid, maskSelect_map]
  rw [grid_filter_triu p 1 _ (by intro i j; apply decide_eq_decide.2; omega)]
  rfl

theorem reshapeC_grid {α : Type*} (d : α) (m n : ℕ) (f : ℕ × ℕ → α) (i j : ℕ) (hi : i < m)
    (hj : j < n) : reshapeC d ((grid m n).map f) n i j = f (i, j) := by
  unfold reshapeC
  rw [List.getD_eq_getElem?_getD, List.getElem?_map, grid_getElem? m n i j hi hj]
  rfl

theorem invechMask_map [Field R] [CharZero R] (m : ℕ) (v : ℕ × ℕ → R) :
    ∃ M, invechMaskVersion ((npTriu m 0).map v) = some (m, M) ∧
      ∀ i j, i < m → j < m → M i j = if i ≤ j then v (i, j) else v (j, i) := by
  have hrows : (Nat.sqrt (1 + 8 * (npTriu m 0).length) - 1) / 2 = m := by
    rw [length_npTriu_zero, Nat.add_comm]
    exact hvSize_roundtrip m
  unfold invechMaskVersion
  simp only [List.length_map, hrows]
  unfold vechMask
  rw [flattenC_eq_grid, flattenC_eq_grid]
  rw [← grid_filter_triu m 0 (fun p => decide (¬ (p.2 : ℤ) ≤ (p.1 : ℤ) + (-1)))
    (by intro i j; apply decide_eq_decide.2; omega)]
  rw [maskAssign_map]
  simp only [Option.map_some]
  refine ⟨_, rfl, ?_⟩
  intro i j hi hj
  rw [reshapeC_grid _ _ _ _ _ _ hi hj, reshapeC_grid _ _ _ _ _ _ hj hi]
  simp only [transpose]
  rcases lt_trichotomy i j with h | h | h
  · have h1 : ¬ (j : ℤ) ≤ (i : ℤ) + (-1) := by omega
    have h2 : (i : ℤ) ≤ (j : ℤ) + (-1) := by omega
    have h3 : i ≠ j := by omega
    have h4 : i ≤ j := by omega
    simp [h1, h2, h3, h4]
  · subst h
    simp
    ring
  · have h1 : (j : ℤ) ≤ (i : ℤ) + (-1) := by omega
    have h2 : ¬ (i : ℤ) ≤ (j : ℤ) + (-1) := by omega
    have h3 : i ≠ j := by omega
    have h4 : ¬ i ≤ j := by omega
    simp [h1, h2, h3, h4]

theorem inveclMask_map [Field R] (m : ℕ) (hm : 1 ≤ m) (v : ℕ × ℕ → R) :
    ∃ M, inveclMaskVersion ((npTriu m 1).map v) = some (m, M) ∧
      ∀ i j, i < m → j < m →
        M i j = if i = j then 1 else if i < j then v (i, j) else v (j, i) := by
  have hrows : (1 + Nat.sqrt (1 + 8 * (npTriu m 1).length)) / 2 = m := by
    rw [length_npTriu_one, Nat.add_comm 1 (8 * _), Nat.add_comm 1]
    exact lhvSize_roundtrip m hm
  unfold inveclMaskVersion
  simp only [List.length_map, hrows]
  unfold veclMask'
  rw [flattenC_eq_grid, flattenC_eq_grid]
  rw [← grid_filter_triu m 1 (fun p => decide (¬ (p.2 : ℤ) ≤ (p.1 : ℤ) + 0))
    (by intro i j; apply decide_eq_decide.2; omega)]
  rw [maskAssign_map]
  simp only [Option.map_some]
  refine ⟨_, rfl, ?_⟩
  intro i j hi hj
  rw [reshapeC_grid _ _ _ _ _ _ hi hj, reshapeC_grid _ _ _ _ _ _ hj hi]
  simp only [transpose]
  rcases lt_trichotomy i j with h | h | h
  · have h1 : ¬ j ≤ i := by omega
    have h2 : i ≤ j := by omega
    have h3 : i ≠ j := by omega
    simp [h1, h2, h3, h]
  · subst h
    simp
  · have h1 : j ≤ i := by omega
    have h2 : ¬ i ≤ j := by omega
    have h3 : i ≠ j := by omega
    have h4 : ¬ i < j := by omega
    simp [h1, h2, h3, h4]

end Verif.Vec
