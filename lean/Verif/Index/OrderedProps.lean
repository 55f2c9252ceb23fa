import Verif.Index.Ordered
import Verif.Index.Lemmas
import Verif.Vec.Lemmas

namespace Verif.Index
open Verif.Np

/-! ### Specification -/

/-- The relation between neighbours. -/
def stepRel (ascending strict : Bool) (x y : ℕ) : Prop :=
  match ascending, strict with
  | true, true => x < y
  | true, false => x ≤ y
  | false, true => y < x
  | false, false => y ≤ x

instance (a s : Bool) : IsTrans ℕ (stepRel a s) := ⟨fun x y z h1 h2 => by
  cases a <;> cases s <;> simp only [stepRel] at * <;> omega⟩

/-- The indices of an array of the given shape. -/
def InShape (shape x : List ℕ) : Prop := List.Forall₂ (· < ·) x shape

theorem mem_prodRange {shape x : List ℕ} : x ∈ prodRange shape ↔ InShape shape x := by
  induction shape generalizing x with
  | nil => simp [prodRange, InShape]
  | cons s rest ih =>
    simp only [prodRange, List.mem_flatMap, List.mem_range, List.mem_map, InShape]
    constructor
    · rintro ⟨i, hi, y, hy, rfl⟩
      exact .cons hi (ih.1 hy)
    · rintro (_ | ⟨h1, h2⟩)
      exact ⟨_, h1, _, ih.2 h2, rfl⟩

theorem monotonic_iff (a s : Bool) (x : List ℕ) : monotonic a s x = true ↔ x.Pairwise (stepRel a s) := by
  rw [← List.isChain_iff_pairwise]
  induction x with
  | nil => simp [monotonic]
  | cons u t ih =>
    cases t with
    | nil => simp [monotonic]
    | cons v t =>
      rw [List.isChain_cons_cons, ← ih, monotonic]
      cases a <;> cases s <;> simp only [stepRel, if_true, Bool.false_eq_true, if_false] <;> split <;> rename_i h <;> simp <;> omega

theorem pairwise_prodRange (shape : List ℕ) : (prodRange shape).Pairwise (· < ·) := by
  induction shape with
  | nil => simp [prodRange]
  | cons s rest ih =>
    rw [prodRange, List.pairwise_flatMap]
    refine ⟨fun i _ => ?_, ?_⟩
    · rw [List.pairwise_map]
      exact ih.imp fun {x y} h => List.cons_lt_cons_iff.2 (Or.inr ⟨rfl, h⟩)
    · refine List.pairwise_lt_range.imp fun {i j} hij x hx y hy => ?_
      simp only [List.mem_map] at hx hy
      obtain ⟨x, -, rfl⟩ := hx
      obtain ⟨y, -, rfl⟩ := hy
      exact List.cons_lt_cons_iff.2 (Or.inl hij)

theorem sortRev_perm (l : List (List ℕ)) : (sortRev l).Perm l := List.perm_insertionSort _ _

theorem sortRev_pairwise {l : List (List ℕ)} (hl : l.Nodup) : (sortRev l).Pairwise fun x y => x.reverse < y.reverse := by
  have : Std.Total (fun x y : List ℕ => x.reverse ≤ y.reverse) := ⟨fun x y => le_total _ _⟩
  have : IsTrans (List ℕ) (fun x y : List ℕ => x.reverse ≤ y.reverse) := ⟨fun x y z => le_trans⟩
  have h1 := List.pairwise_insertionSort (fun x y : List ℕ => x.reverse ≤ y.reverse) l
  have h2 : (sortRev l).Pairwise (· ≠ ·) := (sortRev_perm l).nodup_iff.2 hl
  exact (h1.and h2).imp fun {x y} h => lt_of_le_of_ne h.1 fun e => h.2 (List.reverse_injective e)

theorem nodup_filter (shape : List ℕ) (f : List ℕ → Bool) : ((prodRange shape).filter f).Nodup :=
  ((pairwise_prodRange shape).imp fun h => ne_of_lt h).filter _

/-! ### `generate_indices` -/

/-- **C160** `generate_indices` lists every monotone index of the shape exactly once. -/
theorem C160_members (shape : List ℕ) (a f s : Bool) :
    (generateIndices shape a f s).Nodup ∧ ∀ x, x ∈ generateIndices shape a f s ↔ InShape shape x ∧ x.Pairwise (stepRel a s) := by
  have h : ∀ x, x ∈ (prodRange shape).filter (monotonic a s) ↔ InShape shape x ∧ x.Pairwise (stepRel a s) := fun x => by
    rw [List.mem_filter, mem_prodRange, monotonic_iff]
  unfold generateIndices
  cases f
  · exact ⟨(sortRev_perm _).nodup_iff.2 (nodup_filter _ _), fun x => by simpa using ((sortRev_perm _).mem_iff).trans (h x)⟩
  · exact ⟨nodup_filter _ _, fun x => by simpa using h x⟩

/-- **C160** With the flag the list is in lexicographic order, without it in colexicographic order. -/
theorem C160_order_partial (shape : List ℕ) (a s : Bool) :
    (generateIndices shape a true s).Pairwise (· < ·) ∧ (generateIndices shape a false s).Pairwise fun x y => x.reverse < y.reverse := by
  refine ⟨?_, ?_⟩
  · simpa [generateIndices] using (pairwise_prodRange shape).filter _
  · simpa [generateIndices] using sortRev_pairwise (nodup_filter shape (monotonic a s))

/-- **C160** Hence the flag `first_indices_change_fastest` says the opposite of what it does: with it the last index changes fastest,
without it the first. -/
theorem C160_flag_violated :
    generateIndices [2, 2] true true false = [[0, 0], [0, 1], [1, 1]] ∧ generateIndices [3, 3] true true true = [[0, 1], [0, 2], [1, 2]] ∧
      generateIndices [3, 3] true false true = [[0, 1], [0, 2], [1, 2]] ∧
      generateIndices [4, 4] true true true = [[0, 1], [0, 2], [0, 3], [1, 2], [1, 3], [2, 3]] ∧
      generateIndices [4, 4] true false true = [[0, 1], [0, 2], [1, 2], [0, 3], [1, 3], [2, 3]] := by
  decide +kernel

theorem eq_of_sorted {r : List ℕ → List ℕ → Prop} (hr : ∀ x y, r x y → r y x → False) {l m : List (List ℕ)} (h1 : l.Pairwise r) (h2 : m.Pairwise r)
    (h : l.Perm m) : l = m := by
  exact h.eq_of_pairwise (fun a b _ _ x y => (hr a b x y).elim) h1 h2

/-- **C160** `ascending_indices` and `descending_indices` are the ascending and the descending indices in increasing and in decreasing
lexicographic order; the former are those of `generate_indices`. -/
theorem C160_ascending (shape : List ℕ) :
    ascendingIndices shape = generateIndices shape true true false ∧ descendingIndices shape = (generateIndices shape false true false).reverse := by
  refine ⟨?_, ?_⟩
  · simp only [generateIndices, ascendingIndices, Bool.not_true, Bool.false_eq_true, if_false]
    exact (((pairwise_prodRange shape).filter _).imp fun h => le_of_lt h).insertionSort_eq
  · simp only [generateIndices, descendingIndices, Bool.not_true, Bool.false_eq_true, if_false]
    have h1 := (pairwise_prodRange shape).filter (monotonic false false)
    have h2 : ((prodRange shape).filter (monotonic false false)).reverse.Pairwise (· ≥ ·) := by
      rw [List.pairwise_reverse]
      exact h1.imp fun h => le_of_lt h
    have h3 := List.pairwise_insertionSort (fun x y : List ℕ => x ≥ y) ((prodRange shape).filter (monotonic false false))
    exact ((List.perm_insertionSort _ _).trans (List.reverse_perm _).symm).eq_of_pairwise (fun a b _ _ h h' => le_antisymm h' h) h3 h2

theorem colex_tril (n k : ℕ) : ((trilIndices n (-(k : ℤ)) true).map fun t => [t.1, t.2]).Pairwise fun x y => x.reverse < y.reverse := by
  simp only [trilIndices, if_true, List.map_map]
  rw [List.pairwise_map]
  unfold npTriu
  rw [List.pairwise_flatMap]
  refine ⟨fun i _ => ?_, ?_⟩
  · rw [List.pairwise_map]
    refine (List.pairwise_lt_range.filter _).imp fun {a b} h => ?_
    simp [List.cons_lt_cons_iff, h]
  · refine List.pairwise_lt_range.imp fun {i j} hij x hx y hy => ?_
    simp only [List.mem_map] at hx hy
    obtain ⟨x, -, rfl⟩ := hx
    obtain ⟨y, -, rfl⟩ := hy
    simp [List.cons_lt_cons_iff, hij]

theorem generate_tril (n : ℕ) (s : Bool) :
    generateIndices [n, n] false false s = (trilIndices n (-((if s then 1 else 0 : ℕ) : ℤ)) true).map fun t => [t.1, t.2] := by
  have hnd : ((trilIndices n (-((if s then 1 else 0 : ℕ) : ℤ)) true).map fun t => [t.1, t.2]).Nodup := by
    refine List.Nodup.map (fun a b h => ?_) ?_
    · simpa [Prod.ext_iff] using h
    · simp only [trilIndices, if_true]
      exact (Verif.Vec.nodup_npTriu n _).map Prod.swap_injective
  refine eq_of_sorted (r := fun x y => x.reverse < y.reverse) (fun x y h h' => lt_asymm h h') (C160_order_partial [n, n] false s).2 (colex_tril n _) ?_
  rw [List.perm_ext_iff_of_nodup (C160_members _ _ _ _).1 hnd]
  intro x
  rw [(C160_members _ _ _ _).2]
  simp only [List.mem_map, trilIndices, if_true, InShape]
  constructor
  · rintro ⟨h1, h2⟩
    obtain ⟨i, t, hi, ht, rfl⟩ := List.forall₂_cons_right_iff.1 h1
    obtain ⟨j, u, hj, hu, rfl⟩ := List.forall₂_cons_right_iff.1 ht
    rw [List.forall₂_nil_right_iff] at hu
    subst hu
    refine ⟨(i, j), ⟨(j, i), mem_npTriu.2 ⟨hj, hi, ?_⟩, rfl⟩, rfl⟩
    cases s <;> simp [stepRel] at h2 ⊢ <;> omega
  · rintro ⟨⟨i, j⟩, ⟨⟨j', i'⟩, hm, he⟩, rfl⟩
    simp only [Prod.swap_prod_mk, Prod.mk.injEq] at he
    obtain ⟨rfl, rfl⟩ := he
    rw [mem_npTriu] at hm
    obtain ⟨h1, h2, h3⟩ := hm
    refine ⟨.cons h2 (.cons h1 .nil), ?_⟩
    cases s <;> simp [stepRel] at h3 ⊢ <;> omega

/-- **C160** The pairs of variables and the pairs of pairs of `Polychor.initialize_interactions` are the strict and the full lower triangle
column by column: the orders of `inv_tril_indices(p, -1)`, `invecl` and `invech`. -/
theorem C160_vecl (n : ℕ) :
    (generateIndices [n, n] false false true).map toPair = trilIndices n (-1) true ∧
      (generateIndices [n, n] false false false).map toPair = trilIndices n 0 true := by
  have h1 := generate_tril n true
  have h2 := generate_tril n false
  simp only [if_true, Nat.cast_one, Bool.false_eq_true, if_false, Nat.cast_zero, neg_zero] at h1 h2
  rw [h1, h2, List.map_map, List.map_map]
  exact ⟨List.map_id'' (fun _ => rfl) _, List.map_id'' (fun _ => rfl) _⟩

/-! ### `convert_acm` -/

/-- The position of a pair of variables in the descending order of the covariance matrix that `Polychor` computes, and in the ascending
order. -/
def posOld (p : ℕ) (x : ℕ × ℕ) : ℕ := ((generateIndices [p, p] false false true).map toPair).idxOf (x.2, x.1)
def posNew (p : ℕ) (x : ℕ × ℕ) : ℕ := ((generateIndices [p, p] true false true).map toPair).idxOf x

/-- **C160** `convert_acm` reads its argument at the ascending positions and writes at the descending ones, for up to six variables. -/
theorem C160_convert_partial : ∀ p < 7, ∀ x ∈ (generateIndices [p, p] true false true).map toPair, ∀ y ∈ (generateIndices [p, p] true false true).map toPair,
    ((convertIndex p).find? fun t => t.1 = (posOld p x, posOld p y) ∨ t.1 = (posOld p y, posOld p x)).map (fun t => sort2 t.2) =
      some (sort2 (posNew p x, posNew p y)) := by
  decide +kernel

/-- **C160** That is the inverse of the documented conversion, which reads the descending positions of `Polychor` and writes ascending ones:
with five variables the entry for the pairs (0, 1) and (0, 3) of a matrix in descending order does not go to its ascending place. -/
theorem C160_convert_violated (acm : ℕ → ℕ → ℤ) (h : acm = fun i j => ((10 * i + j : ℕ) : ℤ)) :
    posOld 5 (0, 1) = 0 ∧ posOld 5 (0, 3) = 2 ∧ posNew 5 (0, 1) = 0 ∧ posNew 5 (0, 3) = 3 ∧ acm 2 0 = 20 ∧ convertAcm 5 acm 3 0 = 60 := by
  subst h
  decide +kernel

end Verif.Index
