import Verif.Rank.Model
import Mathlib.Data.Nat.Choose.Sum
import Mathlib.Tactic.Linarith
import Mathlib.Tactic.Ring
/-! Lemmas for ranking of ascending tuples. -/
namespace Verif.Rank

theorem comb_loop (n k : ℕ) (hk : k ≤ n) :
    (List.range k).foldl (fun (c : ℤ) (i : ℕ) => c * ((n : ℤ) - (i : ℤ)) / ((i : ℤ) + 1)) 1 = Nat.choose n k := by
  induction k with
  | zero => simp
  | succ k ih =>
    rw [List.range_succ, List.foldl_append, ih (by omega)]
    simp only [List.foldl_cons, List.foldl_nil]
    have h := Nat.choose_succ_right_eq n k
    have h2 : (Nat.choose n k : ℤ) * ((n : ℤ) - k) = (Nat.choose n (k + 1) : ℤ) * ((k : ℤ) + 1) := by
      have : ((n - k : ℕ) : ℤ) = (n : ℤ) - k := by omega
      rw [← this]
      exact_mod_cast h.symm
    rw [h2]
    exact Int.mul_ediv_cancel _ (by omega)

theorem combNumba_eq (n k : ℕ) : combNumba n k = Nat.choose n k := by
  unfold combNumba
  split
  · next h =>
    have : n < k := by omega
    rw [Nat.choose_eq_zero_of_lt this]; rfl
  · next h =>
    have hkn : k ≤ n := by omega
    split
    · next h2 =>
      rcases h2 with h2 | h2
      · have : k = 0 := by omega
        subst this; simp
      · have : k = n := by omega
        subst this; simp
    · rcases Nat.le_total k (n - k) with h3 | h3
      · have : (min (k : ℤ) (n - k)).toNat = k := by omega
        simp only [this]
        exact comb_loop n k hkn
      · have : (min (k : ℤ) (n - k)).toNat = n - k := by omega
        simp only [this]
        rw [comb_loop n (n - k) (by omega), Nat.choose_symm hkn]

theorem getLast?_filter_range (n : ℕ) (P : ℕ → Bool) (u : ℕ) :
    ((List.range n).filter P).getLast? = some u ↔
      u < n ∧ P u = true ∧ ∀ j, u < j → j < n → P j = false := by
  induction n with
  | zero => simp
  | succ n ih =>
    rw [List.range_succ, List.filter_append]
    by_cases h : P n = true
    · simp only [h, List.filter_cons, List.filter_nil, if_true, List.getLast?_append,
        List.getLast?_singleton, Option.or_eq_some_iff, Option.some.injEq]
      constructor
      · intro h2
        simp at h2
        subst h2
        exact ⟨by omega, h, fun j h1 h2 => by omega⟩
      · rintro ⟨h1, h2, h3⟩
        by_cases hu : u = n
        · simp [hu]
        · have := h3 n (by omega) (by omega)
          simp [h] at this
    · simp only [h, List.filter_cons, List.filter_nil, List.append_nil, if_false, Bool.false_eq_true]
      rw [ih]
      constructor
      · rintro ⟨h1, h2, h3⟩
        refine ⟨by omega, h2, fun j hj1 hj2 => ?_⟩
        by_cases hj : j = n
        · subst hj; simpa using h
        · exact h3 j hj1 (by omega)
      · rintro ⟨h1, h2, h3⟩
        refine ⟨?_, h2, fun j hj1 hj2 => h3 j hj1 (by omega)⟩
        by_cases hu : u = n
        · subst hu; exact absurd h2 h
        · omega

/-- Spec-level sum: `Σ_r C(r + a_r, r + 1)` over positions `r = 0, 1, ...`. -/
def F : List ℕ → ℕ := fun a => ((List.range a.length).map fun r => Nat.choose (r + a.getD r 0) (r + 1)).sum

theorem F_append (a : List ℕ) (x : ℕ) :
    F (a ++ [x]) = F a + Nat.choose (a.length + x) (a.length + 1) := by
  unfold F
  simp only [List.length_append, List.length_singleton, List.range_succ, List.map_append,
    List.sum_append, List.map_cons, List.map_nil, List.sum_cons, List.sum_nil, Nat.add_zero]
  congr 1
  · congr 1
    apply List.map_congr_left
    intro r hr
    rw [List.mem_range] at hr
    simp only [List.getD_eq_getElem?_getD, List.getElem?_append_left hr]
  · simp

theorem ascendingForward_eq (inds : List ℕ) : ascendingForward inds = F (npSort inds) := by
  unfold ascendingForward F
  have hl : (npSort inds).length = inds.length := List.length_mergeSort _
  simp only [hl]
  rw [List.range'_eq_map_range, List.map_map]
  congr 1
  apply List.map_congr_left
  intro r _
  simp only [Function.comp, Nat.add_sub_cancel_left]
  congr 1 <;> omega

theorem colexAscendingForward_eq (inds : List ℕ) :
    colexAscendingForward inds = ascendingForward inds := by
  unfold colexAscendingForward ascendingForward
  simp only
  rw [List.range'_eq_map_range, List.map_map, List.map_map]
  rw [Nat.cast_list_sum, List.map_map]
  congr 1
  apply List.map_congr_left
  intro r _
  simp only [Function.comp]
  rw [← combNumba_eq]
  congr 1
  omega

theorem choose_mono_gap (k u x : ℕ) (h : u ≤ x) : Nat.choose (k + u) k ≤ Nat.choose (k + x) k :=
  Nat.choose_le_choose k (by omega)

/-- A non-decreasing tuple's rank is below the rank of the next "corner". -/
theorem F_lt (a : List ℕ) (x : ℕ) (hs : (a ++ [x]).Pairwise (· ≤ ·)) :
    F a < Nat.choose (a.length + x) a.length := by
  induction a using List.reverseRecOn generalizing x with
  | nil => simp [F]
  | append_singleton a y ih =>
    have hs1 : (a ++ [y]).Pairwise (· ≤ ·) := (List.pairwise_append.1 hs).1
    have hyx : y ≤ x := (List.pairwise_append.1 hs).2.2 y (by simp) x (by simp)
    have h1 := ih y hs1
    rw [F_append]
    simp only [List.length_append, List.length_singleton]
    have h2 : Nat.choose (a.length + 1 + y) (a.length + 1) =
        Nat.choose (a.length + y) a.length + Nat.choose (a.length + y) (a.length + 1) := by
      rw [show a.length + 1 + y = (a.length + y) + 1 by omega, Nat.choose_succ_succ]
    have h3 := choose_mono_gap (a.length + 1) y x hyx
    omega

theorem F_append_lt (a : List ℕ) (x : ℕ) (hs : (a ++ [x]).Pairwise (· ≤ ·)) :
    F (a ++ [x]) < Nat.choose (a.length + 1 + x) (a.length + 1) := by
  have h := F_lt a x hs
  rw [F_append, show a.length + 1 + x = (a.length + x) + 1 by omega, Nat.choose_succ_succ']
  omega

/-- The search in the loop body. -/
theorem search_eq (p k v u : ℕ) :
    lastTrue (((List.range p).map fun j => Nat.choose (k + 1 + j - 1) (k + 1)).map
      fun x => decide (v ≥ x)) = some u ↔
    u < p ∧ Nat.choose (k + u) (k + 1) ≤ v ∧
      ∀ j, u < j → j < p → v < Nat.choose (k + j) (k + 1) := by
  unfold lastTrue
  rw [getLast?_filter_range]
  simp only [List.length_map, List.length_range]
  have e : ∀ j, j < p → ((((List.range p).map fun j => Nat.choose (k + 1 + j - 1) (k + 1)).map
      fun x => decide (v ≥ x)).getD j false) = decide (v ≥ Nat.choose (k + j) (k + 1)) := by
    intro j hj
    simp only [List.getD_eq_getElem?_getD, List.getElem?_map, List.getElem?_range hj,
      Option.map_some, Option.getD_some]
    rw [show k + 1 + j - 1 = k + j by omega]
  constructor
  · rintro ⟨h1, h2, h3⟩
    rw [e u h1] at h2
    refine ⟨h1, by simpa using h2, fun j hj1 hj2 => ?_⟩
    have := h3 j hj1 hj2
    rw [e j hj2] at this
    simpa using this
  · rintro ⟨h1, h2, h3⟩
    refine ⟨h1, ?_, fun j hj1 hj2 => ?_⟩
    · rw [e u h1]; simpa using h2
    · rw [e j hj2]; simpa using h3 j hj1 hj2

theorem getD_choose (p k u : ℕ) (hu : u < p) :
    ((List.range p).map fun j => Nat.choose (k + 1 + j - 1) (k + 1)).getD u 0 =
      Nat.choose (k + u) (k + 1) := by
  simp only [List.getD_eq_getElem?_getD, List.getElem?_map, List.getElem?_range hu,
    Option.map_some, Option.getD_some]
  rw [show k + 1 + u - 1 = k + u by omega]

/-- Unranking the rank of a sorted tuple gives the tuple. -/
theorem reversed_F (p : ℕ) (a : List ℕ) (hs : a.Pairwise (· ≤ ·)) (hp : ∀ x ∈ a, x < p) :
    ascendingReversed p a.length (F a) = some a := by
  induction a using List.reverseRecOn with
  | nil => simp [ascendingReversed]
  | append_singleton a x ih =>
    have hs1 : a.Pairwise (· ≤ ·) := (List.pairwise_append.1 hs).1
    have hxp : x < p := hp x (by simp)
    have hlt := F_append_lt a x hs
    have hge : Nat.choose (a.length + x) (a.length + 1) ≤ F (a ++ [x]) := by rw [F_append]; omega
    have hsearch := (search_eq p a.length (F (a ++ [x])) x).2 ⟨hxp, hge, fun j h1 h2 => by
      refine lt_of_lt_of_le hlt ?_
      have : Nat.choose (a.length + 1 + x) (a.length + 1) ≤ Nat.choose (a.length + j) (a.length + 1) :=
        Nat.choose_le_choose _ (by omega)
      exact this⟩
    simp only [List.length_append, List.length_singleton, ascendingReversed]
    rw [hsearch]
    simp only [Option.bind_some]
    rw [getD_choose p a.length x hxp, F_append, Nat.add_sub_cancel,
      ih hs1 (fun y hy => hp y (by simp [hy]))]
    rfl

/-- Unranking any number below the corner gives a sorted in-range tuple of that rank. -/
theorem reversed_spec (p k v b : ℕ) (hb : b < p) (hv : v < Nat.choose (k + b) k) :
    ∃ a, ascendingReversed p k v = some a ∧ a.length = k ∧ a.Pairwise (· ≤ ·) ∧
      (∀ x ∈ a, x ≤ b) ∧ F a = v := by
  induction k generalizing v b with
  | zero => exact ⟨[], by simp [ascendingReversed], rfl, by simp, by simp, by simp at hv; simp [F, hv]⟩
  | succ k ih =>
    -- the search succeeds: `j = 0` qualifies
    obtain ⟨u, hu⟩ : ∃ u, u ≤ b ∧ Nat.choose (k + u) (k + 1) ≤ v ∧
        v < Nat.choose (k + (u + 1)) (k + 1) := by
      have hex : ∃ w, v < Nat.choose (k + (w + 1)) (k + 1) := ⟨b, by
        rwa [show k + (b + 1) = k + 1 + b by omega]⟩
      classical
      refine ⟨Nat.find hex, ?_, ?_, Nat.find_spec hex⟩
      · exact Nat.find_min' hex (by rwa [show k + (b + 1) = k + 1 + b by omega])
      · rcases hz : Nat.find hex with _ | w
        · simp
        · have := Nat.find_min hex (m := w) (by omega)
          omega
    have hsearch := (search_eq p k v u).2 ⟨by omega, hu.2.1, fun j h1 h2 => by
      refine lt_of_lt_of_le hu.2.2 (Nat.choose_le_choose _ (by omega))⟩
    have hsub : v - Nat.choose (k + u) (k + 1) < Nat.choose (k + u) k := by
      have := hu.2.2
      rw [show k + (u + 1) = (k + u) + 1 by omega, Nat.choose_succ_succ'] at this
      omega
    obtain ⟨a, h1, h2, h3, h4, h5⟩ := ih (v - Nat.choose (k + u) (k + 1)) u (by omega) hsub
    refine ⟨a ++ [u], ?_, by simp [h2], ?_, ?_, ?_⟩
    · simp only [ascendingReversed]
      rw [hsearch]
      simp only [Option.bind_some]
      rw [getD_choose p k u (by omega), h1]
      rfl
    · rw [List.pairwise_append]
      refine ⟨h3, by simp, ?_⟩
      intro x hx y hy
      simp at hy
      subst hy
      exact h4 x hx
    · intro x hx
      rw [List.mem_append] at hx
      rcases hx with hx | hx
      · exact (h4 x hx).trans hu.1
      · simp at hx; omega
    · rw [F_append, h5, h2]; omega

theorem colexAscendingReverse_eq (p k v : ℕ) :
    colexAscendingReverse p k (v : ℤ) = ascendingReversed p k v := by
  induction k generalizing v with
  | zero => rfl
  | succ k ih =>
    simp only [colexAscendingReverse, ascendingReversed]
    have e : (List.range p).map (fun (j : ℕ) => combNumba ((k : ℤ) + 1 + j - 1) (k + 1)) =
        ((List.range p).map fun j => Nat.choose (k + 1 + j - 1) (k + 1)).map (fun (x : ℕ) => (x : ℤ)) := by
      rw [List.map_map]
      apply List.map_congr_left
      intro j _
      simp only [Function.comp]
      rw [← combNumba_eq]
      congr 1
      omega
    rw [e]
    have e2 : (((List.range p).map fun j => Nat.choose (k + 1 + j - 1) (k + 1)).map
        (fun (x : ℕ) => (x : ℤ))).map (fun x => decide ((v : ℤ) ≥ x)) =
        ((List.range p).map fun j => Nat.choose (k + 1 + j - 1) (k + 1)).map
          (fun x => decide (v ≥ x)) := by
      rw [List.map_map]
      apply List.map_congr_left
      intro x _
      simp
    rw [e2]
    rcases hs : lastTrue (((List.range p).map fun j => Nat.choose (k + 1 + j - 1) (k + 1)).map
          (fun x => decide (v ≥ x))) with _ | u
    · rfl
    · simp only [Option.bind_some]
      have h := (search_eq p k v u).1 hs
      rw [getD_choose p k u h.1]
      have : (((List.range p).map fun j => Nat.choose (k + 1 + j - 1) (k + 1)).map
        (fun (x : ℕ) => (x : ℤ))).getD u 0 = ((Nat.choose (k + u) (k + 1) : ℕ) : ℤ) := by
        have := getD_choose p k u h.1
        rw [List.getD_eq_getElem?_getD] at this ⊢
        rw [List.getElem?_map]
        rw [← this]
        rcases ((List.range p).map fun j => Nat.choose (k + 1 + j - 1) (k + 1))[u]? with _ | y
        · rfl
        · rfl
      rw [this, ← Nat.cast_sub h.2.1, ih]

theorem npSort_sorted (l : List ℕ) : (npSort l).Pairwise (· ≤ ·) := by
  have := List.pairwise_mergeSort (le := fun a b : ℕ => decide (a ≤ b))
    (by intro a b c h1 h2; simp at *; omega) (by intro a b; simp; omega) l
  simpa [npSort] using this

theorem npSort_perm (l : List ℕ) : (npSort l).Perm l := List.mergeSort_perm _ _

theorem npSort_of_sorted (l : List ℕ) (h : l.Pairwise (· ≤ ·)) : npSort l = l :=
  List.mergeSort_of_pairwise (by simpa using h)

end Verif.Rank
