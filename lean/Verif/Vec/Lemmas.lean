import Verif.Vec.Model
import Verif.Index.Lemmas
import Mathlib.Algebra.BigOperators.Ring.Finset
import Mathlib.Data.List.Nodup
import Mathlib.Data.List.GetD
import Mathlib.Tactic.FieldSimp
import Mathlib.Algebra.CharZero.Defs
/-! Helper lemmas for vectorisation. -/
namespace Verif.Vec
open Verif.Np Verif.Index

variable {R : Type*}

theorem maskSelect_append {α : Type*} (a b : List α) (c d : List Bool) (h : a.length = c.length) :
    maskSelect (a ++ b) (c ++ d) = maskSelect a c ++ maskSelect b d := by
  induction a generalizing c with
  | nil => cases c with
    | nil => cases b <;> cases d <;> simp [maskSelect]
    | cons => simp at h
  | cons x xs ih => cases c with
    | nil => simp at h
    | cons y ys =>
      simp only [List.length_cons, Nat.add_right_cancel_iff] at h
      simp only [List.cons_append, maskSelect, ih ys h]
      split <;> simp

theorem maskSelect_map {α β : Type*} (l : List α) (f : α → β) (p : α → Bool) :
    maskSelect (l.map f) (l.map p) = (l.filter p).map f := by
  induction l with
  | nil => simp [maskSelect]
  | cons x xs ih =>
    simp only [List.map_cons, maskSelect, ih, List.filter_cons]
    split <;> simp

theorem maskSelect_self {α : Type*} (l : List α) (p : α → Bool) :
    maskSelect l (l.map p) = l.filter p := by
  have := maskSelect_map l id p
  simpa using this

theorem maskSelect_flatMap {α β : Type*} (l : List α) (f : α → List β) (g : α → List Bool)
    (h : ∀ a, (f a).length = (g a).length) :
    maskSelect (l.flatMap f) (l.flatMap g) = l.flatMap fun a => maskSelect (f a) (g a) := by
  induction l with
  | nil => simp [maskSelect]
  | cons x xs ih =>
    simp only [List.flatMap_cons]
    rw [maskSelect_append _ _ _ _ (h x), ih]

theorem nodup_npTriu (n : ℕ) (k : ℤ) : (npTriu n k).Nodup := by
  unfold npTriu
  rw [List.nodup_flatMap]
  refine ⟨fun i _ => ?_, ?_⟩
  · apply List.Nodup.map
    · intro a b h; simpa using h
    · exact List.nodup_range.filter _
  · refine (List.nodup_range (n := n)).imp ?_
    intro a b hab
    simp only [Function.onFun, List.disjoint_left, List.mem_map, not_exists, not_and]
    rintro x ⟨c, _, rfl⟩ d _ h
    simp at h
    exact hab h.1.symm

theorem sum_tri (m : ℕ) : 2 * ∑ t ∈ Finset.range m, (m - t) = m * (m + 1) := by
  have := sum_len_zero m m le_rfl
  nlinarith

theorem length_npTriu_zero (m : ℕ) : (npTriu m 0).length = m * (m + 1) / 2 := by
  have := npTriu_eq m 0
  simp only [Nat.cast_zero] at this
  rw [this]
  simp only [length_flatMap_range, List.length_map, List.length_range', Nat.add_zero]
  have := sum_tri m
  omega

theorem length_npTriu_one (m : ℕ) : (npTriu m 1).length = m * (m - 1) / 2 := by
  have := npTriu_eq m 1
  simp only [Nat.cast_one] at this
  rw [this]
  simp only [length_flatMap_range, List.length_map, List.length_range']
  cases m with
  | zero => simp
  | succ k =>
    rw [Finset.sum_range_succ]
    have h := sum_tri k
    have e : ∑ x ∈ Finset.range k, (k + 1 - (x + 1)) = ∑ t ∈ Finset.range k, (k - t) :=
      Finset.sum_congr rfl fun t _ => by omega
    rw [e]
    have : (k + 1) * (k + 1 - 1) = k * (k + 1) := by
      rw [Nat.add_sub_cancel]; ring
    rw [this]
    omega

theorem sqrt_tri (m : ℕ) : Nat.sqrt (8 * (m * (m + 1) / 2) + 1) = 2 * m + 1 := by
  obtain ⟨t, ht⟩ := tri_even m
  rw [ht, Nat.mul_div_cancel_left _ (by norm_num)]
  have : 8 * t + 1 = (2 * m + 1) * (2 * m + 1) := by nlinarith
  rw [this, Nat.sqrt_eq]

theorem hvSize_roundtrip (m : ℕ) : hvSizeToMatSize (m * (m + 1) / 2) = m := by
  unfold hvSizeToMatSize
  rw [sqrt_tri]; omega

theorem sqrt_tri' (m : ℕ) (hm : 1 ≤ m) : Nat.sqrt (8 * (m * (m - 1) / 2) + 1) = 2 * m - 1 := by
  obtain ⟨k, rfl⟩ : ∃ k, m = k + 1 := ⟨m - 1, by omega⟩
  have := sqrt_tri k
  have e : (k + 1) * (k + 1 - 1) = k * (k + 1) := by rw [Nat.add_sub_cancel]; ring
  rw [e, this]; omega

theorem lhvSize_roundtrip (m : ℕ) (hm : 1 ≤ m) : lhvSizeToMatSize (m * (m - 1) / 2) = m := by
  unfold lhvSizeToMatSize
  rw [sqrt_tri' m hm]; omega

/-- Fancy assignment of values computed from the index. -/
theorem scatter2_map {α : Type*} (idx : List (ℕ × ℕ)) (v : ℕ × ℕ → α) (a : ℕ → ℕ → α) (i j : ℕ) :
    scatter2 a idx (idx.map v) i j = if (i, j) ∈ idx then v (i, j) else a i j := by
  unfold scatter2
  induction idx generalizing a with
  | nil => simp
  | cons p ps ih =>
    simp only [List.map_cons, List.zip_cons_cons, List.foldl_cons]
    rw [ih]
    by_cases h : (i, j) ∈ ps
    · simp [h]
    · by_cases hp : (i, j) = p
      · subst hp; simp [h]
      · simp [h, hp]

theorem exists_map_of_nodup {α β : Type*} [Inhabited β] (idx : List α)
    (hn : idx.Nodup) (x : List β) (hl : idx.length = x.length) :
    ∃ v : α → β, x = idx.map v := by
  classical
  induction idx generalizing x with
  | nil => exact ⟨fun _ => default, by simpa [eq_comm] using hl⟩
  | cons p ps ih =>
    cases x with
    | nil => simp at hl
    | cons y ys =>
      simp only [List.nodup_cons] at hn
      obtain ⟨v, hv⟩ := ih hn.2 ys (by simpa using hl)
      refine ⟨fun q => if q = p then y else v q, ?_⟩
      simp only [List.map_cons, if_true, List.cons.injEq, true_and]
      rw [hv]
      apply List.map_congr_left
      intro a ha
      have : a ≠ p := fun h => hn.1 (h ▸ ha)
      simp [this]

/-- What `_invech` computes on a vector whose entries are indexed by the triangle. -/
theorem invech_map [Zero R] (m : ℕ) (v : ℕ × ℕ → R) :
    invech ((npTriu m 0).map v) = some (m, fun i j =>
      if i < m ∧ j < m then (if i ≤ j then v (i, j) else v (j, i)) else 0) := by
  have hm : hvSizeToMatSize (npTriu m 0).length = m := by
    rw [length_npTriu_zero, hvSize_roundtrip]
  unfold invech
  simp only [List.length_map, hm, if_true]
  congr 2
  funext i j
  have e1 : maskSelect ((npTriu m 0).map v)
      ((npTriu m 0).map fun p => decide (p.1 = p.2)) =
      ((npTriu m 0).filter fun p => decide (p.1 = p.2)).map v := maskSelect_map _ _ _
  have e2 : maskSelect ((npTriu m 0).map v)
      (((npTriu m 0).map fun p => decide (p.1 = p.2)).map (!·)) =
      ((npTriu m 0).filter fun p => !decide (p.1 = p.2)).map v := by
    rw [List.map_map]; exact maskSelect_map _ _ _
  have e3 : maskSelect (npTriu m 0)
      (((npTriu m 0).map fun p => decide (p.1 = p.2)).map (!·)) =
      ((npTriu m 0).filter fun p => !decide (p.1 = p.2)) := by
    rw [List.map_map]; exact maskSelect_self _ _
  have e4 : maskSelect (npTriu m 0) ((npTriu m 0).map fun p => decide (p.1 = p.2)) =
      ((npTriu m 0).filter fun p => decide (p.1 = p.2)) := maskSelect_self _ _
  rw [e1, e2, e3, e4]
  have e5 : ((npTriu m 0).filter fun p => !decide (p.1 = p.2)).map v =
      (((npTriu m 0).filter fun p => !decide (p.1 = p.2)).map Prod.swap).map
        (fun p => v p.swap) := by
    rw [List.map_map]; simp [Function.comp_def]
  rw [scatter2_map, scatter2_map, e5, scatter2_map]
  have hsw : ((i, j) ∈ ((npTriu m 0).filter fun p => !decide (p.1 = p.2)).map Prod.swap) ↔
      (j < m ∧ i < m ∧ j < i) := by
    simp only [List.mem_map, List.mem_filter, Prod.exists, Prod.swap_prod_mk, Prod.mk.injEq,
      mem_npTriu]
    constructor
    · rintro ⟨a, b, ⟨⟨h1, h2, h3⟩, h4⟩, rfl, rfl⟩
      simp at h4
      refine ⟨h1, h2, ?_⟩
      omega
    · rintro ⟨h1, h2, h3⟩
      exact ⟨j, i, ⟨⟨h1, h2, by omega⟩, by simp; omega⟩, rfl, rfl⟩
  simp only [hsw, List.mem_filter, mem_npTriu, Prod.swap_prod_mk]
  by_cases hi : i < m <;> by_cases hj : j < m <;> simp [hi, hj]
  rcases lt_trichotomy i j with h | h | h
  · have h1 : i ≠ j := by omega
    have h2 : i ≤ j := by omega
    simp [h1, h2]
  · subst h; simp
  · have h1 : i ≠ j := by omega
    have h2 : ¬ i ≤ j := by omega
    simp [h1, h2, h]

theorem invecl_map [Zero R] [One R] (m : ℕ) (hm1 : 1 ≤ m) (v : ℕ × ℕ → R) :
    invecl ((npTriu m 1).map v) = some (m, fun i j =>
      if i < m ∧ j < m then (if i = j then 1 else if i < j then v (i, j) else v (j, i)) else 0) := by
  have hm : lhvSizeToMatSize (npTriu m 1).length = m := by
    rw [length_npTriu_one, lhvSize_roundtrip m hm1]
  unfold invecl
  simp only [List.length_map, hm, if_true]
  congr 2
  funext i j
  have e2 : maskSelect ((npTriu m 1).map v)
      ((npTriu m 1).map fun p => !decide (p.1 = p.2)) =
      ((npTriu m 1).filter fun p => !decide (p.1 = p.2)).map v := maskSelect_map _ _ _
  have e3 : maskSelect (npTriu m 1) ((npTriu m 1).map fun p => !decide (p.1 = p.2)) =
      ((npTriu m 1).filter fun p => !decide (p.1 = p.2)) := maskSelect_self _ _
  rw [e2, e3]
  have e4 : (npTriu m 1).filter (fun p => !decide (p.1 = p.2)) = npTriu m 1 := by
    rw [List.filter_eq_self]
    rintro ⟨a, b⟩ h
    rw [mem_npTriu] at h
    simp; omega
  rw [e4]
  have e5 : (npTriu m 1).map v = ((npTriu m 1).map Prod.swap).map (fun p => v p.swap) := by
    rw [List.map_map]; simp [Function.comp_def]
  have e6 : List.replicate m (1 : R) =
      ((List.range m).map fun i => (i, i)).map (fun _ : ℕ × ℕ => (1 : R)) := by
    simp [Function.comp_def]
  rw [e6, scatter2_map, scatter2_map]
  rw [e5, scatter2_map]
  have hsw : ((i, j) ∈ (npTriu m 1).map Prod.swap) ↔ (j < m ∧ i < m ∧ j < i) := by
    simp only [List.mem_map, Prod.exists, Prod.swap_prod_mk, Prod.mk.injEq, mem_npTriu]
    constructor
    · rintro ⟨a, b, ⟨h1, h2, h3⟩, rfl, rfl⟩
      exact ⟨h1, h2, by omega⟩
    · rintro ⟨h1, h2, h3⟩
      exact ⟨j, i, ⟨h1, h2, by omega⟩, rfl, rfl⟩
  have hd : ((i, j) ∈ (List.range m).map fun i => (i, i)) ↔ (i < m ∧ i = j) := by
    constructor
    · intro h; simp at h; omega
    · rintro ⟨h, rfl⟩; simp [h]
  simp only [hsw, hd, mem_npTriu, Prod.swap_prod_mk]
  by_cases hi : i < m <;> by_cases hj : j < m <;> simp [hi, hj]
  · rcases lt_trichotomy i j with h | h | h
    · have h1 : i ≠ j := by omega
      have h2 : (i : ℤ) + 1 ≤ j := by omega
      simp [h1, h2, h]
    · subst h; simp
    · have h1 : i ≠ j := by omega
      have h2 : ¬ (i : ℤ) + 1 ≤ j := by omega
      have h3 : ¬ i < j := by omega
      simp [h1, h2, h3, h]
  · intro h; omega

end Verif.Vec
