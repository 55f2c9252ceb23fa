import Verif.Robust.Disp
import Mathlib.Tactic.Ring
import Mathlib.Tactic.Linarith
/-!
# Order statistics by counting, and the binary search of Sn
-/
namespace Verif.Robust
open Verif.Np Verif.Vec

set_option linter.unusedSectionVars false

variable {R : Type} [Field R] [LinearOrder R]

theorem npSort_perm (x : List R) : (npSort x).Perm x := List.mergeSort_perm _ _
theorem npSort_sorted (x : List R) : (npSort x).SortedLE := List.sortedLE_mergeSort
theorem npSort_len (x : List R) : (npSort x).length = x.length := (npSort_perm x).length_eq

theorem npSort_congr {x y : List R} (h : x.Perm y) : npSort x = npSort y :=
  (((npSort_perm x).trans h).trans (npSort_perm y).symm).eq_of_pairwise (fun _ _ _ _ h1 h2 => le_antisymm h1 h2) (npSort_sorted x).pairwise (npSort_sorted y).pairwise

theorem kth_congr {x y : List R} (h : x.Perm y) (k : ℕ) : kth x k = kth y k := by rw [kth, kth, npSort_congr h]

/-- In a sorted list, entry `k` has at most `k` smaller entries and more than `k` entries not larger. -/
theorem sorted_counts {l : List R} (h : l.SortedLE) {k : ℕ} (hk : k < l.length) : l.countP (· < l[k]) ≤ k ∧ k < l.countP (· ≤ l[k]) := by
  have e := List.take_append_drop k l
  have e' := List.take_append_drop (k + 1) l
  constructor
  · have h1 : (l.drop k).countP (· < l[k]) = 0 := by
      rw [List.countP_eq_zero]
      intro a ha
      obtain ⟨j, hj, rfl⟩ := List.mem_iff_getElem.1 ha
      rw [List.getElem_drop]
      have := h.getElem_le_getElem_of_le (i := k) (j := k + j) (hi := hk) (hj := by rw [List.length_drop] at hj; omega) (by omega)
      simpa using this
    have h2 : (l.take k).countP (· < l[k]) ≤ k := List.countP_le_length.trans (by rw [List.length_take]; omega)
    generalize l[k] = w at *
    conv_lhs => rw [← e, List.countP_append]
    omega
  · have h1 : (l.take (k + 1)).countP (· ≤ l[k]) = (l.take (k + 1)).length := by
      rw [List.countP_eq_length]
      intro a ha
      obtain ⟨j, hj, rfl⟩ := List.mem_iff_getElem.1 ha
      rw [List.length_take] at hj
      rw [List.getElem_take]
      have := h.getElem_le_getElem_of_le (i := j) (j := k) (hi := by omega) (hj := hk) (by omega)
      simpa using this
    generalize l[k] = w at *
    conv_rhs => rw [← e', List.countP_append, h1, List.length_take]
    omega

/-- The value with at most `k` smaller entries and more than `k` entries not larger is the order statistic. -/
theorem kth_eq {l : List R} {k : ℕ} {v : R} (h1 : l.countP (· < v) ≤ k) (h2 : k < l.countP (· ≤ v)) : kth l k = some v := by
  have hl : k < (npSort l).length := by
    rw [npSort_len]; exact lt_of_lt_of_le h2 List.countP_le_length
  rw [kth, List.getElem?_eq_getElem hl]
  have hc := sorted_counts (npSort_sorted l) hl
  rw [(npSort_perm l).countP_eq, (npSort_perm l).countP_eq] at hc
  congr 1
  refine le_antisymm ?_ ?_ <;> refine le_of_not_gt fun hlt => ?_
  · have : l.countP (· ≤ v) ≤ l.countP (· < (npSort l)[k]) := List.countP_mono_left fun a _ ha => by
      simp only [decide_eq_true_eq] at ha ⊢; exact lt_of_le_of_lt ha hlt
    omega
  · have : l.countP (· ≤ (npSort l)[k]) ≤ l.countP (· < v) := List.countP_mono_left fun a _ ha => by
      simp only [decide_eq_true_eq] at ha ⊢; exact lt_of_le_of_lt ha hlt
    omega

theorem kth_counts {l : List R} {k : ℕ} {v : R} (h : kth l k = some v) : l.countP (· < v) ≤ k ∧ k < l.countP (· ≤ v) := by
  obtain ⟨hl, rfl⟩ := List.getElem?_eq_some_iff.1 h
  have hc := sorted_counts (npSort_sorted l) hl
  rwa [(npSort_perm l).countP_eq, (npSort_perm l).countP_eq] at hc

/-! ### The search -/

section
variable (A B : ℕ → R) (Amin Amax L : ℕ)

/-- `A[a] ≤ B[b]`, where `A` is padded by minus and plus infinity outside `Amin .. Amax`. -/
def LeAB (a b : ℕ) : Prop := a < Amin ∨ (a ≤ Amax ∧ A a ≤ B b)
/-- `B[b] ≤ A[a]`. -/
def LeBA (b a : ℕ) : Prop := a > Amax ∨ (Amin ≤ a ∧ B b ≤ A a)

/-- The invariant of the loop. -/
structure Inv (lA rA lB rB : ℕ) : Prop where
  lA1 : 1 ≤ lA
  lB1 : 1 ≤ lB
  le : lA ≤ rA
  len : rA + lB = rB + lA
  tot : lA + rB = L + 1
  rAL : rA ≤ L
  rBL : rB ≤ L
  ab : 1 < lA → LeAB A B Amin Amax (lA - 1) rB
  ba : 1 < lB → LeBA A B Amin Amax (lB - 1) rA

variable {A B Amin Amax L}

theorem LeAB.mono (hA : ∀ s t, Amin ≤ s → s ≤ t → t ≤ Amax → A s ≤ A t) {a a' b : ℕ} (h : LeAB A B Amin Amax a b) (ha : a' ≤ a) :
    LeAB A B Amin Amax a' b := by
  rcases h with h | ⟨h1, h2⟩
  · exact Or.inl (by omega)
  · by_cases h3 : a' < Amin
    · exact Or.inl h3
    · exact Or.inr ⟨by omega, (hA _ _ (by omega) ha h1).trans h2⟩

theorem LeBA.mono (hB : ∀ s t, 1 ≤ s → s ≤ t → t ≤ L → B s ≤ B t) {a b b' : ℕ} (h : LeBA A B Amin Amax b a) (h1 : 1 ≤ b') (hb : b' ≤ b) (hL : b ≤ L) :
    LeBA A B Amin Amax b' a := by
  rcases h with h | ⟨h2, h3⟩
  · exact Or.inl h
  · exact Or.inr ⟨h2, (hB _ _ h1 hb hL).trans h3⟩

theorem Inv.left (hA : ∀ s t, Amin ≤ s → s ≤ t → t ≤ Amax → A s ≤ A t) {lA rA lB rB h p : ℕ} (I : Inv A B Amin Amax L lA rA lB rB) (hlt : lA < rA)
    (hh : h = (rA - lA + 1 - 1) / 2) (hp : p = 1 - (rA - lA + 1) % 2) (hc : LeAB A B Amin Amax (lA + h) (lB + h)) :
    Inv A B Amin Amax L (lA + h + p) rA lB (lB + h) := by
  have := I.lA1; have := I.lB1; have := I.len; have := I.tot; have := I.rAL; have := I.rBL
  refine ⟨by omega, by omega, by omega, by omega, by omega, by omega, by omega, fun _ => ?_, I.ba⟩
  exact hc.mono hA (by omega)

theorem Inv.right (hB : ∀ s t, 1 ≤ s → s ≤ t → t ≤ L → B s ≤ B t) {lA rA lB rB h p : ℕ} (I : Inv A B Amin Amax L lA rA lB rB) (hlt : lA < rA)
    (hh : h = (rA - lA + 1 - 1) / 2) (hp : p = 1 - (rA - lA + 1) % 2) (hc : LeBA A B Amin Amax (lB + h) (lA + h)) :
    Inv A B Amin Amax L lA (lA + h) (lB + h + p) rB := by
  have := I.lA1; have := I.lB1; have := I.len; have := I.tot; have := I.rAL; have := I.rBL
  refine ⟨by omega, by omega, by omega, by omega, by omega, by omega, by omega, I.ab, fun h1 => ?_⟩
  exact hc.mono hB (by omega) (by omega) (by omega)

/-- The loop ends with both intervals of length one and the invariant. -/
theorem snLoop_ok {mA mB : ℕ → Option R} (hmA : ∀ t, Amin ≤ t → t ≤ Amax → mA t = some (A t)) (hmB : ∀ t, 1 ≤ t → t ≤ L → mB t = some (B t))
    (hA : ∀ s t, Amin ≤ s → s ≤ t → t ≤ Amax → A s ≤ A t) (hB : ∀ s t, 1 ≤ s → s ≤ t → t ≤ L → B s ≤ B t) (lA rA lB rB : ℕ)
    (I : Inv A B Amin Amax L lA rA lB rB) :
    ∃ a b, snLoop mA mB Amin Amax lA rA lB rB = some (a, b) ∧ Inv A B Amin Amax L a a b b := by
  induction hn : rA - lA using Nat.strong_induction_on generalizing lA rA lB rB with
  | _ n ih =>
  rw [snLoop]
  have h1 := I.lA1; have h2 := I.lB1; have h3 := I.len; have h4 := I.tot; have h5 := I.rAL; have h6 := I.rBL
  have h7 := I.le
  split_ifs with hlt c1 c2
  · exact ih _ (by omega) _ _ _ _ (I.left hA hlt rfl rfl (Or.inl c1)) rfl
  · exact ih _ (by omega) _ _ _ _ (I.right hB hlt rfl rfl (Or.inl c2)) rfl
  · rw [hmA _ (by omega) (by omega), hmB _ (by omega) (by omega)]
    dsimp only
    split_ifs with c3
    · exact ih _ (by omega) _ _ _ _ (I.right hB hlt rfl rfl (Or.inr ⟨by omega, c3⟩)) rfl
    · exact ih _ (by omega) _ _ _ _ (I.left hA hlt rfl rfl (Or.inr ⟨by omega, (not_le.1 c3).le⟩)) rfl
  · have e1 : lA = rA := by omega
    have e2 : lB = rB := by omega
    subst e1 e2
    exact ⟨lA, lB, rfl, I⟩

/-- What the body returns: a value that separates the two sorted sequences at the right rank. -/
theorem snBody_ok {mA mB : ℕ → ℕ → Option R} {nA nB : ℕ} (h1 : 1 ≤ nA) (hAB : nA ≤ nB) (P Q : ℕ → R)
    (hmA : ∀ t, 1 ≤ t → t ≤ nA → mA ((nB - nA) / 2 + 1) ((nB - nA) / 2 + t) = some (P t)) (hmB : ∀ t, 1 ≤ t → t ≤ nB → mB ((nB - nA) / 2 + 1) t = some (Q t))
    (hP : ∀ s t, 1 ≤ s → s ≤ t → t ≤ nA → P s ≤ P t) (hQ : ∀ s t, 1 ≤ s → s ≤ t → t ≤ nB → Q s ≤ Q t) :
    ∃ v a b, snBody mA mB nA nB = some v ∧ a ≤ nA ∧ b ≤ nB ∧ a + b + 1 = (nA + nB + 1) / 2 ∧
      (∀ t, 1 ≤ t → t ≤ a → P t ≤ v) ∧ (∀ t, 1 ≤ t → t ≤ b → Q t ≤ v) ∧ (∀ t, a < t → t ≤ nA → v ≤ P t) ∧ (∀ t, b < t → t ≤ nB → v ≤ Q t) ∧
      ((a < nA ∧ P (a + 1) = v) ∨ (b < nB ∧ Q (b + 1) = v)) := by
  let d := (nB - nA) / 2
  let A : ℕ → R := fun s => P (s - d)
  have hA : ∀ s t, d + 1 ≤ s → s ≤ t → t ≤ d + nA → A s ≤ A t := fun s t h1 h2 h3 => hP _ _ (by omega) (by omega) (by omega)
  obtain ⟨lA, lB, he, I⟩ := snLoop_ok (A := A) (B := Q) (Amin := d + 1) (Amax := d + nA) (L := nB) (mA := mA (d + 1)) (mB := mB (d + 1))
    (fun t h1 h2 => by have := hmA (t - d) (by omega) (by omega); rwa [show (nB - nA) / 2 + (t - d) = t by omega] at this)
    hmB hA hQ 1 nB 1 nB ⟨le_rfl, le_rfl, by omega, by omega, by omega, le_rfl, le_rfl, fun h => absurd h (lt_irrefl _), fun h => absurd h (lt_irrefl _)⟩
  have i1 := I.lA1; have i2 := I.lB1; have i4 := I.tot; have i5 := I.rAL; have i6 := I.rBL
  have hd : d = (nB - nA) / 2 := rfl
  simp only [snBody, ← hd, Option.bind_eq_bind, he, Option.bind_some]
  have hmin : d + 1 ≤ lA := by
    by_contra hlt
    rcases I.ba (by omega) with h | ⟨h, _⟩ <;> omega
  by_cases hmax : lA > d + nA
  · rw [if_pos hmax, hmB lB i2 (by omega)]
    have e : lA = d + nA + 1 := by
      rcases I.ab (by omega) with h | ⟨h, _⟩ <;> omega
    have hle : P nA ≤ Q lB := by
      rcases I.ab (by omega) with h | ⟨_, h⟩
      · omega
      · simpa only [A, show lA - 1 - d = nA by omega] using h
    refine ⟨Q lB, nA, lB - 1, rfl, le_rfl, by omega, by omega, fun t h1 h2 => (hP _ _ h1 h2 le_rfl).trans hle, fun t h1 h2 => hQ _ _ h1 (by omega) (by omega),
      fun t h1 h2 => by omega, fun t h1 h2 => hQ _ _ (by omega) (by omega) h2, Or.inr ⟨by omega, by rw [Nat.sub_add_cancel i2]⟩⟩
  · have ea := hmA (lA - d) (by omega) (by omega)
    rw [← hd, show d + (lA - d) = lA by omega] at ea
    rw [if_neg hmax, ea, hmB lB i2 (by omega)]
    simp only [Option.bind_some, Option.pure_def]
    have hab : d + 1 < lA → P (lA - d - 1) ≤ Q lB := fun hlt => by
      rcases I.ab (by omega) with h | ⟨_, h⟩
      · omega
      · simpa only [A, show lA - 1 - d = lA - d - 1 by omega] using h
    have hba : 1 < lB → Q (lB - 1) ≤ P (lA - d) := fun hlt => by
      rcases I.ba hlt with h | ⟨_, h⟩
      · omega
      · exact h
    refine ⟨_, lA - d - 1, lB - 1, rfl, by omega, by omega, by omega, fun t h1 h2 => le_min ?_ ?_, fun t h1 h2 => le_min ?_ ?_, fun t h1 h2 => ?_, fun t h1 h2 => ?_, ?_⟩
    · exact hP _ _ h1 (by omega) (by omega)
    · exact (hP _ _ h1 h2 (by omega)).trans (hab (by omega))
    · exact (hQ _ _ h1 h2 (by omega)).trans (hba (by omega))
    · exact hQ _ _ h1 (by omega) (by omega)
    · exact (min_le_left _ _).trans (hP _ _ (by omega) (by omega) h2)
    · exact (min_le_right _ _).trans (hQ _ _ (by omega) (by omega) h2)
    · rcases min_choice (P (lA - d)) (Q lB) with h | h
      · exact Or.inl ⟨by omega, by rw [h, show lA - d - 1 + 1 = lA - d by omega]⟩
      · exact Or.inr ⟨by omega, by rw [h, Nat.sub_add_cancel i2]⟩

/-- The value of `snBody_ok` is the order statistic of the distances from the point: `l` is, up to order, the zero self distance and
the two sequences. -/
theorem kth_of_split {nA nB : ℕ} {P Q : ℕ → R} {v : R} {a b : ℕ} {l : List R} (hl : l.Perm (0 :: ((List.range nA).map (fun t => P (t + 1)) ++ (List.range nB).map (fun t => Q (t + 1)))))
    (hP0 : ∀ t, 1 ≤ t → t ≤ nA → 0 ≤ P t) (hQ0 : ∀ t, 1 ≤ t → t ≤ nB → 0 ≤ Q t) (ha : a ≤ nA) (hb : b ≤ nB)
    (h1 : ∀ t, 1 ≤ t → t ≤ a → P t ≤ v) (h2 : ∀ t, 1 ≤ t → t ≤ b → Q t ≤ v) (h3 : ∀ t, a < t → t ≤ nA → v ≤ P t) (h4 : ∀ t, b < t → t ≤ nB → v ≤ Q t)
    (h5 : (a < nA ∧ P (a + 1) = v) ∨ (b < nB ∧ Q (b + 1) = v)) : kth l (a + b + 1) = some v := by
  have cnt : ∀ (N c : ℕ) (F : ℕ → R), c ≤ N → (∀ t, c < t → t ≤ N → v ≤ F t) → (((List.range N).map fun t => F (t + 1)).countP fun x => decide (x < v)) ≤ c := by
    intro N c F hc h
    rw [show N = c + (N - c) by omega, List.range_add, List.map_append, List.countP_append]
    have e1 := List.countP_le_length (p := fun x => decide (x < v)) (l := (List.range c).map fun t => F (t + 1))
    have e2 : ((((List.range (N - c)).map (c + ·)).map fun t => F (t + 1)).countP fun x => decide (x < v)) = 0 := by
      rw [List.countP_eq_zero]
      intro x hx
      simp only [List.mem_map, List.mem_range] at hx
      obtain ⟨_, ⟨s, hs, rfl⟩, rfl⟩ := hx
      simpa using h _ (by omega) (by omega)
    simp only [List.length_map, List.length_range] at e1
    omega
  have cnt2 : ∀ (N c : ℕ) (F : ℕ → R), c ≤ N → (∀ t, 1 ≤ t → t ≤ c → F t ≤ v) → c ≤ (((List.range N).map fun t => F (t + 1)).countP fun x => decide (x ≤ v)) := by
    intro N c F hc h
    rw [show N = c + (N - c) by omega, List.range_add, List.map_append, List.countP_append]
    have e2 : (((List.range c).map fun t => F (t + 1)).countP fun x => decide (x ≤ v)) = ((List.range c).map fun t => F (t + 1)).length := by
      rw [List.countP_eq_length]
      intro x hx
      simp only [List.mem_map, List.mem_range] at hx
      obtain ⟨s, hs, rfl⟩ := hx
      simpa using h _ (by omega) (by omega)
    simp only [List.length_map, List.length_range] at e2
    omega
  have hv : 0 ≤ v := by
    rcases h5 with ⟨h, e⟩ | ⟨h, e⟩
    · exact e ▸ hP0 _ (by omega) (by omega)
    · exact e ▸ hQ0 _ (by omega) (by omega)
  apply kth_eq
  · rw [hl.countP_eq, List.countP_cons, List.countP_append]
    have := cnt nA a P ha h3
    have := cnt nB b Q hb h4
    split_ifs <;> omega
  · rw [hl.countP_eq, List.countP_cons, List.countP_append, if_pos (by simpa using hv)]
    rcases h5 with ⟨h, e⟩ | ⟨h, e⟩
    · have := cnt2 nA (a + 1) P h fun t t1 t2 => by
        rcases Nat.lt_or_ge a t with h' | h'
        · rw [show t = a + 1 by omega, e]
        · exact h1 t t1 h'
      have := cnt2 nB b Q hb h2
      omega
    · have := cnt2 nB (b + 1) Q h fun t t1 t2 => by
        rcases Nat.lt_or_ge b t with h' | h'
        · rw [show t = b + 1 by omega, e]
        · exact h2 t t1 h'
      have := cnt2 nA a P ha h1
      omega

end

end Verif.Robust
