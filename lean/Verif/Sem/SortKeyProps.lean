import Verif.Sem.SortKey
import Mathlib.Data.Nat.Digits.Defs
import Mathlib.Data.Nat.Digits.Lemmas
import Mathlib.Tactic

/-!
# C233: the order of the variables is well defined and natural
-/

namespace Verif.Sem

/-- A name of letters followed by a number without leading zeros. -/
structure PlainName (s a d : List ℕ) : Prop where
  eq : s = a ++ d
  ha : ∀ c ∈ a, isLetter c
  hd : ∀ c ∈ d, isDig c
  a0 : a ≠ []
  d0 : d ≠ []
  lead : d.head? ≠ some 48

theorem dig_not_letter {c : ℕ} (h : isDig c) : isLetter c = false := by
  simp only [isDig, Bool.and_eq_true, decide_eq_true_eq] at h
  simp only [isLetter, Bool.or_eq_false_iff, Bool.and_eq_false_iff, decide_eq_false_iff_not]
  omega

theorem sortKey_append {a d r : List ℕ} (ha : ∀ c ∈ a, isLetter c) (hd : ∀ c ∈ d, isDig c) (a0 : a ≠ []) (d0 : d ≠ [])
    (hr : ∀ c ∈ r.head?, isDig c = false) : sortKey (a ++ (d ++ r)) = (a, toNum d) := by
  obtain ⟨c, d', rfl⟩ := List.exists_cons_of_ne_nil d0
  have h1 : (a ++ (c :: d' ++ r)).takeWhile isLetter = a := by
    rw [List.takeWhile_append_of_pos ha]
    simp [dig_not_letter (hd c (by simp))]
  have h2 : (a ++ (c :: d' ++ r)).dropWhile isLetter = c :: d' ++ r := by
    rw [List.dropWhile_append_of_pos ha]
    simp [dig_not_letter (hd c (by simp))]
  have h3 : (c :: d' ++ r).takeWhile isDig = c :: d' := by
    rw [List.takeWhile_append_of_pos hd]
    cases r with
    | nil => simp
    | cons x r => simp [hr x (by simp)]
  simp only [sortKey, h1, h2, h3]
  rw [if_pos ⟨a0, d0⟩]

/-- **C233** the key of a plain name is its letters and its number. -/
theorem C233_key {s a d : List ℕ} (h : PlainName s a d) : sortKey s = (a, toNum d) := by
  have := sortKey_append (r := []) h.ha h.hd h.a0 h.d0 (by simp)
  rwa [List.append_nil, ← h.eq] at this

theorem toNum_ofDigits (d : List ℕ) : toNum d = Nat.ofDigits 10 (d.map (· - 48)).reverse := by
  induction d using List.reverseRecOn with
  | nil => rfl
  | append_singleton d c ih =>
    rw [toNum, List.foldl_append, ← toNum, ih, List.map_append, List.reverse_append]
    simp only [List.foldl_cons, List.foldl_nil, List.map_cons, List.map_nil, List.reverse_singleton, List.singleton_append, Nat.ofDigits_cons]
    ring

theorem toNum_inj {d d' : List ℕ} (hd : ∀ c ∈ d, isDig c) (hd' : ∀ c ∈ d', isDig c) (l : d.head? ≠ some 48) (l' : d'.head? ≠ some 48)
    (h : toNum d = toNum d') : d = d' := by
  have key : ∀ d : List ℕ, (∀ c ∈ d, isDig c) → d.head? ≠ some 48 → Nat.digits 10 (toNum d) = (d.map (· - 48)).reverse := by
    intro d hd l
    rw [toNum_ofDigits]
    refine Nat.digits_ofDigits 10 (by norm_num) _ ?_ ?_
    · intro x hx
      simp only [List.mem_reverse, List.mem_map] at hx
      obtain ⟨c, hc, rfl⟩ := hx
      have := hd c hc
      simp only [isDig, Bool.and_eq_true, decide_eq_true_eq] at this
      omega
    · intro hne
      cases d with
      | nil => exact absurd rfl hne
      | cons c d =>
        simp only [List.map_cons, List.reverse_cons, List.getLast_append_singleton]
        have := hd c (by simp)
        simp only [isDig, Bool.and_eq_true, decide_eq_true_eq] at this
        have h2 : c ≠ 48 := fun h => l (by simp [h])
        omega
  have h1 := key d hd l
  rw [h, key d' hd' l'] at h1
  have h2 := List.reverse_injective h1
  have h3 : ∀ d : List ℕ, (∀ c ∈ d, isDig c) → (d.map (· - 48)).map (· + 48) = d := by
    intro d hd
    rw [List.map_map]
    conv_rhs => rw [← List.map_id d]
    refine List.map_congr_left fun c hc => ?_
    have := hd c hc
    simp only [isDig, Bool.and_eq_true, decide_eq_true_eq] at this
    simp only [Function.comp, id]; omega
  rw [← h3 d hd, ← h3 d' hd', h2]

/-- **C233** plain names have different keys. -/
theorem C233_key_injective {s t a d b e : List ℕ} (hs : PlainName s a d) (ht : PlainName t b e) (h : sortKey s = sortKey t) : s = t := by
  rw [C233_key hs, C233_key ht, Prod.mk.injEq] at h
  rw [hs.eq, ht.eq, h.1, toNum_inj hs.hd ht.hd hs.lead ht.lead h.2]

/-- **C233** with the same letters they are in order of their numbers: `x2` before `x10`. -/
theorem C233_numeric {s t a d e : List ℕ} (hs : PlainName s a d) (ht : PlainName t a e) : keyLe s t ↔ toNum d ≤ toNum e := by
  rw [keyLe, C233_key hs, C233_key ht, Prod.Lex.toLex_le_toLex]
  simp

/-- **C233** with different letters they are in alphabetical order. -/
theorem C233_alphabetic {s t a d b e : List ℕ} (hs : PlainName s a d) (ht : PlainName t b e) (hab : a ≠ b) : keyLe s t ↔ a < b := by
  rw [keyLe, C233_key hs, C233_key ht, Prod.Lex.toLex_le_toLex]
  simp [hab]

instance : Std.Total keyLe := ⟨fun s t => le_total (toLex (sortKey s)) (toLex (sortKey t))⟩
instance : IsTrans (List ℕ) keyLe := ⟨fun _ _ _ h h' => le_trans (α := List ℕ ×ₗ ℕ) h h'⟩

/-- **C233** the result is a rearrangement of the names in order of their keys. -/
theorem C233_sorted (names : List (List ℕ)) : (sortNames names).Perm names ∧ (sortNames names).Pairwise keyLe :=
  ⟨List.perm_insertionSort _ _, List.pairwise_insertionSort _ _⟩

theorem sorted_perm_eq : ∀ l l' : List (List ℕ), l.Perm l' → (∀ s ∈ l, ∀ t ∈ l, sortKey s = sortKey t → s = t) → l.Pairwise keyLe → l'.Pairwise keyLe → l = l' := by
  intro l l' hp hinj h h'
  refine hp.eq_of_pairwise ?_ h h'
  intro a b ha hb hab hba
  exact hinj a ha b (hp.symm.subset hb) (toLex.injective (le_antisymm hab hba))

/-- **C233** if the names have different keys the order does not depend on how the set is run through … -/
theorem C233_order_partial {l l' : List (List ℕ)} (hp : l.Perm l') (hinj : ∀ s ∈ l, ∀ t ∈ l, sortKey s = sortKey t → s = t) :
    sortNames l = sortNames l' := by
  refine sorted_perm_eq _ _ (((C233_sorted l).1.trans hp).trans (C233_sorted l').1.symm) ?_ (C233_sorted l).2 (C233_sorted l').2
  intro s hs t ht
  exact hinj s ((C233_sorted l).1.subset hs) t ((C233_sorted l).1.subset ht)

/-- … in particular for plain names. -/
theorem C233_plain {l l' : List (List ℕ)} (hp : l.Perm l') (h : ∀ s ∈ l, ∃ a d, PlainName s a d) : sortNames l = sortNames l' := by
  refine C233_order_partial hp fun s hs t ht e => ?_
  obtain ⟨a, d, h1⟩ := h s hs
  obtain ⟨b, e', h2⟩ := h t ht
  exact C233_key_injective h1 h2 e

/-- **C233** two names with the same key keep the order in which they come: that of a set of strings, which differs from run to run. -/
theorem C233_order_violated {s t : List ℕ} (hne : s ≠ t) (h : sortKey s = sortKey t) :
    [s, t].Perm [t, s] ∧ sortNames [s, t] ≠ sortNames [t, s] := by
  refine ⟨List.Perm.swap _ _ _, ?_⟩
  have h1 : keyLe s t := by rw [keyLe, h]
  have h2 : keyLe t s := by rw [keyLe, h]
  simp only [sortNames, List.insertionSort_cons, List.insertionSort_nil, List.orderedInsert_nil, List.orderedInsert_cons, if_pos h1, if_pos h2]
  intro e
  exact hne (List.cons.inj e).1

/-- Whatever follows the number is not part of the key: `x1a` and `x1b`. -/
theorem C233_suffix {a d r r' : List ℕ} (ha : ∀ c ∈ a, isLetter c) (hd : ∀ c ∈ d, isDig c) (a0 : a ≠ []) (d0 : d ≠ [])
    (hr : ∀ c ∈ r.head?, isDig c = false) (hr' : ∀ c ∈ r'.head?, isDig c = false) (hne : r ≠ r') :
    sortNames [a ++ (d ++ r), a ++ (d ++ r')] ≠ sortNames [a ++ (d ++ r'), a ++ (d ++ r)] :=
  (C233_order_violated (fun e => hne (List.append_cancel_left (List.append_cancel_left e)))
    ((sortKey_append ha hd a0 d0 hr).trans (sortKey_append ha hd a0 d0 hr').symm)).2

/-- `x1a`, `x1b`; `x`, `x0`; `x1`, `x01`. -/
example : sortKey [120, 49, 97] = sortKey [120, 49, 98] ∧ sortKey [120] = sortKey [120, 48] ∧ sortKey [120, 49] = sortKey [120, 48, 49] := by decide

/-- **C233** an underscore before the number loses the natural order: `x_10` comes before `x_2`. -/
theorem C233_natural_violated : sortNames [[120, 95, 50], [120, 95, 49, 48]] = [[120, 95, 49, 48], [120, 95, 50]] := by decide +kernel

example : PlainName [120, 49, 48] [120] [49, 48] := ⟨rfl, by decide, by decide, by decide, by decide, by decide⟩

end Verif.Sem
