import Verif.Sem.Labels
import Verif.Sem.ShareProps

namespace Verif.Sem.Labels

/-! ### Specification -/

/-- What identifies a parameter: the words of its label. -/
def words (shared : ℕ → Bool) (r : LRow) : List (List Char) :=
  (if shared r.mat then [] else [natText r.group]) ++ (match r.mod with | some m => [m] | none => [r.lhs, r.rel, r.rhs])

/-- Two rows mean one parameter: both have the same text before `*`, or neither has one and the three names agree; and unless the matrix is shared
the groups agree. -/
def Same (shared : ℕ → Bool) (r s : LRow) : Prop :=
  shared r.mat = shared s.mat ∧ (shared r.mat = false → r.group = s.group) ∧ r.mod = s.mod ∧ (r.mod = none → r.lhs = s.lhs ∧ r.rel = s.rel ∧ r.rhs = s.rhs)

/-- Names without spaces. -/
def Plain (r : LRow) : Prop := ' ' ∉ r.lhs ∧ ' ' ∉ r.rel ∧ ' ' ∉ r.rhs ∧ ∀ m, r.mod = some m → ' ' ∉ m

/-! ### Words -/

theorem append_space_inj (u v a b : List Char) (hu : ' ' ∉ u) (hv : ' ' ∉ v) (h : u ++ ' ' :: a = v ++ ' ' :: b) : u = v ∧ a = b := by
  induction u generalizing v with
  | nil =>
    cases v with
    | nil => simpa using h
    | cons c v =>
      rw [List.nil_append, List.cons_append, List.cons.injEq] at h
      exact absurd (h.1 ▸ List.mem_cons_self) hv
  | cons d u ih =>
    cases v with
    | nil =>
      rw [List.nil_append, List.cons_append, List.cons.injEq] at h
      exact absurd (h.1 ▸ List.mem_cons_self) hu
    | cons c v =>
      rw [List.cons_append, List.cons_append, List.cons.injEq] at h
      obtain ⟨h1, h2⟩ := ih v (fun hh => hu (List.mem_cons_of_mem _ hh)) (fun hh => hv (List.mem_cons_of_mem _ hh)) h.2
      exact ⟨by rw [h.1, h1], h2⟩

theorem joinSp_inj (u v : List (List Char)) (hu0 : u ≠ []) (hv0 : v ≠ []) (hu : ∀ w ∈ u, ' ' ∉ w) (hv : ∀ w ∈ v, ' ' ∉ w) (h : joinSp u = joinSp v) :
    u = v := by
  induction u generalizing v with
  | nil => exact absurd rfl hu0
  | cons a u ih =>
    cases v with
    | nil => exact absurd rfl hv0
    | cons b v =>
      have ha := hu a List.mem_cons_self
      have hb := hv b List.mem_cons_self
      cases u with
      | nil =>
        cases v with
        | nil => rw [show a = b from h]
        | cons c v =>
          have h' : a = b ++ ' ' :: joinSp (c :: v) := h
          exact absurd (h' ▸ List.mem_append_right _ List.mem_cons_self) ha
      | cons d u =>
        cases v with
        | nil =>
          have h' : a ++ ' ' :: joinSp (d :: u) = b := h
          exact absurd (h' ▸ List.mem_append_right _ List.mem_cons_self) hb
        | cons c v =>
          obtain ⟨h1, h2⟩ := append_space_inj a b _ _ ha hb (h : a ++ ' ' :: joinSp (d :: u) = b ++ ' ' :: joinSp (c :: v))
          rw [h1, ih (c :: v) (by simp) (by simp) (fun w hw => hu w (List.mem_cons_of_mem _ hw)) (fun w hw => hv w (List.mem_cons_of_mem _ hw)) h2]

theorem digitChar_inj : ∀ a < 10, ∀ b < 10, Nat.digitChar a = Nat.digitChar b → a = b := by decide
theorem digitChar_space : ∀ a < 10, Nat.digitChar a ≠ ' ' := by decide
theorem digitChar_zero : ∀ a < 10, Nat.digitChar a = '0' → a = 0 := by decide

theorem natText_space (n : ℕ) : ' ' ∉ natText n := by
  rw [natText]
  split_ifs
  · decide
  · intro h
    obtain ⟨d, hd, e⟩ := List.mem_map.1 h
    exact digitChar_space d (Nat.digits_lt_base (by norm_num) (List.mem_reverse.1 hd)) e

theorem map_digit_inj (u v : List ℕ) (hu : ∀ d ∈ u, d < 10) (hv : ∀ d ∈ v, d < 10) (h : u.map Nat.digitChar = v.map Nat.digitChar) : u = v := by
  induction u generalizing v with
  | nil => cases v with
    | nil => rfl
    | cons => cases h
  | cons a u ih => cases v with
    | nil => cases h
    | cons b v =>
      rw [List.map_cons, List.map_cons, List.cons.injEq] at h
      rw [digitChar_inj a (hu a List.mem_cons_self) b (hv b List.mem_cons_self) h.1,
        ih v (fun d hd => hu d (List.mem_cons_of_mem _ hd)) (fun d hd => hv d (List.mem_cons_of_mem _ hd)) h.2]

theorem natText_zero (n : ℕ) (hn : n ≠ 0) : natText n ≠ ['0'] := by
  rw [natText, if_neg hn]
  intro h
  have h' : (Nat.digits 10 n).reverse.map Nat.digitChar = [0].map Nat.digitChar := h
  have := map_digit_inj _ _ (fun d hd => Nat.digits_lt_base (by norm_num) (List.mem_reverse.1 hd)) (by simp) h'
  have h2 : Nat.digits 10 n = [0] := by rw [← List.reverse_reverse (Nat.digits 10 n), this]; rfl
  have h3 := Nat.ofDigits_digits 10 n
  rw [h2] at h3
  exact hn (by simpa using h3.symm)

theorem natText_inj (n m : ℕ) (h : natText n = natText m) : n = m := by
  by_cases hn : n = 0
  · by_cases hm : m = 0
    · rw [hn, hm]
    · exact absurd (by rw [← h, hn]; rfl) (natText_zero m hm)
  · by_cases hm : m = 0
    · exact absurd (by rw [h, hm]; rfl) (natText_zero n hn)
    · rw [natText, if_neg hn, natText, if_neg hm] at h
      have := map_digit_inj _ _ (fun d hd => Nat.digits_lt_base (by norm_num) (List.mem_reverse.1 hd))
        (fun d hd => Nat.digits_lt_base (by norm_num) (List.mem_reverse.1 hd)) h
      exact Nat.digits_inj_iff.1 (List.reverse_injective this)

/-! ### The loop -/

theorem zipWith_map_self {α β γ : Type} (f : α → β → γ) (g : α → β) (l : List α) : List.zipWith f l (l.map g) = l.map fun a => f a (g a) := by
  induction l with
  | nil => rfl
  | cons a l ih => rw [List.map_cons, List.zipWith_cons_cons, ih, List.map_cons]

theorem labelCol_loop (shared : ℕ → Bool) (rows : List LRow) (l : List ℕ) (g : LRow → Option (List Char)) :
    l.foldl (fun col i => List.zipWith (stepLabel shared i) rows col) (rows.map g) =
      rows.map fun r => l.foldl (fun lab i => stepLabel shared i r lab) (g r) := by
  induction l generalizing g with
  | nil => rfl
  | cons i l ih => rw [List.foldl_cons, zipWith_map_self, ih]; rfl

theorem joinSp_cons2 (w : List Char) (l : List (List Char)) (h : l ≠ []) : joinSp (w :: l) = w ++ ' ' :: joinSp l := by
  cases l with
  | nil => exact absurd rfl h
  | cons => rfl

theorem step_own (shared : ℕ → Bool) (r : LRow) : stepLabel shared r.mat r r.mod = some (joinSp (words shared r)) := by
  rw [stepLabel, if_pos rfl, words]
  cases hs : shared r.mat <;> cases hm : r.mod <;> simp [joinSp]

theorem step_other (shared : ℕ → Bool) (r : LRow) (l : List ℕ) (h : r.mat ∉ l) (lab : Option (List Char)) :
    l.foldl (fun lab i => stepLabel shared i r lab) lab = lab := by
  induction l with
  | nil => rfl
  | cons i l ih =>
    rw [List.foldl_cons, show stepLabel shared i r lab = lab from if_neg fun (e : r.mat = i) => h (e ▸ List.mem_cons_self), ih fun hh => h (List.mem_cons_of_mem _ hh)]

theorem step_all (shared : ℕ → Bool) (r : LRow) (l : List ℕ) (hl : l.Nodup) (h : r.mat ∈ l) :
    l.foldl (fun lab i => stepLabel shared i r lab) r.mod = some (joinSp (words shared r)) := by
  induction l with
  | nil => cases h
  | cons i l ih =>
    rw [List.nodup_cons] at hl
    rw [List.foldl_cons]
    by_cases e : r.mat = i
    · rw [← e, step_own, step_other shared r l (e ▸ hl.1)]
    · rw [show stepLabel shared i r r.mod = r.mod from if_neg e]
      exact ih hl.2 ((List.mem_cons.1 h).resolve_left e)

/-- **C249** Every row of the six matrices gets the label made of its words, once. -/
theorem C249_label (shared : ℕ → Bool) (rows : List LRow) (hm : ∀ r ∈ rows, r.mat < 6) :
    labelCol shared rows = rows.map fun r => some (joinSp (words shared r)) := by
  rw [labelCol, labelCol_loop]
  exact List.map_congr_left fun r hr => step_all shared r _ List.nodup_range (List.mem_range.2 (hm r hr))

theorem words_ne (shared : ℕ → Bool) (r : LRow) : words shared r ≠ [] := by
  rw [words]
  cases r.mod <;> simp

theorem words_plain (shared : ℕ → Bool) (r : LRow) (h : Plain r) : ∀ w ∈ words shared r, ' ' ∉ w := by
  obtain ⟨h1, h2, h3, h4⟩ := h
  intro w hw
  rcases List.mem_append.1 hw with hw | hw
  · split_ifs at hw
    · cases hw
    · rw [List.mem_singleton.1 hw]; exact natText_space _
  · cases hm : r.mod with
    | some m =>
      rw [hm] at hw
      rw [List.mem_singleton.1 hw]
      exact h4 m hm
    | none =>
      rw [hm] at hw
      rcases List.mem_cons.1 hw with rfl | hw
      · exact h1
      · rcases List.mem_cons.1 hw with rfl | hw
        · exact h2
        · rw [List.mem_singleton.1 hw]; exact h3

theorem words_iff (shared : ℕ → Bool) (r s : LRow) : words shared r = words shared s ↔ Same shared r s := by
  constructor
  · intro h
    have hl := congrArg List.length h
    rw [Same]
    unfold words at h hl
    cases h1 : shared r.mat <;> cases h2 : shared s.mat <;> cases h3 : r.mod <;> cases h4 : s.mod <;> rw [h1, h2, h3, h4] at h hl <;> simp at h hl ⊢
    · exact ⟨natText_inj _ _ h.1, h.2⟩
    · exact ⟨natText_inj _ _ h.1, h.2⟩
    · exact h
    · exact h
  · rintro ⟨h1, h2, h3, h4⟩
    unfold words
    rw [h1, h3]
    cases hs : shared s.mat with
    | false =>
      rw [h2 (h1.trans hs)]
      cases hm : s.mod with
      | some m => rfl
      | none => obtain ⟨a, b, c⟩ := h4 (h3.trans hm); rw [a, b, c]
    | true =>
      cases hm : s.mod with
      | some m => rfl
      | none => obtain ⟨a, b, c⟩ := h4 (h3.trans hm); rw [a, b, c]; rfl

theorem labelTexts_eq (shared : ℕ → Bool) (rows : List LRow) (hm : ∀ r ∈ rows, r.mat < 6) :
    labelTexts shared rows = rows.map fun r => joinSp (words shared r) := by
  rw [labelTexts, C249_label shared rows hm, List.map_map]; rfl

theorem thetaIndex_inj {α : Type} [LinearOrder α] [Inhabited α] (l : List α) (i j : ℕ) (hi : i < l.length) (hj : j < l.length) :
    thetaIndex l i = thetaIndex l j ↔ l[i] = l[j] := by
  rw [thetaIndex_eq _ _ hi, thetaIndex_eq _ _ hj, List.idxOf_inj (List.getElem_mem hi)]

/-- **C249** Two free rows read one parameter exactly when they are the same in the sense of the specification. -/
theorem C249_theta_partial (shared : ℕ → Bool) (rows : List LRow) (hm : ∀ r ∈ rows, r.mat < 6) (hp : ∀ r ∈ rows, Plain r) (i j : ℕ) (hi : i < rows.length)
    (hj : j < rows.length) : thetaIndex (labelTexts shared rows) i = thetaIndex (labelTexts shared rows) j ↔ Same shared rows[i] rows[j] := by
  have he := labelTexts_eq shared rows hm
  have hli : i < (labelTexts shared rows).length := by rw [he, List.length_map]; exact hi
  have hlj : j < (labelTexts shared rows).length := by rw [he, List.length_map]; exact hj
  have gi : (labelTexts shared rows)[i] = joinSp (words shared rows[i]) := by simp only [he, List.getElem_map]
  have gj : (labelTexts shared rows)[j] = joinSp (words shared rows[j]) := by simp only [he, List.getElem_map]
  rw [thetaIndex_inj _ _ _ hli hlj, gi, gj, ← words_iff]
  exact ⟨joinSp_inj _ _ (words_ne _ _) (words_ne _ _) (words_plain _ _ (hp _ (List.getElem_mem hi))) (words_plain _ _ (hp _ (List.getElem_mem hj))),
    fun h => by rw [h]⟩

/-- **C249** With every matrix shared, a label of the formula ties all rows that carry it, in every matrix and group. -/
theorem C249_shared (rows : List LRow) (hm : ∀ r ∈ rows, r.mat < 6) (hp : ∀ r ∈ rows, Plain r) (i j : ℕ) (hi : i < rows.length) (hj : j < rows.length)
    (m : List Char) (h : rows[i].mod = some m) :
    thetaIndex (labelTexts (fun _ => true) rows) i = thetaIndex (labelTexts (fun _ => true) rows) j ↔ rows[j].mod = some m := by
  rw [C249_theta_partial _ rows hm hp i j hi hj, Same]
  constructor
  · rintro ⟨-, -, h3, -⟩
    rw [← h3, h]
  · intro hj'
    refine ⟨rfl, ?_, by rw [h, hj'], ?_⟩
    · intro hh
      cases hh
    · intro hh
      rw [h] at hh
      cases hh

/-- **C249** Otherwise it does not: a label on a shared loading and on a regression that is not shared gives two parameters, even in one group. -/
theorem C249_tie_violated :
    ∃ (shared : ℕ → Bool) (rows : List LRow), (∀ r ∈ rows, r.mat < 6 ∧ Plain r ∧ r.mod = some ['a'] ∧ r.group = 0) ∧ rows.length = 2 ∧
      thetaIndex (labelTexts shared rows) 0 ≠ thetaIndex (labelTexts shared rows) 1 := by
  have hr : ∀ r ∈ [(⟨some ['a'], 0, 0, ['f'], ['=', '~'], ['x']⟩ : LRow), ⟨some ['a'], 1, 0, ['f'], ['~'], ['g']⟩],
      r.mat < 6 ∧ Plain r ∧ r.mod = some ['a'] ∧ r.group = 0 := by
    intro r hr
    rcases List.mem_cons.1 hr with rfl | hr
    · refine ⟨by norm_num, ⟨by simp, by simp, by simp, ?_⟩, rfl, rfl⟩
      rintro m h; injection h with h; subst h; simp
    · rw [List.mem_singleton.1 hr]
      refine ⟨by norm_num, ⟨by simp, by simp, by simp, ?_⟩, rfl, rfl⟩
      rintro m h; injection h with h; subst h; simp
  refine ⟨fun i => decide (i = 0), _, hr, rfl, ?_⟩
  intro h
  have := ((C249_theta_partial _ _ (fun r h => (hr r h).1) (fun r h => (hr r h).2.1) 0 1 (by simp) (by simp)).1 h).1
  simp at this

/-- **C249** A label with spaces can be the text of another row: the two are then one parameter. -/
theorem C249_space_violated :
    ∃ rows : List LRow, rows.length = 2 ∧ (∀ r ∈ rows, r.mat < 6) ∧ labelTexts (fun _ => true) rows = [['x', ' ', '~', ' ', 'y'], ['x', ' ', '~', ' ', 'y']] ∧
      ∃ r ∈ rows, ∃ s ∈ rows, ¬ Same (fun _ => true) r s := by
  refine ⟨[⟨none, 1, 0, ['x'], ['~'], ['y']⟩, ⟨some ['x', ' ', '~', ' ', 'y'], 1, 0, ['x'], ['~'], ['z']⟩], rfl, by simp, by decide,
    _, List.mem_cons_self, _, List.mem_cons_of_mem _ List.mem_cons_self, ?_⟩
  rintro ⟨-, -, h, -⟩
  cases h

end Verif.Sem.Labels
