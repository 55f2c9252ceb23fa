import Verif.Sem.OldTable
import Mathlib.Tactic.Linarith
import Mathlib.Data.Real.Basic
import Mathlib.Data.List.Basic
import Mathlib.Tactic.NormNum

namespace Verif.Sem.OldTable

/-! ### Numbers -/

theorem own_mono (t : List Row) (i j : ℕ) (hj : counted t j = true) (hij : i < j) (hi : counted t i = true) : ownNumber t i < ownNumber t j := by
  rw [ownNumber, if_pos hi, ownNumber, if_pos hj]
  have h1 : ((List.range (j + 1)).filter (counted t)).length = ((List.range j).filter (counted t)).length + 1 := by
    rw [List.range_succ, List.filter_append, List.length_append]
    simp [hj]
  rw [h1]
  have : (List.range (i + 1)).Sublist (List.range j) := List.range_sublist.2 hij
  have := (this.filter (counted t)).length_le
  omega

theorem own_inj (t : List Row) (i j : ℕ) (hi : counted t i = true) (hj : counted t j = true) (h : ownNumber t i = ownNumber t j) : i = j := by
  rcases Nat.lt_trichotomy i j with e | e | e
  · exact absurd h (own_mono t i j hj e hi).ne
  · exact e
  · exact absurd h.symm (own_mono t j i hi e hj).ne

theorem firstLabel_spec (t : List Row) (l : String) (i : ℕ) (r : Row) (hr : t[i]? = some r) (hl : r.label = some l) :
    ∃ s, t[firstLabel t l]? = some s ∧ s.label = some l := by
  have hmem : r ∈ t := List.mem_of_getElem? hr
  have hlt : firstLabel t l < t.length := List.findIdx_lt_length_of_exists ⟨r, hmem, by simpa using hl⟩
  refine ⟨t[firstLabel t l], List.getElem?_eq_getElem hlt, ?_⟩
  have := List.findIdx_getElem (w := hlt)
  exact of_decide_eq_true this

/-- The row a row takes its number from. -/
def leader (t : List Row) (i : ℕ) : ℕ :=
  match t[i]? with
  | none => i
  | some r => match r.label with
    | none => i
    | some l => firstLabel t l

theorem leader_counted (t : List Row) (hfix : ∀ r ∈ t, r.label ≠ none → r.fixed = false) (i : ℕ) (r : Row) (hr : t[i]? = some r) (hf : r.fixed = false) :
    counted t (leader t i) = true ∧ freeNumber t i = ownNumber t (leader t i) := by
  cases hl : r.label with
  | none => simp [leader, freeNumber, counted, hr, hl, hf]
  | some l =>
    obtain ⟨s, hs, hsl⟩ := firstLabel_spec t l i r hr hl
    have hsf := hfix s (List.mem_of_getElem? hs) (by rw [hsl]; simp)
    simp [leader, freeNumber, counted, hr, hl, hs, hsl, hsf]

/-- **C247** When no labelled row is fixed, two free rows have the same number exactly when they are the same row or carry the same label; the numbers
are positive, and fixed rows without a label have none. -/
theorem C247_number_partial (t : List Row) (hfix : ∀ r ∈ t, r.label ≠ none → r.fixed = false) (i j : ℕ) (r s : Row) (hr : t[i]? = some r)
    (hs : t[j]? = some s) (hf : r.fixed = false) :
    0 < freeNumber t i ∧ (s.fixed = true → freeNumber t j = 0) ∧
      (s.fixed = false → (freeNumber t i = freeNumber t j ↔ i = j ∨ (r.label ≠ none ∧ r.label = s.label))) := by
  obtain ⟨c1, e1⟩ := leader_counted t hfix i r hr hf
  refine ⟨?_, ?_, ?_⟩
  · rw [e1, ownNumber, if_pos c1]
    refine List.length_pos_of_mem (a := leader t i) (List.mem_filter.2 ⟨List.mem_range.2 (by omega), c1⟩)
  · intro h
    have hl : s.label = none := by
      by_contra hne
      rw [hfix s (List.mem_of_getElem? hs) hne] at h
      cases h
    simp [freeNumber, hs, hl, ownNumber, counted, h]
  · intro h
    obtain ⟨c2, e2⟩ := leader_counted t hfix j s hs h
    rw [e1, e2]
    constructor
    · intro e
      have hlead := own_inj t _ _ c1 c2 e
      cases hl : r.label with
      | none =>
        left
        cases hm : s.label with
        | none => simpa [leader, hr, hs, hl, hm] using hlead
        | some m =>
          obtain ⟨u, hu, hul⟩ := firstLabel_spec t m j s hs hm
          have : i = firstLabel t m := by simpa [leader, hr, hs, hl, hm] using hlead
          rw [← this, hr] at hu
          cases hu
          rw [hl] at hul
          cases hul
      | some l =>
        right
        refine ⟨by simp, ?_⟩
        obtain ⟨u, hu, hul⟩ := firstLabel_spec t l i r hr hl
        cases hm : s.label with
        | none =>
          have : firstLabel t l = j := by simpa [leader, hr, hs, hl, hm] using hlead
          rw [this, hs] at hu
          cases hu
          rw [hm] at hul
          cases hul
        | some m =>
          obtain ⟨u', hu', hul'⟩ := firstLabel_spec t m j s hs hm
          have : firstLabel t l = firstLabel t m := by simpa [leader, hr, hs, hl, hm] using hlead
          rw [this, hu'] at hu
          cases hu
          rw [hul] at hul'
          exact hul'
    · rintro (rfl | ⟨hne, e⟩)
      · rfl
      · have : leader t i = leader t j := by
          cases hl : r.label with
          | none => exact absurd hl hne
          | some l =>
            rw [hl] at e
            simp [leader, hr, hs, hl, ← e]
        rw [this]

/-- **C247** The numbers are `1, …, n` without gaps, `n` the number of rows with a number of their own. -/
theorem C247_numbers_range (t : List Row) (hfix : ∀ r ∈ t, r.label ≠ none → r.fixed = false) :
    ∀ k, (∃ i r, t[i]? = some r ∧ r.fixed = false ∧ freeNumber t i = k) ↔ 0 < k ∧ k ≤ ((List.range t.length).filter (counted t)).length := by
  have hstep : ∀ n k, 0 < k → k ≤ ((List.range n).filter (counted t)).length → ∃ i < n, counted t i = true ∧ ownNumber t i = k := by
    intro n
    induction n with
    | zero => intro k h0 h; simp at h; omega
    | succ n ih =>
      intro k h0 h
      rcases Nat.lt_or_ge ((List.range n).filter (counted t)).length k with hk | hk
      · have hc : counted t n = true := by
          by_contra hc
          rw [List.range_succ, List.filter_append, List.length_append] at h
          simp [hc] at h
          omega
        refine ⟨n, by omega, hc, ?_⟩
        rw [ownNumber, if_pos hc]
        have : ((List.range (n + 1)).filter (counted t)).length = ((List.range n).filter (counted t)).length + 1 := by
          rw [List.range_succ, List.filter_append, List.length_append]; simp [hc]
        omega
      · obtain ⟨i, hi, h1, h2⟩ := ih k h0 hk
        exact ⟨i, by omega, h1, h2⟩
  intro k
  constructor
  · rintro ⟨i, r, hr, hf, rfl⟩
    obtain ⟨c, e⟩ := leader_counted t hfix i r hr hf
    refine ⟨(C247_number_partial t hfix i i r r hr hr hf).1, ?_⟩
    rw [e, ownNumber, if_pos c]
    have hlt : leader t i < t.length := by
      by_contra h
      rw [counted, List.getElem?_eq_none (by omega)] at c
      cases c
    exact ((List.range_sublist.2 (by omega : leader t i + 1 ≤ t.length)).filter (counted t)).length_le
  · rintro ⟨h0, h⟩
    obtain ⟨i, hi, hc, e⟩ := hstep t.length k h0 h
    have hr : t[i]? = some t[i] := List.getElem?_eq_getElem hi
    refine ⟨i, t[i], hr, ?_, ?_⟩
    · rw [counted, hr] at hc
      simp only [Bool.and_eq_true, Bool.not_eq_true'] at hc
      exact hc.1
    · rw [← e, freeNumber, hr]
      simp only
      cases hl : t[i].label with
      | none => rfl
      | some l =>
        rw [counted, hr] at hc
        simp only [hl, Bool.and_eq_true, decide_eq_true_eq] at hc
        simp only [hc.2]

/-- **C247** Two loadings with the same label: the first is fixed to set the scale, and the second, which is not fixed, gets the number zero: it
is not estimated and not one. -/
theorem C247_label_violated :
    let t := fixFirst [⟨"f", "=~", "x1", some "a", false, none⟩, ⟨"f", "=~", "x2", some "a", false, none⟩]
    t = [⟨"f", "=~", "x1", some "a", true, some 1⟩, ⟨"f", "=~", "x2", some "a", false, none⟩] ∧ freeNumber t 1 = 0 := by
  decide +kernel

/-! ### Cells -/

/-- **C247** Every kind of row goes to its cell: loadings of observed indicators to `L`, of variables of the structural part to `B`, regressions to
`B`, covariances within the structural part to `F`, of indicators to `P`, means to `b` or `a`. -/
theorem C247_cell_partial (ext o : List String) (r : Row) (hone : "1" ∉ ext ∧ "1" ∉ o) :
    (r.rel = "=~" → r.rhs ∉ ext → r.rhs ∈ o → r.lhs ∈ ext → cell ext o r = some (0, some (o.idxOf r.rhs), some (ext.idxOf r.lhs))) ∧
      (r.rel = "=~" → r.rhs ∈ ext → r.lhs ∈ ext → cell ext o r = some (1, some (ext.idxOf r.rhs), some (ext.idxOf r.lhs))) ∧
      (r.rel = "~" → r.rhs ∈ ext → r.lhs ∈ ext → cell ext o r = some (1, some (ext.idxOf r.lhs), some (ext.idxOf r.rhs))) ∧
      (r.rel = "~~" → r.rhs ∈ ext → r.lhs ∈ ext → cell ext o r = some (2, some (ext.idxOf r.lhs), some (ext.idxOf r.rhs))) ∧
      (r.rel = "~~" → r.rhs ∈ o → r.lhs ∈ o → r.lhs ∉ ext → cell ext o r = some (3, some (o.idxOf r.lhs), some (o.idxOf r.rhs))) ∧
      (r.rel = "~" → r.rhs = "1" → r.lhs ∈ ext → cell ext o r = some (5, some 0, some (ext.idxOf r.lhs))) ∧
      (r.rel = "~" → r.rhs = "1" → r.lhs ∈ o → r.lhs ∉ ext → cell ext o r = some (4, some 0, some (o.idxOf r.lhs))) := by
  have h0 : place ["0"] "0" = some 0 := by decide
  have hne : ∀ l : List String, "1" ∉ l → ∀ x ∈ l, x ≠ "1" := fun l h x hx e => h (e ▸ hx)
  refine ⟨?_, ?_, ?_, ?_, ?_, ?_, ?_⟩
  · intro a b c d
    simp [cell, matOf, cellOf, place, a, b, c, d]
  · intro a b c
    by_cases hb : r.rhs ∈ o <;> simp [cell, matOf, cellOf, place, a, b, c, hb]
  · intro a b c
    simp [cell, matOf, cellOf, place, a, b, c, hne ext hone.1 _ b]
  · intro a b c
    simp [cell, matOf, cellOf, place, a, b, c]
  · intro a b c d
    simp [cell, matOf, cellOf, place, a, b, c, d]
  · intro a b c
    simp [cell, matOf, cellOf, a, b, c, h0]
    simp [place, c]
  · intro a b c d
    simp [cell, matOf, cellOf, a, b, c, d, h0]
    simp [place, c]

/-- **C247** A covariance of a factor with an indicator gets a cell without a row or without a column instead of an error. -/
theorem C247_mixed_violated :
    cell ["f"] ["x1", "x2"] ⟨"f", "~~", "x1", none, false, none⟩ = some (2, some 0, none) ∧
      cell ["f"] ["x1", "x2"] ⟨"x1", "~~", "f", none, false, none⟩ = some (3, some 0, none) := by
  decide +kernel

/-! ### Rows that are added and fixed -/

theorem mem_setOf (l : List String) (x : String) : x ∈ setOf l ↔ x ∈ l := List.mem_dedup

/-- **C247** Every variable of the model gets a variance, and every factor and observed variable a mean; the rows of the formula are kept. -/
theorem C247_complete (t : List Row) :
    (∀ r ∈ t, (⟨r.lhs, "~~", r.lhs, none, false, none⟩ : Row) ∈ autoRows t ∧ (⟨r.rhs, "~~", r.rhs, none, false, none⟩ : Row) ∈ autoRows t) ∧
      ∀ x, x ∈ lvExt t ∨ x ∈ ov t → (⟨x, "~", "1", none, false, none⟩ : Row) ∈ autoRows t := by
  constructor
  · intro r hr
    have key : ∀ x, x ∈ t.map Row.lhs ++ t.map Row.rhs → (⟨x, "~~", x, none, false, none⟩ : Row) ∈ autoRows t := by
      intro x hx
      simp only [autoRows, List.mem_append]
      exact Or.inl (Or.inl (Or.inl (Or.inl (List.mem_map.2 ⟨x, (mem_setOf _ _).2 hx, rfl⟩))))
    exact ⟨key _ (List.mem_append_left _ (List.mem_map.2 ⟨r, hr, rfl⟩)), key _ (List.mem_append_right _ (List.mem_map.2 ⟨r, hr, rfl⟩))⟩
  · intro x hx
    simp only [autoRows, List.mem_append]
    exact Or.inr (List.mem_map.2 ⟨x, (mem_setOf _ _).2 (List.mem_append.2 hx), rfl⟩)

/-- **C247** The pairs of a class are all there, each once: covariances are added for two different names in one order only. -/
theorem C247_pairs (l : List String) (hl : l.Nodup) (a b : String) (hab : a ≠ b) :
    (a ∈ l ∧ b ∈ l ↔ (⟨a, "~~", b, none, false, none⟩ : Row) ∈ addCovs l ∨ (⟨b, "~~", a, none, false, none⟩ : Row) ∈ addCovs l) ∧
      ¬ ((⟨a, "~~", b, none, false, none⟩ : Row) ∈ addCovs l ∧ (⟨b, "~~", a, none, false, none⟩ : Row) ∈ addCovs l) ∧ (addCovs l).Nodup := by
  have hsub : ∀ (l : List String) (x y : String), (⟨x, "~~", y, none, false, none⟩ : Row) ∈ addCovs l → x ∈ l ∧ y ∈ l := by
    intro l
    induction l with
    | nil => intro x y h; cases h
    | cons c l ih =>
      intro x y h
      rcases List.mem_append.1 h with h | h
      · obtain ⟨d, hd, e⟩ := List.mem_map.1 h
        cases e
        exact ⟨List.mem_cons_of_mem _ hd, List.mem_cons_self⟩
      · exact ⟨List.mem_cons_of_mem _ (ih x y h).1, List.mem_cons_of_mem _ (ih x y h).2⟩
  induction l with
  | nil => simp [addCovs]
  | cons c l ih =>
    rw [List.nodup_cons] at hl
    obtain ⟨i1, i2, i3⟩ := ih hl.2
    have hm : ∀ x y, (⟨x, "~~", y, none, false, none⟩ : Row) ∈ addCovs (c :: l) ↔ (x ∈ l ∧ y = c) ∨ (⟨x, "~~", y, none, false, none⟩ : Row) ∈ addCovs l := by
      intro x y
      rw [addCovs, List.mem_append, List.mem_map]
      constructor
      · rintro (⟨d, hd, e⟩ | h)
        · cases e; exact Or.inl ⟨hd, rfl⟩
        · exact Or.inr h
      · rintro (⟨h, rfl⟩ | h)
        · exact Or.inl ⟨x, h, rfl⟩
        · exact Or.inr h
    refine ⟨?_, ?_, ?_⟩
    · rw [hm, hm]
      constructor
      · rintro ⟨ha, hb⟩
        rcases List.mem_cons.1 ha with rfl | ha'
        · rcases List.mem_cons.1 hb with rfl | hb
          · exact absurd rfl hab
          · exact Or.inr (Or.inl ⟨hb, rfl⟩)
        · rcases List.mem_cons.1 hb with rfl | hb
          · exact Or.inl (Or.inl ⟨ha', rfl⟩)
          · rcases i1.1 ⟨ha', hb⟩ with h | h
            · exact Or.inl (Or.inr h)
            · exact Or.inr (Or.inr h)
      · rintro ((⟨h, rfl⟩ | h) | (⟨h, rfl⟩ | h))
        · exact ⟨List.mem_cons_of_mem _ h, List.mem_cons_self⟩
        · exact ⟨List.mem_cons_of_mem _ (hsub l a b h).1, List.mem_cons_of_mem _ (hsub l a b h).2⟩
        · exact ⟨List.mem_cons_self, List.mem_cons_of_mem _ h⟩
        · exact ⟨List.mem_cons_of_mem _ (hsub l b a h).2, List.mem_cons_of_mem _ (hsub l b a h).1⟩
    · rw [hm, hm]
      rintro ⟨⟨h1, h2⟩ | h1, ⟨h3, h4⟩ | h3⟩
      · exact hl.1 (h4 ▸ h1)
      · exact hl.1 (h2 ▸ (hsub l b a h3).1)
      · exact hl.1 (h4 ▸ (hsub l a b h1).1)
      · exact i2 ⟨h1, h3⟩
    · rw [addCovs]
      refine List.Nodup.append ?_ i3 ?_
      · exact hl.2.map fun x y e => by injection e
      · intro r h1 h2
        obtain ⟨d, hd, rfl⟩ := List.mem_map.1 h1
        exact hl.1 (hsub l d c h2).2

/-- **C247** By default every latent variable has its variance fixed at one, whatever the formula says, and the first loading of a latent
variable without a fixed loading is fixed at one as well. -/
theorem C247_scale (lv : List String) (t : List Row) :
    (∀ r ∈ fixLvVar lv t, r.rel = "~~" → r.lhs ∈ lv → r.lhs = r.rhs → r.fixed = true ∧ r.fixedval = some 1) ∧
      ∀ v i r, t[i]? = some r → isLoad v r = true → t.findIdx (isLoad v) = i → (∀ s ∈ t, isLoad v s = true → s.fixed = false) →
        (fixFirst t)[i]? = some { r with fixed := true, fixedval := some 1 } := by
  constructor
  · intro r hr h1 h2 h3
    obtain ⟨s, hs, rfl⟩ := List.mem_map.1 hr
    split_ifs at * with h
    · exact ⟨rfl, rfl⟩
    · exact absurd ⟨h1, h2, h3⟩ h
  · intro v i r hr hv hi hf
    have hl : r.lhs = v := by simp only [isLoad, decide_eq_true_eq] at hv; exact hv.2
    rw [fixFirst, List.getElem?_map, List.getElem?_zipIdx, hr]
    simp only [Option.map_some, Nat.zero_add]
    rw [if_pos]
    refine ⟨by rw [hl]; exact hv, by rw [hl]; exact hi, ?_⟩
    rw [hl]
    simp only [Bool.not_eq_true, List.any_eq_false, Bool.and_eq_true, not_and, Bool.not_eq_true]
    exact fun s hs h => hf s hs h

/-- **C247** Both scales together are a restriction on the data: with loadings `1, b, c` and factor variance one the covariances of three
indicators satisfy `s12 s13 = s23`, so indicators with all covariances one half, which have one factor, are not covered. -/
theorem C247_scale_violated :
    extendModel [⟨"f", "=~", "x1", none, false, none⟩, ⟨"f", "=~", "x2", none, false, none⟩, ⟨"f", "=~", "x3", none, false, none⟩] =
      [⟨"f", "=~", "x1", none, true, some 1⟩, ⟨"f", "=~", "x2", none, false, none⟩, ⟨"f", "=~", "x3", none, false, none⟩,
        ⟨"f", "~~", "f", none, true, some 1⟩, ⟨"x1", "~~", "x1", none, false, none⟩, ⟨"x2", "~~", "x2", none, false, none⟩,
        ⟨"x3", "~~", "x3", none, false, none⟩,
        ⟨"f", "~", "1", none, true, some 0⟩, ⟨"x1", "~", "1", none, false, none⟩, ⟨"x2", "~", "1", none, false, none⟩,
        ⟨"x3", "~", "1", none, false, none⟩] ∧
      (∀ b c : ℝ, ¬ ((1 : ℝ) * 1 * b = 1 / 2 ∧ 1 * 1 * c = 1 / 2 ∧ b * 1 * c = 1 / 2)) ∧
      ∃ b c phi : ℝ, 0 < phi ∧ 1 * phi * b = 1 / 2 ∧ 1 * phi * c = 1 / 2 ∧ b * phi * c = 1 / 2 := by
  refine ⟨by decide +kernel, ?_, 1, 1, 1 / 2, by norm_num, by norm_num, by norm_num, by norm_num⟩
  rintro b c ⟨h1, h2, h3⟩
  have hb : b = 1 / 2 := by linarith
  have hc : c = 1 / 2 := by linarith
  rw [hb, hc] at h3
  norm_num at h3

/-- **C247** A value given in the formula is replaced, and a row given in the formula is added again: the covariance of two factors
fixed at zero stands next to a free one for the same cell, and the variance fixed at two is fixed at one, twice. -/
theorem C247_given_violated :
    let t : List Row := [⟨"f", "=~", "x1", none, false, none⟩, ⟨"g", "=~", "x2", none, false, none⟩, ⟨"g", "~~", "f", none, true, some 0⟩,
      ⟨"f", "~~", "f", none, true, some 2⟩]
    ((extendModel t).filter fun r => r.lhs = "g" ∧ r.rel = "~~" ∧ r.rhs = "f") =
      [⟨"g", "~~", "f", none, true, some 0⟩, ⟨"g", "~~", "f", none, false, none⟩] ∧
      ((extendModel t).filter fun r => r.lhs = "f" ∧ r.rel = "~~" ∧ r.rhs = "f") =
      [⟨"f", "~~", "f", none, true, some 1⟩, ⟨"f", "~~", "f", none, true, some 1⟩] := by
  decide +kernel

/-- **C247** A mean in the formula makes the constant an observed variable, with a variance and a mean. -/
theorem C247_constant_violated :
    let t : List Row := [⟨"y", "~", "x", none, false, none⟩, ⟨"y", "~", "1", none, false, none⟩]
    "1" ∈ ov t ∧ (⟨"1", "~~", "1", none, true, none⟩ : Row) ∈ extendModel t ∧ (⟨"1", "~", "1", none, false, none⟩ : Row) ∈ extendModel t := by
  decide +kernel

theorem mem_diff (a b : List String) (x : String) : x ∈ diff a b ↔ x ∈ a ∧ x ∉ b := by simp [diff]

/-- **C247** The variables of the structural part are factors or observed. -/
theorem C247_structural (t : List Row) : ∀ v ∈ lvExt t, v ∉ ov t → v ∈ lvNames t := by
  intro v hv ho
  by_contra hn
  refine ho ((mem_setOf _ _).2 ?_)
  simp only [lvExt, List.mem_append, mem_diff, mem_setOf] at hv
  rcases hv with h | ⟨h, -⟩
  · exact absurd h hn
  simp only [List.mem_append, ovInd, ovY, ovX, mem_diff, not_or]
  by_cases hvn : v ∈ vNames t
  · exact Or.inl (Or.inl (Or.inl ⟨hvn, hn⟩))
  by_cases hy : v ∈ yNames t
  · exact Or.inl (Or.inl (Or.inr ⟨hy, hn, hvn⟩))
  refine Or.inl (Or.inr ⟨?_, ⟨hn, hvn⟩, fun h => hy h.1⟩)
  rcases h with h | h
  · refine absurd ((mem_setOf _ _).2 ?_) hy
    obtain ⟨r, hr, e⟩ := List.mem_map.1 h
    have := List.mem_filter.1 hr
    exact List.mem_map.2 ⟨r, List.mem_filter.2 ⟨this.1, by simpa using (of_decide_eq_true this.2).1⟩, e⟩
  · obtain ⟨r, hr, e⟩ := List.mem_map.1 h
    have := List.mem_filter.1 hr
    exact (mem_setOf _ _).2 (List.mem_map.2 ⟨r, List.mem_filter.2 ⟨this.1, by simpa using (of_decide_eq_true this.2).1⟩, e⟩)

/-- **C247** Means: pure factors have mean zero, observed regressors the mean of the data, all others are free. -/
theorem C247_means (ext lv x o : List String) (t : List Row) (r : Row) (hr : r ∈ t) (h1 : r.rel = "~") (h2 : r.rhs = "1") (hf : r.fixed = false)
    (hlv : ∀ v ∈ ext, v ∉ o → v ∈ lv) :
    ∃ s ∈ fixLvMean ext lv x o t, s.lhs = r.lhs ∧ s.rel = "~" ∧ s.rhs = "1" ∧
      (r.lhs ∈ ext → r.lhs ∉ o → s.fixed = true ∧ s.fixedval = some 0) ∧
      (r.lhs ∈ ext → r.lhs ∈ o → r.lhs ∈ x → s.fixed = true ∧ s.fixedval = r.fixedval) ∧
      (r.lhs ∈ o → r.lhs ∉ ext ∨ r.lhs ∉ x → s.fixed = false) := by
  refine ⟨_, List.mem_map.2 ⟨r, hr, rfl⟩, ?_⟩
  rw [if_pos ⟨h1, h2⟩]
  by_cases a : r.lhs ∈ ext <;> by_cases b : r.lhs ∈ o <;> by_cases c : r.lhs ∈ x <;> by_cases d : r.lhs ∈ lv <;>
    simp [a, b, c, d, h1, h2, hf]
  all_goals exact d (hlv _ a b)

/-- **C247** The variables of covariances: both sides of a covariance count, each unless it is latent. -/
theorem C247_covariance_names (t : List Row) (x : String) : x ∈ ovCov t ↔ x ∉ lvNames t ∧ ∃ r ∈ t, r.rel = "~~" ∧ (x = r.lhs ∨ x = r.rhs) := by
  rw [ovCov, mem_setOf, List.mem_append, List.mem_map, List.mem_map]
  simp only [List.mem_filter, decide_eq_true_eq]
  constructor
  · rintro (⟨r, ⟨hr, h1, h2⟩, rfl⟩ | ⟨r, ⟨hr, h1, h2⟩, rfl⟩)
    · exact ⟨h2, r, hr, h1, Or.inl rfl⟩
    · exact ⟨h2, r, hr, h1, Or.inr rfl⟩
  · rintro ⟨h2, r, hr, h1, rfl | rfl⟩
    · exact Or.inl ⟨r, ⟨hr, h1, h2⟩, rfl⟩
    · exact Or.inr ⟨r, ⟨hr, h1, h2⟩, rfl⟩

/-- **C247** The dependent factors with free covariances: latent, on the left of a regression, and neither an indicator nor a regressor. -/
theorem C247_dependent_names (t : List Row) (x : String) :
    x ∈ lvY t ↔ (∃ r ∈ t, r.rel = "~" ∧ r.lhs = x) ∧ x ∈ lvNames t ∧ (∀ r ∈ t, r.rel = "=~" → r.rhs ≠ x) ∧ ∀ r ∈ t, r.rel = "~" → r.rhs ≠ x := by
  simp only [lvY, diff, yNames, vNames, xNames, setOf, List.mem_filter, List.mem_dedup, List.mem_map, List.mem_append, decide_eq_true_eq, not_or,
    not_exists, not_and, and_imp, and_assoc]

/-- **C247** The covariances that are fixed without a value are those between two exogenous variables. -/
theorem C247_exogenous (x : List String) (t : List Row) (i : ℕ) (r : Row) (hr : t[i]? = some r) :
    (r.rel = "~~" → r.lhs ∈ x → r.rhs ∈ x → (fixXCov x t)[i]? = some { r with fixed := true, fixedval := none }) ∧
      (r.rel ≠ "~~" ∨ r.lhs ∉ x ∨ r.rhs ∉ x → (fixXCov x t)[i]? = some r) := by
  rw [fixXCov, List.getElem?_map, hr]
  constructor
  · intro h1 h2 h3
    simp [h1, h2, h3]
  · intro h
    rw [Option.map_some, if_neg]
    rintro ⟨h2, h3, h1⟩
    rcases h with h | h | h
    · exact h h1
    · exact h h2
    · exact h h3

end Verif.Sem.OldTable
