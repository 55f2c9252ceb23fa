import Verif.Sem.OldTemplate
import Mathlib.Tactic
/-!
# C277: the matrices made from the parameter table

Every row is to be found in its cell, each cell is free or fixed but not both, and the template holds the starting values of the table.
-/
namespace Verif.Sem.OldTable

theorem mmWrite_eq {α : Type*} {g : MatRow → α} {A : ℕ → ℕ → α} {rows : List MatRow} {i j : ℕ} {v : α}
    (h : ∀ x ∈ rows, x.r = i → x.c = j → g x = v) (h0 : (∃ x ∈ rows, x.r = i ∧ x.c = j) ∨ A i j = v) : mmWrite g A rows i j = v := by
  induction rows generalizing A with
  | nil =>
    rcases h0 with ⟨x, hx, _⟩ | h0
    · simp at hx
    · exact h0
  | cons y rows ih =>
    refine ih (A := fun i j => if i = y.r ∧ j = y.c then g y else A i j) (fun x hx => h x (List.mem_cons_of_mem _ hx)) ?_
    by_cases hy : i = y.r ∧ j = y.c
    · exact .inr (by simp only [if_pos hy]; exact h y List.mem_cons_self hy.1.symm hy.2.symm)
    · rcases h0 with ⟨x, hx, hxc⟩ | h0
      · rcases List.mem_cons.mp hx with rfl | hx
        · exact absurd ⟨hxc.1.symm, hxc.2.symm⟩ hy
        · exact .inl ⟨x, hx, hxc⟩
      · exact .inr (by simp only [if_neg hy]; exact h0)

/-- Rows of symmetric matrices are put below the diagonal; the cell is the same up to transposition and nothing else changes. -/
theorem C277_swap (x : MatRow) : (x.mat = 2 ∨ x.mat = 3 → (mmSwap x).c ≤ (mmSwap x).r) ∧ (mmSwap x).mat = x.mat ∧
    (mmSwap x).fixed = x.fixed ∧ (mmSwap x).val = x.val ∧ (mmSwap x).num = x.num ∧
    (((mmSwap x).r = x.r ∧ (mmSwap x).c = x.c) ∨ ((mmSwap x).r = x.c ∧ (mmSwap x).c = x.r)) := by
  unfold mmSwap
  split
  · rename_i h; exact ⟨fun _ => h.2.le, rfl, rfl, rfl, rfl, .inr ⟨rfl, rfl⟩⟩
  · rename_i h
    exact ⟨fun hm => not_lt.mp fun h' => h ⟨hm, h'⟩, rfl, rfl, rfl, rfl, .inl ⟨rfl, rfl⟩⟩

/-- A free row puts its number into its cell, if the free rows of the cell agree. -/
theorem C277_free {t : List MatRow} {x : MatRow} (hx : x ∈ t) (hf : x.fixed = false)
    (h : ∀ y ∈ t, y.mat = x.mat → y.r = x.r → y.c = x.c → y.fixed = false → y.num = x.num) : mmFree t x.mat x.r x.c = x.num := by
  refine mmWrite_eq (fun y hy hr hc => ?_) (.inl ⟨x, by simp [hx, hf], rfl, rfl⟩)
  simp only [List.mem_filter, Bool.and_eq_true, decide_eq_true_eq, Bool.not_eq_true'] at hy
  exact h y hy.1 hy.2.1 hr hc hy.2.2

/-- A cell without a free row has the number zero. -/
theorem C277_not_free {t : List MatRow} {m i j : ℕ} (h : ∀ y ∈ t, y.mat = m → y.r = i → y.c = j → y.fixed = true) : mmFree t m i j = 0 := by
  refine mmWrite_eq (fun y hy hr hc => ?_) (.inr rfl)
  simp only [List.mem_filter, Bool.and_eq_true, decide_eq_true_eq, Bool.not_eq_true'] at hy
  rw [h y hy.1 hy.2.1 hr hc] at hy
  simp at hy

/-- A fixed row puts its value into its cell of the template, if the fixed rows of the cell agree and the cell is not overwritten. -/
theorem C277_fixed_partial (nx : List ℕ) {lo : List (ℕ × ℕ)} {t : List MatRow} {x : MatRow} (hx : x ∈ t) (hf : x.fixed = true)
    (h : ∀ y ∈ t, y.mat = x.mat → y.r = x.r → y.c = x.c → y.fixed = true → y.val = x.val)
    (h0 : ¬ (x.mat = 0 ∧ (x.r, x.c) ∈ lo)) (h3 : ¬ (x.mat = 3 ∧ x.r = x.c ∧ x.r ∈ lo.map Prod.fst)) :
    mmStart nx lo t x.mat x.r x.c = x.val := by
  unfold mmStart mmOver
  rw [if_neg h0, if_neg h3]
  refine mmWrite_eq (fun y hy hr hc => ?_) (.inl ⟨x, by simp [hx, hf], rfl, rfl⟩)
  simp only [List.mem_filter, Bool.and_eq_true, decide_eq_true_eq] at hy
  exact h y hy.1 hy.2.1 hr hc hy.2.2

/-- A cell without a fixed row holds the default: one for variances, zero otherwise. -/
theorem C277_default (nx : List ℕ) {lo : List (ℕ × ℕ)} {t : List MatRow} {m i j : ℕ}
    (h : ∀ y ∈ t, y.mat = m → y.r = i → y.c = j → y.fixed = false) : mmStart nx lo t m i j = mmOver lo m (mmInit nx m) i j := by
  unfold mmStart mmOver
  have : mmWrite MatRow.val (mmInit nx m) (t.filter fun x => x.mat = m && x.fixed) i j = mmInit nx m i j := by
    refine mmWrite_eq (fun y hy hr hc => ?_) (.inr rfl)
    simp only [List.mem_filter, Bool.and_eq_true, decide_eq_true_eq] at hy
    rw [h y hy.1 hy.2.1 hr hc] at hy
    simp at hy
  rw [this]

/-- An observed variable among the latent is measured by itself without error, whatever the table says. -/
theorem C277_itself (nx : List ℕ) {lo : List (ℕ × ℕ)} (t : List MatRow) {a b : ℕ} (h : (a, b) ∈ lo) :
    mmStart nx lo t 0 a b = 1 ∧ mmStart nx lo t 3 a a = 0 := by
  unfold mmStart mmOver
  refine ⟨by simp [h], ?_⟩
  rw [if_neg (by simp), if_pos ⟨rfl, rfl, List.mem_map.mpr ⟨_, h, rfl⟩⟩]

/-- Above the diagonal the symmetric matrices are zero: what is fixed there is below, where `_vech` reads. -/
theorem C277_lower (nx : List ℕ) (lo : List (ℕ × ℕ)) (t : List MatRow) {m : ℕ} (hm : m = 2 ∨ m = 3) {i j : ℕ} (hij : i < j) :
    mmFree (t.map mmSwap) m i j = 0 ∧ mmStart nx lo (t.map mmSwap) m i j = 0 := by
  have hn : ∀ y ∈ t.map mmSwap, y.mat = m → y.r = i → y.c = j → False := by
    intro y hy h1 h2 h3
    obtain ⟨x, _, rfl⟩ := List.mem_map.mp hy
    have := (C277_swap x).1 ((C277_swap x).2.1 ▸ h1.symm ▸ hm)
    omega
  refine ⟨C277_not_free fun y hy h1 h2 h3 => (hn y hy h1 h2 h3).elim, ?_⟩
  rw [C277_default nx fun y hy h1 h2 h3 => (hn y hy h1 h2 h3).elim]
  rcases hm with rfl | rfl
  · simp [mmOver, mmInit, hij.ne]
  · simp [mmOver, mmInit, hij.ne]

/-- The template holds every entry on and below the diagonal and depends on no other. -/
theorem C277_template (d : ℕ) (A B : ℕ → ℕ → ℚ) : (∀ r c, c ≤ r → r < d → A r c ∈ mmVech d A) ∧
    ((∀ r c, c ≤ r → r < d → A r c = B r c) → mmVech d A = mmVech d B) ∧ (mmVech d A).length = d * (d + 1) / 2 := by
  refine ⟨fun r c hc hr => ?_, fun h => ?_, ?_⟩
  · refine List.mem_flatMap.mpr ⟨c, List.mem_range.mpr (by omega), List.mem_map.mpr ⟨r, ?_, rfl⟩⟩
    simp [hr, hc]
  · unfold mmVech
    refine List.flatMap_congr fun c _ => List.map_congr_left fun r hr => ?_
    simp only [List.mem_filter, List.mem_range, decide_eq_true_eq] at hr
    exact h r c hr.2 hr.1
  · have hk : ∀ c ∈ List.range d, ((List.range d).filter (c ≤ ·)).length = d - c := by
      intro c hc
      have hc' := List.mem_range.mp hc
      have e : List.range d = List.range c ++ (List.range (d - c)).map (c + ·) := by
        rw [← List.range_add]; congr 1; omega
      rw [e, List.filter_append, List.filter_eq_nil_iff.mpr (by simp), List.filter_eq_self.mpr (by simp)]
      simp
    unfold mmVech
    rw [List.length_flatMap, List.map_congr_left (g := fun c => d - c) (by intro c hc; simpa using hk c hc)]
    clear hk
    have : ((List.range d).map fun c => d - c).sum * 2 = d * (d + 1) := by
      induction d with
      | zero => rfl
      | succ d ih =>
        rw [List.range_succ_eq_map, List.map_cons, List.sum_cons, List.map_map]
        have : ((fun c => d + 1 - c) ∘ Nat.succ) = fun c => d - c := by ext c; simp
        rw [this, add_mul, ih]
        simp only [Nat.sub_zero]; ring
    omega

/-- A cell is not both free and fixed, if no two rows share a cell. -/
theorem C277_exclusive_partial {t : List MatRow} (h : t.Pairwise fun x y => ¬ (x.mat = y.mat ∧ x.r = y.r ∧ x.c = y.c)) {x : MatRow}
    (hx : x ∈ t) (hf : x.fixed = true) : mmFree t x.mat x.r x.c = 0 := by
  refine C277_not_free fun y hy h1 h2 h3 => ?_
  by_contra hyf
  have hne : x ≠ y := fun e => hyf (e ▸ hf)
  haveI : Std.Symm fun x y : MatRow => ¬ (x.mat = y.mat ∧ x.r = y.r ∧ x.c = y.c) :=
    ⟨fun a b hab hba => hab ⟨hba.1.symm, hba.2.1.symm, hba.2.2.symm⟩⟩
  exact h.forall hx hy hne ⟨h1.symm, h2.symm, h3.symm⟩

/-- A covariance given with a value in the formula and added again as a free row is free and fixed at once. -/
theorem C277_exclusive_violated : ∃ t : List MatRow, (∃ x ∈ t, x.fixed = true ∧ mmFree t x.mat x.r x.c ≠ 0) ∧ mmStart [] [] t 2 1 0 = 1 / 2 :=
  ⟨[⟨2, 1, 0, true, 1 / 2, 0⟩, ⟨2, 1, 0, false, 0, 7⟩], ⟨_, List.mem_cons_self, rfl, by decide +kernel⟩, by decide +kernel⟩

/-- The starting values of the table are not those of the template: a free loading starts at 0.001 in the first and at zero in the second, a free
residual variance at 0.1 and one. -/
theorem C277_start_violated (a b : String) (n k : ℕ) :
    startValue 0 { lhs := a, rel := "=~", rhs := b } = some (1 / 1000) ∧ mmStart [0] [] [⟨0, 0, 0, false, 0, n⟩] 0 0 0 = 0 ∧
    startValue 3 { lhs := b, rel := "~~", rhs := b } = some (1 / 10) ∧ mmStart [0] [] [⟨3, 0, 0, false, 0, k⟩] 3 0 0 = 1 := by
  refine ⟨by simp [startValue], by simp [mmStart, mmOver, mmWrite, mmInit], by simp [startValue], by simp [mmStart, mmOver, mmWrite, mmInit]⟩

/-- The hypotheses of the theorems hold for a table with a fixed and a free loading. -/
example : [⟨0, 0, 0, true, 1, 0⟩, (⟨0, 1, 0, false, 0, 1⟩ : MatRow)].Pairwise fun x y => ¬ (x.mat = y.mat ∧ x.r = y.r ∧ x.c = y.c) := by
  simp

end Verif.Sem.OldTable
