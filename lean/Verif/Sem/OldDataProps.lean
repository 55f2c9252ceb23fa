import Verif.Sem.OldData
import Mathlib.Tactic

/-!
C267: sample moments and starting values in the parameter table of the older structural equation models.
-/

namespace Verif.Sem.OldTable

theorem mem_dataPairs (xv : List String) (l r : String) (hl : l ∈ xv) (hr : r ∈ xv) : (l, r) ∈ dataPairs xv ∨ (r, l) ∈ dataPairs xv := by
  obtain ⟨i, hi, rfl⟩ := List.mem_iff_getElem.1 hl
  obtain ⟨j, hj, rfl⟩ := List.mem_iff_getElem.1 hr
  have key : ∀ a b : ℕ, ∀ (ha : a < xv.length) (hb : b < xv.length), b ≤ a → (xv[a], xv[b]) ∈ dataPairs xv := by
    intro a b ha hb hab
    refine List.mem_flatMap.2 ⟨(xv[a], a), List.mem_zipIdx_iff_getElem?.2 (by simp [ha]), List.mem_map.2 ⟨xv[b], ?_, rfl⟩⟩
    refine List.mem_iff_getElem.2 ⟨b, ?_, ?_⟩
    · rw [List.length_take]; exact lt_min (Nat.lt_succ_of_le hab) hb
    · simp
  rcases le_total j i with h | h
  · exact Or.inl (key i j hi hj h)
  · exact Or.inr (key j i hj hi h)

theorem of_mem_dataPairs {xv : List String} {x : String × String} (h : x ∈ dataPairs xv) : x.1 ∈ xv ∧ x.2 ∈ xv := by
  obtain ⟨⟨a, i⟩, ha, hx⟩ := List.mem_flatMap.1 h
  obtain ⟨b, hb, rfl⟩ := List.mem_map.1 hx
  exact ⟨List.mem_of_getElem? (List.mem_zipIdx_iff_getElem?.1 ha), List.mem_of_mem_take hb⟩

theorem foldl_map_rows {α : Type} (f : α → Row → Row) (l : List α) (t : List Row) :
    l.foldl (fun t x => t.map (f x)) t = t.map fun r => l.foldl (fun r x => f x r) r := by
  induction l generalizing t with
  | nil => simp
  | cons a l ih => simp [ih, List.map_map, Function.comp_def]

/-- Whether a pair is that of a row. -/
def pairOf (x : String × String) (r : Row) : Prop := ((r.lhs = x.1 ∧ r.rhs = x.2) ∨ (r.rhs = x.1 ∧ r.lhs = x.2)) ∧ r.rel = "~~"

theorem foldl_setCov (C : String → String → ℚ) (hC : ∀ a b, C a b = C b a) (ps : List (String × String)) (r : Row) :
    ((∃ x ∈ ps, pairOf x r) → ps.foldl (fun r x => setCov C x r) r = { r with fixedval := some (C r.lhs r.rhs) }) ∧
      ((¬ ∃ x ∈ ps, pairOf x r) → ps.foldl (fun r x => setCov C x r) r = r) := by
  induction ps generalizing r with
  | nil => simp
  | cons a ps ih =>
    rw [List.foldl_cons]
    by_cases h : pairOf a r
    · have e : setCov C a r = { r with fixedval := some (C r.lhs r.rhs) } := by
        rw [setCov, if_pos (show _ ∧ _ from h)]
        rcases h.1 with ⟨h1, h2⟩ | ⟨h1, h2⟩
        · rw [h1, h2]
        · rw [h1, h2, hC]
      have h' : (∃ x ∈ ps, pairOf x { r with fixedval := some (C r.lhs r.rhs) }) ↔ ∃ x ∈ ps, pairOf x r := Iff.rfl
      refine ⟨fun _ => ?_, fun hn => absurd ⟨a, List.mem_cons_self, h⟩ hn⟩
      rw [e]
      by_cases g : ∃ x ∈ ps, pairOf x r
      · rw [(ih _).1 (h'.2 g)]
      · rw [(ih _).2 fun k => g (h'.1 k)]
    · have e : setCov C a r = r := by rw [setCov, if_neg]; exact h
      rw [e]
      refine ⟨fun ⟨x, hx, hp⟩ => (ih r).1 ⟨x, ?_, hp⟩, fun hn => (ih r).2 fun ⟨x, hx, hp⟩ => hn ⟨x, List.mem_cons_of_mem _ hx, hp⟩⟩
      rcases List.mem_cons.1 hx with rfl | hx
      · exact absurd hp h
      · exact hx

theorem foldl_setMean (m : String → ℚ) (xs : List String) (r : Row) :
    xs.foldl (fun r x => setMean m x r) r
      = if (r.rel = "~" ∧ r.rhs = "1") ∧ r.lhs ∈ xs then { r with fixedval := some (m r.lhs) } else r := by
  induction xs generalizing r with
  | nil => simp
  | cons a xs ih =>
    rw [List.foldl_cons]
    by_cases h : (r.rel = "~" ∧ r.rhs = "1") ∧ r.lhs = a
    · rw [setMean, if_pos h, ih]
      obtain ⟨h1, h2⟩ := h
      subst h2
      simp [h1]
    · rw [setMean, if_neg h, ih]
      by_cases g : r.rel = "~" ∧ r.rhs = "1"
      · have : r.lhs ≠ a := fun e => h ⟨g, e⟩
        simp [this]
      · simp [g]

/-- Specification: the row after the update. -/
def dataRow (xv : List String) (C : String → String → ℚ) (m : String → ℚ) (r : Row) : Row :=
  if r.rel = "~~" ∧ r.lhs ∈ xv ∧ r.rhs ∈ xv then { r with fixedval := some (C r.lhs r.rhs) }
  else if r.rel = "~" ∧ r.rhs = "1" ∧ r.lhs ∈ xv then { r with fixedval := some (m r.lhs) } else r

/-- **C267** The update gives the rows of exogenous variances, covariances and means their sample values and leaves all others. -/
theorem C267_rows (xv : List String) (C : String → String → ℚ) (hC : ∀ a b, C a b = C b a) (m : String → ℚ) (t : List Row) :
    dataRows xv C m t = t.map (dataRow xv C m) := by
  rw [dataRows, foldl_map_rows, foldl_map_rows, List.map_map]
  refine List.map_congr_left fun r _ => ?_
  simp only [Function.comp]
  have hx : (∃ x ∈ dataPairs xv, pairOf x r) ↔ r.rel = "~~" ∧ r.lhs ∈ xv ∧ r.rhs ∈ xv := by
    constructor
    · rintro ⟨x, hx, hp, hr⟩
      obtain ⟨h1, h2⟩ := of_mem_dataPairs hx
      rcases hp with ⟨e1, e2⟩ | ⟨e1, e2⟩
      · exact ⟨hr, e1 ▸ h1, e2 ▸ h2⟩
      · exact ⟨hr, e2 ▸ h2, e1 ▸ h1⟩
    · rintro ⟨hr, h1, h2⟩
      rcases mem_dataPairs xv _ _ h1 h2 with h | h
      · exact ⟨_, h, Or.inl ⟨rfl, rfl⟩, hr⟩
      · exact ⟨_, h, Or.inr ⟨rfl, rfl⟩, hr⟩
  by_cases h : r.rel = "~~" ∧ r.lhs ∈ xv ∧ r.rhs ∈ xv
  · rw [(foldl_setCov C hC _ r).1 (hx.2 h), foldl_setMean, dataRow, if_pos h, if_neg]
    simp [h.1]
  · rw [(foldl_setCov C hC _ r).2 fun k => h (hx.1 k), foldl_setMean, dataRow, if_neg h]
    simp only [and_assoc]

/-- **C267** No row changes its names, its relation, its label or whether it is fixed, so the free parameters are numbered as before. -/
theorem C267_keeps (xv : List String) (C : String → String → ℚ) (hC : ∀ a b, C a b = C b a) (m : String → ℚ) (t : List Row) (i : ℕ) :
    ((dataRows xv C m t)[i]?.map fun r => (r.lhs, r.rel, r.rhs, r.label, r.fixed)) = t[i]?.map fun r => (r.lhs, r.rel, r.rhs, r.label, r.fixed) := by
  rw [C267_rows xv C hC, List.getElem?_map, Option.map_map]
  congr 1
  funext r
  simp only [Function.comp, dataRow]
  split_ifs <;> rfl

/-- **C267** The order of the variables does not matter, and a second update with other data is as if it were the first. -/
theorem C267_order (xv xv' : List String) (hx : ∀ a, a ∈ xv ↔ a ∈ xv') (C C' : String → String → ℚ) (hC : ∀ a b, C a b = C b a)
    (hC' : ∀ a b, C' a b = C' b a) (m m' : String → ℚ) (t : List Row) :
    dataRows xv C m t = dataRows xv' C m t ∧ dataRows xv C m (dataRows xv C' m' t) = dataRows xv C m t := by
  constructor
  · rw [C267_rows xv C hC, C267_rows xv' C hC]
    refine List.map_congr_left fun r _ => ?_
    simp only [dataRow, hx]
  · rw [C267_rows xv C hC, C267_rows xv C' hC', C267_rows xv C hC, List.map_map]
    refine List.map_congr_left fun r _ => ?_
    by_cases h : r.rel = "~~" ∧ r.lhs ∈ xv ∧ r.rhs ∈ xv
    · simp [Function.comp, dataRow, h]
    · by_cases g : r.rel = "~" ∧ r.rhs = "1" ∧ r.lhs ∈ xv
      · simp [Function.comp, dataRow, g]
      · simp only [Function.comp, dataRow, if_neg h, if_neg g]

/-- **C267** With data frames the update succeeds. -/
theorem C267_update_partial (xv : List String) (C : String → String → ℚ) (hC : ∀ a b, C a b = C b a) (m : String → ℚ) (t : List Row) :
    updateData true true xv C m t = some (t.map (dataRow xv C m)) := by
  simp [updateData, C267_rows xv C hC]

/-- **C267 (violated)** With arrays it raises for every table, and so does an array of means with any exogenous variable. -/
theorem C267_arrays_violated (xv : List String) (C : String → String → ℚ) (m : String → ℚ) (t : List Row) :
    updateData false false xv C m t = none ∧ (xv ≠ [] → ∀ f, updateData f false xv C m t = none) := by
  constructor
  · cases xv <;> simp [updateData]
  · intro h f
    cases xv with
    | nil => exact absurd rfl h
    | cons a l => simp [updateData]

/-- **C267 (violated)** A covariance of exogenous variables that the formula fixes at zero gets the sample value. -/
theorem C267_fixed_violated :
    dataRows ["a", "b"] (fun _ _ => 1) (fun _ => 0) [⟨"a", "~~", "b", none, true, some 0⟩] = [⟨"a", "~~", "b", none, true, some 1⟩] := by
  decide +kernel

/-- **C267** Free parameters start at 0.001 for loadings, 1 and 0.1 for variances of the two covariance matrices, and 0 else. -/
theorem C267_start (mat : ℕ) (r : Row) (hf : r.fixed = false) :
    startValue mat r = if r.rel = "=~" then some (1 / 1000) else
      if r.rel = "~~" ∧ r.lhs = r.rhs ∧ mat = 2 then some 1 else if r.rel = "~~" ∧ r.lhs = r.rhs ∧ mat = 3 then some (1 / 10) else some 0 := by
  by_cases h : r.rel = "=~"
  · simp [startValue, hf, h]
  · by_cases g : r.rel = "~~" ∧ r.lhs = r.rhs
    · by_cases h2 : mat = 2
      · simp [startValue, hf, g, h2]
      · by_cases h3 : mat = 3 <;> simp [startValue, hf, g, h2, h3]
    · have g2 : ∀ k, ¬ (r.lhs = r.rhs ∧ r.rel = "~~" ∧ mat = k) := fun k hh => g ⟨hh.2.1, hh.1⟩
      have g3 : ∀ k, ¬ (r.rel = "~~" ∧ r.lhs = r.rhs ∧ mat = k) := fun k hh => g ⟨hh.1, hh.2.1⟩
      simp only [startValue, hf, h, if_neg (g2 _), if_neg (g3 _)]
      simp

/-- **C267** Free variances start positive. -/
theorem C267_start_pos (mat : ℕ) (r : Row) (hf : r.fixed = false) (hr : r.rel = "~~") (he : r.lhs = r.rhs) (hm : mat = 2 ∨ mat = 3) :
    ∃ s, startValue mat r = some s ∧ 0 < s := by
  rw [C267_start mat r hf]
  rcases hm with h | h <;> simp [hr, he, h]

/-- **C267** Fixed parameters that are not variances start at their value. -/
theorem C267_start_fixed_partial (mat : ℕ) (r : Row) (hf : r.fixed = true) (hv : ¬ (r.rel = "~~" ∧ r.lhs = r.rhs)) :
    startValue mat r = r.fixedval := by
  have g2 : ∀ k, ¬ (r.lhs = r.rhs ∧ r.rel = "~~" ∧ mat = k) := fun k hh => hv ⟨hh.2.1, hh.1⟩
  simp only [startValue, hf, if_neg (g2 _)]
  simp

/-- **C267 (violated)** Fixed variances do not: whatever their value, they start at 1 and 0.1. -/
theorem C267_start_fixed_violated (a : String) (v : Option ℚ) :
    startValue 2 ⟨a, "~~", a, none, true, v⟩ = some 1 ∧ startValue 3 ⟨a, "~~", a, none, true, v⟩ = some (1 / 10) := by
  simp [startValue]

example : ∀ a b : String, (fun _ _ => (1 : ℚ)) a b = (fun _ _ => (1 : ℚ)) b a := fun _ _ => rfl

end Verif.Sem.OldTable
