import Verif.Eln.LarsDrop
import Mathlib.Tactic
/-!
# C280: the lasso modification stops the step where a coefficient reaches zero
-/
namespace Verif.Eln
variable {l : List (ℝ × ℝ)} {gam : ℝ}

theorem ldMin_le : ldMin l gam ≤ gam := by
  unfold ldMin
  split
  · exact le_rfl
  · exact min_le_right _ _

theorem ldMin_pos (h : 0 < gam) : 0 < ldMin l gam := by
  unfold ldMin
  split
  · exact h
  · rename_i m hm
    rw [List.min?_eq_some_iff] at hm
    have := (List.mem_filter.mp hm.1).2
    exact lt_min (by simpa using this) h

theorem ldMin_ratio {x : ℝ × ℝ} (hx : x ∈ l) (h : 0 < ldRatio x) : ldMin l gam ≤ ldRatio x := by
  have hmem : ldRatio x ∈ (l.map ldRatio).filter fun r => decide (0 < r) :=
    List.mem_filter.mpr ⟨List.mem_map_of_mem hx, by simpa using h⟩
  unfold ldMin
  split
  · rename_i hn
    rw [List.min?_eq_none_iff] at hn
    rw [hn] at hmem; simp at hmem
  · rename_i m hm
    rw [List.min?_eq_some_iff] at hm
    exact (min_le_left _ _).trans (hm.2 _ hmem)

theorem lassoMod_step : (lassoMod l gam).2 = ldMin l gam := by
  unfold lassoMod
  split
  · rfl
  · rename_i h; exact le_antisymm (not_lt.mp h) ldMin_le

/-- The step is positive and at most that of least angle regression. -/
theorem C280_step (h : 0 < gam) : 0 < (lassoMod l gam).2 ∧ (lassoMod l gam).2 ≤ gam := by
  rw [lassoMod_step]; exact ⟨ldMin_pos h, ldMin_le⟩

/-- Before its end no coefficient changes sign or vanishes. -/
theorem C280_sign {x : ℝ × ℝ} (hx : x ∈ l) (hb : x.1 ≠ 0) {t : ℝ} (ht : 0 ≤ t) (hlt : t < (lassoMod l gam).2) : 0 < x.1 * (x.1 + t * x.2) := by
  rw [lassoMod_step] at hlt
  by_contra hn
  have hn := not_lt.mp hn
  have hb2 : 0 < x.1 ^ 2 := by positivity
  have h1 : x.1 ^ 2 ≤ t * -(x.1 * x.2) := by nlinarith
  have ht' : 0 < t := by
    rcases ht.eq_or_lt with rfl | h
    · simp at h1; exact absurd h1 hb
    · exact h
  have h2 : 0 < -(x.1 * x.2) := by
    by_contra h
    nlinarith [not_lt.mp h]
  have hw : x.2 ≠ 0 := by rintro h; rw [h] at h2; simp at h2
  have hr : ldRatio x = x.1 ^ 2 / -(x.1 * x.2) := by unfold ldRatio; field_simp
  have hpos : 0 < ldRatio x := by rw [hr]; positivity
  have hle : ldRatio x ≤ t := by rw [hr, div_le_iff₀ h2]; exact h1
  exact absurd (ldMin_ratio (gam := gam) hx hpos) (not_le.mpr (hle.trans_lt hlt))

/-- The variables dropped are those whose coefficient, not zero before, is zero at the end of the step, and there is at least one. -/
theorem C280_drops (h : 0 < gam) {ds : List Bool} (hd : (lassoMod l gam).1 = some ds) :
    ds = l.map (fun x => decide (x.1 ≠ 0 ∧ x.1 + (lassoMod l gam).2 * x.2 = 0)) ∧ true ∈ ds := by
  have hpos := ldMin_pos (l := l) h
  rw [lassoMod_step]
  unfold lassoMod at hd
  split at hd
  · rename_i hlt
    obtain rfl := (Option.some.inj hd).symm
    refine ⟨List.map_congr_left fun x _ => ?_, ?_⟩
    · rw [decide_eq_decide]
      constructor
      · intro he
        have hw : x.2 ≠ 0 := by rintro h0; rw [ldRatio, h0, div_zero] at he; exact hpos.ne he
        have h1 : x.1 = -(ldMin l gam * x.2) := by rw [← he, ldRatio]; field_simp
        refine ⟨?_, by linarith⟩
        rw [h1]; exact neg_ne_zero.mpr (mul_ne_zero hpos.ne' hw)
      · rintro ⟨hb, he⟩
        have hw : x.2 ≠ 0 := by rintro h0; rw [h0, mul_zero, add_zero] at he; exact hb he
        rw [ldRatio, div_eq_iff hw]; linarith
    · rw [List.mem_map]
      unfold ldMin at hlt ⊢
      split at hlt
      · exact absurd hlt (lt_irrefl _)
      · rename_i m hm
        have hm' := hm
        rw [List.min?_eq_some_iff] at hm'
        obtain ⟨x, hx, hxm⟩ := List.mem_map.mp (List.mem_filter.mp hm'.1).1
        have hmg : m < gam := by
          by_contra hc
          rw [min_eq_right (not_lt.mp hc)] at hlt; exact lt_irrefl _ hlt
        exact ⟨x, hx, by simp [hxm, min_eq_left hmg.le]⟩
  · simp at hd

/-- Without drops the step is that of least angle regression. -/
theorem C280_none (hd : (lassoMod l gam).1 = none) : (lassoMod l gam).2 = gam := by
  unfold lassoMod at hd ⊢
  split
  · rename_i h; rw [if_pos h] at hd; simp at hd
  · rfl

/-- If one variable is dropped, the factor holds the rows of the variables left. -/
theorem C280_factor_partial {α : Type*} (a b : List α) (x : α) :
    let drops := List.replicate a.length false ++ true :: List.replicate b.length false
    ldFactor (a ++ x :: b) drops = a ++ b ∧ ldActive (a ++ x :: b) drops = a ++ b := by
  intro drops
  have hix : ldIx drops = [a.length] := by
    unfold ldIx
    have e : List.range drops.length = List.range a.length ++ a.length :: (List.range b.length).map (a.length + 1 + ·) := by
      have : drops.length = a.length + (1 + b.length) := by simp [drops]; omega
      rw [this, List.range_add, List.range_add, List.map_append, List.map_map]
      simp [Function.comp_def, add_assoc]
    rw [e, List.filter_append, List.filter_cons]
    have h1 : (List.range a.length).filter (fun k => drops.getD k false) = [] := by
      rw [List.filter_eq_nil_iff]
      intro k hk
      have := List.mem_range.mp hk
      simp [drops, List.getElem?_append, this]
    have h2 : ((List.range b.length).map (a.length + 1 + ·)).filter (fun k => drops.getD k false) = [] := by
      rw [List.filter_eq_nil_iff]
      intro k hk
      obtain ⟨m, hm, rfl⟩ := List.mem_map.mp hk
      have := List.mem_range.mp hm
      have h3 : a.length + 1 + m - a.length = m + 1 := by omega
      simp [drops, List.getElem?_append, h3, this, show ¬ a.length + 1 + m < a.length by omega]
    rw [h1, h2]
    simp [drops]
  have hz : ∀ c : List α, ((c.zip (List.replicate c.length false)).filter fun x => !x.2).map Prod.fst = c := by
    intro c
    induction c with
    | nil => rfl
    | cons y c ih => simpa [List.replicate_succ] using ih
  refine ⟨?_, ?_⟩
  · unfold ldFactor
    rw [hix]
    simp [List.eraseIdx_append_of_length_le]
  · unfold ldActive
    rw [List.zip_append (by simp), List.filter_append, List.map_append, hz]
    simp [hz]

/-- If two are dropped at once, the second position is not that of the variable any more, and the factor keeps the row of a variable that has left. -/
theorem C280_factor_violated : ∃ drops : List Bool, ldFactor [0, 1, 2] drops = [1] ∧ ldActive [0, 1, 2] drops = [2] :=
  ⟨[true, true, false], by decide +kernel, by decide +kernel⟩

/-- Two coefficients do reach zero at once. -/
example : (lassoMod [(1, -1), (2, -2), (1, 1)] 5).1 = some [true, true, false] := by
  have hm : ldMin [(1, -1), (2, -2), (1, 1)] 5 = 1 := by norm_num [ldMin, ldRatio, List.filter]
  unfold lassoMod
  rw [hm]
  norm_num [ldRatio]

end Verif.Eln
