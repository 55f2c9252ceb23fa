import Verif.Sim.TermCoefs
import Verif.Sim.LinearProps
import Mathlib.Tactic

/-!
C256: the coefficients of a simulated model with numerical and categorical terms.
-/

namespace Verif.Sim
open Finset

theorem Tiled.le {a n : ℕ} {ts : List SimTerm} (h : Tiled a ts n) : a ≤ n := by
  induction ts generalizing a with
  | nil => exact le_of_eq h
  | cons t ts ih => exact h.2.1.trans (ih h.2.2)

theorem Tiled.start_le {a n : ℕ} {ts : List SimTerm} (h : Tiled a ts n) {m : ℕ} {t : SimTerm} (ht : ts[m]? = some t) :
    a ≤ t.start ∧ t.start ≤ t.stop ∧ t.stop ≤ n := by
  induction ts generalizing a m with
  | nil => simp at ht
  | cons s ts ih =>
    cases m with
    | zero =>
      simp only [List.getElem?_cons_zero, Option.some.injEq] at ht
      subst ht
      exact ⟨h.1.ge, h.1 ▸ h.2.1, h.2.2.le⟩
    | succ m =>
      have := ih h.2.2 (by simpa using ht)
      exact ⟨h.2.1.trans this.1, this.2⟩

theorem simClassGo_before {a n : ℕ} {ts : List SimTerm} (h : Tiled a ts n) (k : ℕ) (f : ℕ → ℤ) (i : ℕ) (hi : i < a) :
    simClassGo ts k f i = f i := by
  induction ts generalizing a k f with
  | nil => rfl
  | cons t ts ih =>
    rw [simClassGo, ih h.2.2 _ _ (hi.trans_le h.2.1), if_neg (fun hh => by have := h.1; omega)]

theorem simClassGo_at {a n : ℕ} {ts : List SimTerm} (h : Tiled a ts n) (k : ℕ) (f : ℕ → ℤ) (m i : ℕ) (t : SimTerm)
    (ht : ts[m]? = some t) (h1 : t.start ≤ i) (h2 : i < t.stop) :
    simClassGo ts k f i = if t.factors.all id then -1 else ((k + m : ℕ) : ℤ) := by
  induction ts generalizing a k f m with
  | nil => simp at ht
  | cons s ts ih =>
    cases m with
    | zero =>
      simp only [List.getElem?_cons_zero, Option.some.injEq] at ht
      subst ht
      rw [simClassGo, simClassGo_before h.2.2 _ _ _ h2, if_pos ⟨h1, h2⟩, Nat.add_zero]
    | succ m =>
      rw [simClassGo, ih h.2.2 (k + 1) _ m (by simpa using ht)]
      congr 2; omega

theorem Tiled.exists_term {a n : ℕ} {ts : List SimTerm} (h : Tiled a ts n) (i : ℕ) (h1 : a ≤ i) (h2 : i < n) :
    ∃ (m : ℕ) (t : SimTerm), ts[m]? = some t ∧ t.start ≤ i ∧ i < t.stop := by
  induction ts generalizing a with
  | nil => have : a = n := h; omega
  | cons s ts ih =>
    by_cases hs : i < s.stop
    · exact ⟨0, s, by simp, h.1 ▸ h1, hs⟩
    · obtain ⟨m, t, hm, ht⟩ := ih h.2.2 (not_lt.1 hs)
      exact ⟨m + 1, t, by simpa using hm, ht⟩

/-- **C256** The columns of a term of numerical factors, the intercept among them, get class minus one; the columns of any other term get the
place of the term. -/
theorem C256_classes {n : ℕ} (terms : List SimTerm) (h : Tiled 0 terms n) (m i : ℕ) (t : SimTerm) (ht : terms[m]? = some t)
    (h1 : t.start ≤ i) (h2 : i < t.stop) : simClass terms i = if t.factors.all id then -1 else (m : ℤ) := by
  rw [simClass, simClassGo_at h 0 _ m i t ht h1 h2, Nat.zero_add]

/-- **C256** The columns with the class of a term that is not numerical are exactly its own. -/
theorem C256_own {n : ℕ} (terms : List SimTerm) (h : Tiled 0 terms n) (m i : ℕ) (t : SimTerm) (ht : terms[m]? = some t)
    (hi : i < n) : simClass terms i = (m : ℤ) → t.start ≤ i ∧ i < t.stop := by
  intro hc
  obtain ⟨m', t', hm', h1, h2⟩ := h.exists_term i (Nat.zero_le i) hi
  rw [C256_classes terms h m' i t' hm' h1 h2] at hc
  split_ifs at hc with ha
  have : m' = m := by exact_mod_cast hc
  subst this
  rw [ht] at hm'
  cases hm'
  exact ⟨h1, h2⟩

theorem simClass_ge {n : ℕ} (terms : List SimTerm) (h : Tiled 0 terms n) (i : ℕ) (hi : i < n) : -1 ≤ simClass terms i := by
  obtain ⟨m', t', hm', h1, h2⟩ := h.exists_term i (Nat.zero_le i) hi
  rw [C256_classes terms h m' i t' hm' h1 h2]
  split_ifs <;> omega

/-- The value the loop leaves at a column whose class is not numerical. -/
theorem coefLoop_cat (n : ℕ) (cls : ℕ → ℤ) (share : ℕ → ℕ) (draw : ℕ → ℕ → List ℕ) (u : List ℤ) (m : ℕ) (b b' : ℕ → ℝ) (i : ℕ)
    (hc : cls i ≠ -1) (h : coefLoop n cls share draw u m b = some b') :
    b' i = if cls i ∈ u then coefCat (classCount n cls (cls i)) (classRank cls i) else b i := by
  induction u generalizing m b with
  | nil => simp only [coefLoop, Option.some.injEq] at h; simp [h]
  | cons c u ih =>
    rw [coefLoop] at h
    obtain ⟨v, hv, h⟩ := Option.bind_eq_some_iff.1 h
    rw [ih _ _ h]
    by_cases hcu : cls i ∈ u
    · rw [if_pos hcu, if_pos (List.mem_cons_of_mem _ hcu)]
    · rw [if_neg hcu]
      by_cases he : cls i = c
      · subst he
        rw [classCoef, if_neg hc] at hv
        cases hv
        simp
      · rw [if_neg he, if_neg (by simp [he, hcu])]

theorem coefLoop_num (n : ℕ) (cls : ℕ → ℤ) (share : ℕ → ℕ) (draw : ℕ → ℕ → List ℕ) (u : List ℤ) (m : ℕ) (b b' : ℕ → ℝ) (i : ℕ)
    (hc : cls i = -1) (hu : -1 ∉ u) (h : coefLoop n cls share draw u m b = some b') : b' i = b i := by
  induction u generalizing m b with
  | nil => simp only [coefLoop, Option.some.injEq] at h; rw [h]
  | cons c u ih =>
    rw [coefLoop] at h
    obtain ⟨v, hv, h⟩ := Option.bind_eq_some_iff.1 h
    simp only [List.mem_cons, not_or] at hu
    rw [ih _ _ hu.2 h, if_neg (by rw [hc]; exact hu.1)]

theorem classUnique_head (n : ℕ) (cls : ℕ → ℤ) (hge : ∀ i < n, -1 ≤ cls i) (i : ℕ) (hi : i < n) (hc : cls i = -1) :
    ∃ u, classUnique n cls = -1 :: u ∧ -1 ∉ u := by
  have hmem : (-1 : ℤ) ∈ classUnique n cls := by
    rw [classUnique, Finset.mem_sort]; exact Finset.mem_image.2 ⟨i, Finset.mem_range.2 hi, hc⟩
  have hnd : (classUnique n cls).Nodup := Finset.sort_nodup _ _
  have hs : (classUnique n cls).Pairwise (· ≤ ·) := Finset.pairwise_sort _ _
  have hall : ∀ c ∈ classUnique n cls, -1 ≤ c := fun c hcm => by
    rw [classUnique, Finset.mem_sort] at hcm
    obtain ⟨j, hj, rfl⟩ := Finset.mem_image.1 hcm
    exact hge j (Finset.mem_range.1 hj)
  generalize classUnique n cls = l at *
  cases l with
  | nil => simp at hmem
  | cons c u =>
    have h1 := hall c (by simp)
    have h2 : c ≤ -1 := by
      rcases List.mem_cons.1 hmem with e | e
      · exact e.ge
      · exact (List.pairwise_cons.1 hs).1 _ e
    have e : c = -1 := le_antisymm h2 h1
    subst e
    exact ⟨u, rfl, (List.nodup_cons.1 hnd).1⟩

theorem classRank_cat {n : ℕ} (terms : List SimTerm) (h : Tiled 0 terms n) (m : ℕ) (t : SimTerm) (ht : terms[m]? = some t)
    (hcat : t.factors.all id = false) (j : ℕ) (hj : t.start + j < t.stop) :
    classRank (simClass terms) (t.start + j) = j ∧ classCount n (simClass terms) (simClass terms (t.start + j)) = t.stop - t.start := by
  have hb := h.start_le ht
  have hcl : ∀ i, i < n → (simClass terms i = (m : ℤ) ↔ t.start ≤ i ∧ i < t.stop) := fun i hi =>
    ⟨C256_own terms h m i t ht hi, fun hh => by rw [C256_classes terms h m i t ht hh.1 hh.2, hcat]; rfl⟩
  have he : simClass terms (t.start + j) = (m : ℤ) := (hcl _ (by omega)).2 ⟨by omega, hj⟩
  constructor
  · have : ((range (t.start + j)).filter fun i => simClass terms i = simClass terms (t.start + j)) = Finset.Ico t.start (t.start + j) := by
      ext i
      simp only [Finset.mem_filter, Finset.mem_range, Finset.mem_Ico, he]
      constructor
      · rintro ⟨h1, h2⟩; exact ⟨((hcl i (by omega)).1 h2).1, h1⟩
      · rintro ⟨h1, h2⟩; exact ⟨h2, (hcl i (by omega)).2 ⟨h1, by omega⟩⟩
    rw [classRank, this, Nat.card_Ico]; omega
  · have : ((range n).filter fun i => simClass terms i = simClass terms (t.start + j)) = Finset.Ico t.start t.stop := by
      ext i
      simp only [Finset.mem_filter, Finset.mem_range, Finset.mem_Ico, he]
      constructor
      · rintro ⟨h1, h2⟩; exact (hcl i h1).1 h2
      · rintro ⟨h1, h2⟩; exact ⟨by omega, (hcl i (by omega)).2 ⟨h1, h2⟩⟩
    rw [classCount, this, Nat.card_Ico]

/-- **C256** Every term that is not numerical gets the contrast of C221 in its own columns, in order, whatever the other terms and the draw. -/
theorem C256_categorical {n : ℕ} (terms : List SimTerm) (h : Tiled 0 terms n) (share : ℕ → ℕ) (draw : ℕ → ℕ → List ℕ) (b : ℕ → ℝ)
    (hb : makeTermCoefs n terms share draw false = some b) (m : ℕ) (t : SimTerm) (ht : terms[m]? = some t)
    (hcat : t.factors.all id = false) (j : ℕ) (hj : t.start + j < t.stop) : b (t.start + j) = coefCat (t.stop - t.start) j := by
  have hlt : t.start + j < n := hj.trans_le (h.start_le ht).2.2
  have hm : simClass terms (t.start + j) = (m : ℤ) := by
    rw [C256_classes terms h m _ t ht (by omega) hj, hcat]; rfl
  obtain ⟨b', hb', he⟩ := Option.bind_eq_some_iff.1 hb
  simp only [Bool.false_eq_true, if_false, Option.some.injEq] at he
  subst he
  rw [coefLoop_cat _ _ _ _ _ _ _ _ _ (by rw [hm]; omega) hb', if_pos, (classRank_cat terms h m t ht hcat j hj).1,
    (classRank_cat terms h m t ht hcat j hj).2]
  rw [classUnique, Finset.mem_sort]
  exact Finset.mem_image.2 ⟨_, Finset.mem_range.2 hlt, rfl⟩

/-- **C256** So the coefficients of a categorical term with more than one column sum to zero. -/
theorem C256_sum {n : ℕ} (terms : List SimTerm) (h : Tiled 0 terms n) (share : ℕ → ℕ) (draw : ℕ → ℕ → List ℕ) (b : ℕ → ℝ)
    (hb : makeTermCoefs n terms share draw false = some b) (m : ℕ) (t : SimTerm) (ht : terms[m]? = some t)
    (hcat : t.factors.all id = false) (h2 : 1 < t.stop - t.start) : ∑ j ∈ range (t.stop - t.start), b (t.start + j) = 0 := by
  rw [← C221_cat _ h2]
  refine Finset.sum_congr rfl fun j hj => C256_categorical terms h share draw b hb m t ht hcat j ?_
  have := Finset.mem_range.1 hj
  omega

/-- **C256** The numerical terms share one draw over all their columns, the intercept's included, with the first share of `p_nnz`. -/
theorem C256_numerical {n : ℕ} (terms : List SimTerm) (h : Tiled 0 terms n) (share : ℕ → ℕ) (draw : ℕ → ℕ → List ℕ) (b : ℕ → ℝ)
    (hb : makeTermCoefs n terms share draw false = some b) (i : ℕ) (hi : i < n) (hc : simClass terms i = -1) :
    ∃ v, coefNum (classCount n (simClass terms) (-1)) (share 0) draw = some v ∧ b i = v (classRank (simClass terms) i) := by
  obtain ⟨b', hb', he⟩ := Option.bind_eq_some_iff.1 hb
  simp only [Bool.false_eq_true, if_false, Option.some.injEq] at he
  subst he
  obtain ⟨u, hu, hn⟩ := classUnique_head n (simClass terms) (fun i hi => simClass_ge terms h i hi) i hi hc
  rw [hu, coefLoop] at hb'
  obtain ⟨v, hv, hl⟩ := Option.bind_eq_some_iff.1 hb'
  rw [classCoef, if_pos rfl] at hv
  exact ⟨v, hv, by rw [coefLoop_num _ _ _ _ _ _ _ _ _ hc hn hl, if_pos hc]⟩

theorem coefLoop_share (n : ℕ) (cls : ℕ → ℤ) (share share' : ℕ → ℕ) (draw : ℕ → ℕ → List ℕ) (u : List ℤ) (hu : -1 ∉ u) (m : ℕ) (b : ℕ → ℝ) :
    coefLoop n cls share draw u m b = coefLoop n cls share' draw u m b := by
  induction u generalizing m b with
  | nil => rfl
  | cons c u ih =>
    simp only [List.mem_cons, not_or] at hu
    simp only [coefLoop, classCoef, if_neg (Ne.symm hu.1), Option.bind_some]
    exact ih hu.2 _ _

/-- **C256** Of a sequence `p_nnz` only the first entry is used: one share for each class, as the code builds, is one share for all. -/
theorem C256_share {n : ℕ} (terms : List SimTerm) (h : Tiled 0 terms n) (share share' : ℕ → ℕ) (hs : share 0 = share' 0)
    (draw : ℕ → ℕ → List ℕ) (z : Bool) : makeTermCoefs n terms share draw z = makeTermCoefs n terms share' draw z := by
  have key : coefLoop n (simClass terms) share draw (classUnique n (simClass terms)) 0 (fun _ => 0) =
      coefLoop n (simClass terms) share' draw (classUnique n (simClass terms)) 0 (fun _ => 0) := by
    by_cases hm : (-1 : ℤ) ∈ classUnique n (simClass terms)
    · have hm' := hm
      rw [classUnique, Finset.mem_sort] at hm'
      obtain ⟨i, hi, hc⟩ := Finset.mem_image.1 hm'
      obtain ⟨u, hu, hn⟩ := classUnique_head n (simClass terms) (fun i hi => simClass_ge terms h i hi) i (Finset.mem_range.1 hi) hc
      rw [hu]
      simp only [coefLoop, classCoef, if_true, hs]
      cases coefNum (classCount n (simClass terms) (-1)) (share' 0) draw with
      | none => rfl
      | some v => exact coefLoop_share n _ share share' draw u hn _ _
    · exact coefLoop_share n _ share share' draw _ hm 0 _
  unfold makeTermCoefs
  simp only [key]

theorem drawSign_some (l : List ℕ) (z i k : ℕ) (h : l.idxOf? i = some k) : drawSign l z i = if k < z / 2 then -1 else 1 := by
  simp only [drawSign, h]

/-- **C256** A draw of distinct positions gives coefficients in minus one, zero and one; as many as drawn are not zero, and half of these, rounded
down, are negative. -/
theorem C256_draw (nVar share : ℕ) (draw : ℕ → ℕ → List ℕ) (v : ℕ → ℝ) (hv : coefNum nVar share draw = some v)
    (hl : (draw nVar (max share 1)).length = max share 1) (hnd : (draw nVar (max share 1)).Nodup) :
    (∀ i, v i = -1 ∨ v i = 0 ∨ v i = 1) ∧ (∀ i, v i ≠ 0 ↔ i ∈ draw nVar (max share 1)) ∧
      (((draw nVar (max share 1)).filter fun i => v i = -1).length = max share 1 / 2) ∧ max share 1 ≤ nVar := by
  unfold coefNum at hv
  simp only at hv
  split_ifs at hv with hlt
  simp only [Option.some.injEq] at hv
  subst hv
  generalize hd : draw nVar (max share 1) = l at *
  generalize max share 1 = z at *
  refine ⟨fun i => ?_, fun i => ?_, ?_, not_lt.1 hlt⟩
  · cases h : l.idxOf? i with
    | none => simp [drawSign, h]
    | some k => rw [drawSign_some l z i k h]; split_ifs <;> simp
  · cases h : l.idxOf? i with
    | none =>
      have hn := h
      rw [List.idxOf?_eq_none_iff] at hn
      simp [drawSign, h, hn]
    | some k =>
      have : i ∈ l := by
        by_contra hh
        rw [← List.idxOf?_eq_none_iff] at hh
        rw [hh] at h; exact absurd h (by simp)
      simp only [this, iff_true]
      rw [drawSign_some l z i k h]
      split_ifs <;> norm_num
  · have hk : ∀ (k : ℕ) (hk : k < l.length), drawSign l z l[k] = if k < z / 2 then -1 else 1 := fun k hk => by
      refine drawSign_some l z _ k ?_
      rw [List.idxOf?, List.findIdx?_eq_some_iff_getElem]
      refine ⟨hk, by simp, fun j hj => ?_⟩
      simp only [beq_iff_eq]
      intro e
      have := (List.Nodup.getElem_inj_iff hnd).1 e
      omega
    have hz : z / 2 ≤ l.length := by omega
    have h1 : (l.take (z / 2)).filter (fun i => decide (drawSign l z i = -1)) = l.take (z / 2) := by
      rw [List.filter_eq_self]
      intro a ha
      obtain ⟨k, hk', rfl⟩ := List.getElem_of_mem ha
      rw [List.length_take] at hk'
      rw [List.getElem_take, hk k (by omega), if_pos (by omega)]
      simp
    have h2 : (l.drop (z / 2)).filter (fun i => decide (drawSign l z i = -1)) = [] := by
      rw [List.filter_eq_nil_iff]
      intro a ha
      obtain ⟨k, hk', rfl⟩ := List.getElem_of_mem ha
      rw [List.length_drop] at hk'
      rw [List.getElem_drop, hk _ (by omega), if_neg (by omega)]
      norm_num
    have := congrArg List.length (List.filter_append (p := fun i => decide (drawSign l z i = -1)) (l.take (z / 2)) (l.drop (z / 2)))
    rw [h1, h2, List.take_append_drop, List.append_nil, List.length_take, min_eq_left hz] at this
    exact this

/-- **C256** With `zero_intercept` the intercept gets zero and nothing else changes. -/
theorem C256_intercept {n : ℕ} (terms : List SimTerm) (share : ℕ → ℕ) (draw : ℕ → ℕ → List ℕ) (b b' : ℕ → ℝ) (t : SimTerm)
    (ht : interceptSlice terms = some t) (hb : makeTermCoefs n terms share draw false = some b)
    (hb' : makeTermCoefs n terms share draw true = some b') (i : ℕ) :
    b' i = if t.start ≤ i ∧ i < t.stop then 0 else b i := by
  obtain ⟨c, hc, he⟩ := Option.bind_eq_some_iff.1 hb
  obtain ⟨c', hc', he'⟩ := Option.bind_eq_some_iff.1 hb'
  rw [hc] at hc'
  cases hc'
  simp only [Bool.false_eq_true, if_false, Option.some.injEq] at he
  simp only [if_true, ht, Option.bind_eq_bind, Option.bind_some, Option.some.injEq] at he'
  rw [← he', he]

/-- **C256 (violated)** A formula without an intercept raises under the default `zero_intercept`. -/
theorem C256_intercept_violated {n : ℕ} (terms : List SimTerm) (share : ℕ → ℕ) (draw : ℕ → ℕ → List ℕ)
    (h : ∀ t ∈ terms, t.factors ≠ []) : makeTermCoefs n terms share draw true = none := by
  have : interceptSlice terms = none := by
    rw [interceptSlice, List.find?_eq_none]
    intro t ht
    simpa using h t ht
  unfold makeTermCoefs
  simp [this]

/-- A design with an intercept, a number, a factor of three columns and a mixed interaction is tiled. -/
example : Tiled 0 [⟨[], 0, 1⟩, ⟨[true], 1, 2⟩, ⟨[false], 2, 5⟩, ⟨[true, false], 5, 8⟩] 8 := by simp [Tiled]

example : (List.range 8).map (simClass [⟨[], 0, 1⟩, ⟨[true], 1, 2⟩, ⟨[false], 2, 5⟩, ⟨[true, false], 5, 8⟩]) = [-1, -1, 2, 2, 2, 3, 3, 3] := by
  decide

end Verif.Sim
