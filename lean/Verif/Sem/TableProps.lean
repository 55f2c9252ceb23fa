import Verif.Sem.TableLemmas
import Mathlib.Tactic.Linarith
/-!
# C29, C31, C48: variable order, parameter numbering, matrix assignment
-/
set_option linter.unusedSectionVars false
namespace Verif.Sem
open Verif.Func

/-! ## C29 -/

section C29
variable {α : Type*} [DecidableEq α]

/-- Contract of `sorted` on a set: an arrangement of its elements without repetition. -/
def SortsSets (srt : Finset α → List α) : Prop :=
  ∀ S, (srt S).Nodup ∧ (srt S).toFinset = S

/-- Specification: `d` is a bijection between the variables `S` and `0 .. |S|-1`. -/
def IsOrder (d : Dict α ℕ) (S : Finset α) : Prop :=
  (∀ v ∈ S, ∃ i < S.card, Dict.get d v = some i) ∧
  (∀ i < S.card, ∃ v ∈ S, Dict.get d v = some i) ∧
  (∀ v, v ∉ S → Dict.get d v = none) ∧
  (∀ v w i, Dict.get d v = some i → Dict.get d w = some i → v = w)

theorem ordDict_isOrder (l : List α) (hl : l.Nodup) : IsOrder (ordDict l) l.toFinset := by
  have hc : l.toFinset.card = l.length := List.toFinset_card_of_nodup hl
  have hlt : ∀ i v, l[i]? = some v → i < l.length := fun i v h =>
    (List.getElem?_eq_some_iff.1 h).1
  refine ⟨?_, ?_, ?_, ?_⟩
  · intro v hv
    obtain ⟨i, hi⟩ := List.mem_iff_getElem?.1 (List.mem_toFinset.1 hv)
    exact ⟨i, hc ▸ hlt i v hi, (ordDict_get l hl v i).2 hi⟩
  · intro i hi
    rw [hc] at hi
    exact ⟨l[i], List.mem_toFinset.2 (List.getElem_mem hi),
      (ordDict_get l hl _ i).2 (List.getElem?_eq_getElem hi)⟩
  · intro v hv
    rcases h : Dict.get (ordDict l) v with _ | i
    · rfl
    · exact absurd (List.mem_toFinset.2 (List.mem_of_getElem? ((ordDict_get l hl v i).1 h))) hv
  · intro v w i h1 h2
    have h1 := (ordDict_get l hl v i).1 h1
    have h2 := (ordDict_get l hl w i).1 h2
    rw [h1] at h2
    exact Option.some.inj h2

/-- The order of the observed variables is always a bijection. -/
theorem C29_obs_order (srt : Finset α → List α) (hs : SortsSets srt) (obs : Finset α) :
    IsOrder (obsOrder srt obs) obs := by
  have h := ordDict_isOrder (srt obs) (hs obs).1
  rwa [(hs obs).2] at h

theorem mem_srt (srt : Finset α → List α) (hs : SortsSets srt) (S : Finset α) (x : α) :
    x ∈ srt S ↔ x ∈ S := by
  rw [← List.mem_toFinset, (hs S).2]

/-- Every variable of the subset occurs in the default order and nothing else does. -/
theorem C29_mem (srt : Finset α → List α) (hs : SortsSets srt)
    (subset obs nob ind endo : Finset α) (v : α) :
    v ∈ defaultSort srt subset obs nob ind endo ↔ v ∈ subset := by
  unfold defaultSort
  simp only [List.mem_append, mem_srt srt hs, Finset.mem_inter, Finset.mem_sdiff,
    List.mem_toFinset]
  constructor
  · rintro ((((h | h) | h) | h) | h)
    · exact h.1.1
    · exact h.1.1
    · exact h.1.1
    · exact h.1
    · exact h.1
  · intro h
    by_cases h' : ((((v ∈ subset ∧ v ∈ obs) ∧ v ∈ ind) ∨ ((v ∈ subset ∧ v ∈ nob) ∧ v ∈ ind)) ∨
        ((v ∈ subset ∧ v ∈ obs) ∧ v ∈ endo)) ∨ (v ∈ subset ∧ (v ∈ nob ∧ ¬(v ∈ nob ∧ v ∈ ind)))
    · exact Or.inl h'
    · exact Or.inr ⟨h, h'⟩

/-- The latent-side order is a bijection when no variable of the subset is at once observed,
an indicator and endogenous (and no variable is both observed and unobserved). -/
theorem C29_lav_order_partial (srt : Finset α → List α) (hs : SortsSets srt)
    (subset obs nob ind endo : Finset α) (hon : Disjoint obs nob)
    (hie : ∀ v ∈ subset, v ∈ obs → v ∈ ind → v ∉ endo) :
    IsOrder (ordDict (defaultSort srt subset obs nob ind endo)) subset := by
  have hnd : (defaultSort srt subset obs nob ind endo).Nodup := by
    unfold defaultSort
    have on : ∀ v, v ∈ obs → v ∈ nob → False := fun v h1 h2 =>
      Finset.disjoint_left.1 hon h1 h2
    simp only [List.nodup_append, (hs _).1, true_and, List.mem_append, mem_srt srt hs,
      Finset.mem_inter, Finset.mem_sdiff, List.mem_toFinset]
    refine ⟨⟨⟨?_, ?_⟩, ?_⟩, ?_⟩
    · rintro a ha b hb rfl
      exact on a ha.1.2 hb.1.2
    · rintro a (ha | ha) b hb rfl
      · exact hie a ha.1.1 ha.1.2 ha.2 hb.2
      · exact on a hb.1.2 ha.1.2
    · rintro a ((ha | ha) | ha) b hb rfl
      · exact on a ha.1.2 hb.2.1
      · exact hb.2.2 ⟨hb.2.1, ha.2⟩
      · exact on a ha.1.2 hb.2.1
    · rintro a ha b hb rfl
      exact hb.2 ha
  have h := ordDict_isOrder _ hnd
  have hset : (defaultSort srt subset obs nob ind endo).toFinset = subset := by
    ext v; rw [List.mem_toFinset, C29_mem srt hs]
  rwa [hset] at h

/-- The model `f =~ x1 + x2; x1 ~ z` (0 = x1, 1 = x2, 2 = z, 3 = f): the latent-side variables
are `{f, x1, z}`, `x1` is an indicator and endogenous and is listed twice, so `z` is sent to
index 3 of a matrix with 3 rows.  Here `srt` is any sort. -/
theorem C29_lav_order_violated (srt : Finset (Fin 4) → List (Fin 4)) (hs : SortsSets srt) :
    Dict.get (ordDict (defaultSort srt {0, 2, 3} {0, 1, 2} {3} {0, 1} {0})) 2 = some 3 ∧
    ({0, 2, 3} : Finset (Fin 4)).card = 3 ∧
    ¬ IsOrder (ordDict (defaultSort srt {0, 2, 3} {0, 1, 2} {3} {0, 1} {0})) {0, 2, 3} := by
  have one : ∀ a : Fin 4, srt {a} = [a] := by
    intro a
    obtain ⟨h1, h2⟩ := hs {a}
    have hl : (srt {a}).length = 1 := by
      rw [← List.toFinset_card_of_nodup h1, h2]; rfl
    obtain ⟨b, hb⟩ := List.length_eq_one_iff.1 hl
    rw [hb] at h2
    have : b ∈ ({a} : Finset (Fin 4)) := by rw [← h2]; simp
    rw [hb, Finset.mem_singleton.1 this]
  have nil : srt ∅ = [] := by
    have h2 := (hs ∅).2
    exact List.toFinset_eq_empty_iff _ |>.1 h2
  have e : defaultSort srt {0, 2, 3} {0, 1, 2} {3} {0, 1} {0} = [0, 0, 3, 2] := by
    unfold defaultSort
    have e1 : ({0, 2, 3} : Finset (Fin 4)) ∩ {0, 1, 2} ∩ {0, 1} = {0} := by decide
    have e2 : ({0, 2, 3} : Finset (Fin 4)) ∩ {3} ∩ {0, 1} = ∅ := by decide
    have e3 : ({0, 2, 3} : Finset (Fin 4)) ∩ {0, 1, 2} ∩ {0} = {0} := by decide
    have e4 : ({0, 2, 3} : Finset (Fin 4)) ∩ ({3} \ ({3} ∩ {0, 1})) = {3} := by decide
    simp only [e1, e2, e3, e4, one, nil]
    have e5 : ({0, 2, 3} : Finset (Fin 4)) \ ([0] ++ [] ++ [0] ++ [3] : List (Fin 4)).toFinset
        = {2} := by decide
    rw [e5, one]; rfl
  rw [e]
  have h2 : Dict.get (ordDict ([0, 0, 3, 2] : List (Fin 4))) 2 = some 3 := by decide
  refine ⟨h2, by decide, ?_⟩
  intro h
  obtain ⟨i, hi, hg⟩ := h.1 2 (by decide)
  rw [h2, Option.some.injEq] at hg
  have : ({0, 2, 3} : Finset (Fin 4)).card = 3 := by decide
  omega

/-- Satisfiability: sorts of sets exist (on `Fin 4`, filter the listing). -/
example : SortsSets (fun S : Finset (Fin 4) => [0, 1, 2, 3].filter (· ∈ S)) := by
  intro S
  refine ⟨List.Nodup.filter _ (by decide), ?_⟩
  ext x
  simp only [List.mem_toFinset, List.mem_filter, decide_eq_true_eq]
  refine ⟨fun h => h.2, fun h => ⟨?_, h⟩⟩
  have : ∀ x : Fin 4, x ∈ [0, 1, 2, 3] := by decide
  exact this x

example : ∀ v ∈ ({0, 2, 3} : Finset (Fin 4)), v ∈ ({0, 1, 2} : Finset (Fin 4)) →
    v ∈ ({1} : Finset (Fin 4)) → v ∉ ({0} : Finset (Fin 4)) := by decide

end C29

/-! ## C31 -/

section C31
variable {L : Type*} [DecidableEq L]

/-- Rows of one label are all fixed or all free. -/
def LabelsAgree (rows : List (IRow L)) : Prop :=
  ∀ r ∈ rows, ∀ s ∈ rows, r.label.isSome = true → r.label = s.label → r.fixed = s.fixed

/-- `free` at the row's own class representative. -/
theorem free_at (rows : List (IRow L)) (hn : (rows.map IRow.idx).Nodup) (i : ℕ) (r : IRow L)
    (hi : rows[i]? = some r) (ha : LabelsAgree rows) :
    ∃ i' r', rows[i']? = some r' ∧ (∀ ℓ, r'.label = some ℓ → r'.idx = repIdx rows ℓ) ∧
      r'.fixed = r.fixed ∧ (r' = r ∨ (r.label.isSome = true ∧ r'.label = r.label)) ∧
      (indexFree rows)[i]? =
        some (if r'.fixed = false then 1 + (rows.take i').countP (indep rows) else 0) := by
  obtain ⟨g, hg, hf⟩ := indexFree_eq rows hn
  have hr : r ∈ rows := List.mem_of_getElem? hi
  have hval : ∀ i' r', rows[i']? = some r' → (∀ ℓ, r'.label = some ℓ → r'.idx = repIdx rows ℓ) →
      g r'.idx = if r'.fixed = false then 1 + (rows.take i').countP (indep rows) else 0 := by
    intro i' r' hi' hrep
    have h1 := number_get (indep rows) rows 1 i'
    rw [hg, List.getElem?_map, hi'] at h1
    simp only [Option.map_some, Option.some.injEq] at h1
    rw [h1]
    have := indep_iff rows hn r' (List.mem_of_getElem? hi')
    by_cases hx : r'.fixed = false
    · rw [if_pos (this.2 ⟨hx, hrep⟩), if_pos hx]
    · rw [if_neg (fun h => hx (this.1 h).1), if_neg hx]
  rcases hl : r.label with _ | ℓ
  · refine ⟨i, r, hi, ?_, rfl, Or.inl rfl, ?_⟩
    · intro ℓ h; rw [hl] at h; simp at h
    · rw [hf, List.getElem?_map, hi]
      simp only [Option.map_some, hl]
      rw [hval i r hi (by intro ℓ h; rw [hl] at h; simp at h)]
  · obtain ⟨q, hq, hql, hqi⟩ := rep_row rows ℓ ((mem_labels rows ℓ).2 ⟨r, hr, hl⟩)
    obtain ⟨i', hi'⟩ := List.mem_iff_getElem?.1 hq
    have hrep : ∀ ℓ', q.label = some ℓ' → q.idx = repIdx rows ℓ' := by
      intro ℓ' h; rw [hql, Option.some.injEq] at h; rw [← h]; exact hqi
    refine ⟨i', q, hi', hrep, ha q hq r hr (by rw [hql]; rfl) (by rw [hql, hl]),
      Or.inr ⟨rfl, hql⟩, ?_⟩
    rw [hf, List.getElem?_map, hi]
    simp only [Option.map_some, hl]
    rw [← hqi, hval i' q hi' hrep]

theorem count_inj (p : IRow L → Bool) (rows : List (IRow L)) (i j : ℕ) (r s : IRow L)
    (hi : rows[i]? = some r) (hj : rows[j]? = some s) (hp : p r = true) (hq : p s = true)
    (h : (rows.take i).countP p = (rows.take j).countP p) : i = j := by
  rcases Nat.lt_trichotomy i j with hlt | h' | hlt
  · have := countP_take_lt p rows i j r hi hp hlt; omega
  · exact h'
  · have := countP_take_lt p rows j i s hj hq hlt; omega

/-- Number of free parameters: free rows, one per label. -/
def numFree (rows : List (IRow L)) : ℕ := rows.countP (indep rows)

/-- Rows with `free = 0` are exactly the fixed ones. -/
theorem C31_zero_iff_fixed_partial (rows : List (IRow L)) (hn : (rows.map IRow.idx).Nodup)
    (ha : LabelsAgree rows) (i : ℕ) (r : IRow L) (hi : rows[i]? = some r) :
    (indexFree rows)[i]? = some 0 ↔ r.fixed = true := by
  obtain ⟨i', r', _, _, h3, _, h5⟩ := free_at rows hn i r hi ha
  rw [h5, h3]
  by_cases hx : r.fixed = false
  · simp [hx]
  · simp only [Bool.not_eq_false] at hx; simp [hx]

/-- Two free rows have one number exactly when they are one row or share a label. -/
theorem C31_equal_iff_label_partial (rows : List (IRow L)) (hn : (rows.map IRow.idx).Nodup)
    (ha : LabelsAgree rows) (i j : ℕ) (r s : IRow L) (hi : rows[i]? = some r)
    (hj : rows[j]? = some s) (hr : r.fixed = false) (hs : s.fixed = false) :
    (indexFree rows)[i]? = (indexFree rows)[j]? ↔
      i = j ∨ (r.label.isSome = true ∧ r.label = s.label) := by
  obtain ⟨i', r', a1, a2, a3, a4, a5⟩ := free_at rows hn i r hi ha
  obtain ⟨j', s', b1, b2, b3, b4, b5⟩ := free_at rows hn j s hj ha
  have hi1 := (List.getElem?_eq_some_iff.1 hi)
  have hj1 := (List.getElem?_eq_some_iff.1 hj)
  have pos_of : ∀ (k m : ℕ) (t : IRow L), rows[k]? = some t → rows[m]? = some t → k = m := by
    intro k m t h1 h2
    obtain ⟨x1, x2⟩ := List.getElem?_eq_some_iff.1 h1
    obtain ⟨y1, y2⟩ := List.getElem?_eq_some_iff.1 h2
    have := List.nodup_iff_injective_getElem.1 (List.Nodup.of_map _ hn)
    have := @this ⟨k, x1⟩ ⟨m, y1⟩ (by simp only; rw [x2, y2])
    simpa using this
  have hpr : indep rows r' = true :=
    (indep_iff rows hn r' (List.mem_of_getElem? a1)).2 ⟨by rw [a3, hr], a2⟩
  have hps : indep rows s' = true :=
    (indep_iff rows hn s' (List.mem_of_getElem? b1)).2 ⟨by rw [b3, hs], b2⟩
  rw [a5, b5, if_pos (by rw [a3, hr]), if_pos (by rw [b3, hs]), Option.some.injEq]
  constructor
  · intro h
    have hij : i' = j' := count_inj _ rows i' j' r' s' a1 b1 hpr hps (by omega)
    subst hij
    rw [a1, Option.some.injEq] at b1
    subst b1
    rcases a4 with rfl | ⟨h1, h2⟩
    · rcases b4 with rfl | ⟨h3, h4⟩
      · left; exact pos_of i j _ hi hj
      · right; exact ⟨by rw [h4]; exact h3, h4⟩
    · rcases b4 with rfl | ⟨h3, h4⟩
      · right; exact ⟨h1, h2.symm⟩
      · right; exact ⟨h1, by rw [← h2, h4]⟩
  · intro h
    have hrow : r' = s' := by
      rcases h with rfl | ⟨h1, h2⟩
      · rw [hi, Option.some.injEq] at hj
        subst hj
        rcases a4 with rfl | ⟨h1, h2⟩
        · rcases b4 with rfl | ⟨h3, h4⟩
          · rfl
          · obtain ⟨ℓ, hℓ⟩ := Option.isSome_iff_exists.1 h3
            exact row_unique rows hn _ _ (List.mem_of_getElem? a1) (List.mem_of_getElem? b1)
              (by rw [a2 ℓ hℓ, b2 ℓ (by rw [h4, hℓ])])
        · obtain ⟨ℓ, hℓ⟩ := Option.isSome_iff_exists.1 h1
          have hb : s'.label = some ℓ := by
            rcases b4 with rfl | ⟨_, h4⟩
            · exact hℓ
            · rw [h4, hℓ]
          exact row_unique rows hn _ _ (List.mem_of_getElem? a1) (List.mem_of_getElem? b1)
            (by rw [a2 ℓ (by rw [h2, hℓ]), b2 ℓ hb])
      · obtain ⟨ℓ, hℓ⟩ := Option.isSome_iff_exists.1 h1
        have ha' : r'.label = some ℓ := by
          rcases a4 with rfl | ⟨_, h4⟩
          · exact hℓ
          · rw [h4, hℓ]
        have hb' : s'.label = some ℓ := by
          rcases b4 with rfl | ⟨_, h4⟩
          · rw [← h2, hℓ]
          · rw [h4, ← h2, hℓ]
        exact row_unique rows hn _ _ (List.mem_of_getElem? a1) (List.mem_of_getElem? b1)
          (by rw [a2 ℓ ha', b2 ℓ hb'])
    subst hrow
    rw [pos_of i' j' r' a1 b1]

/-- The nonzero numbers are exactly `1 .. numFree`. -/
theorem C31_numbers_partial (rows : List (IRow L)) (hn : (rows.map IRow.idx).Nodup)
    (ha : LabelsAgree rows) (m : ℕ) (hm : m ≠ 0) :
    (∃ i : ℕ, (indexFree rows)[i]? = some m) ↔ m ≤ numFree rows := by
  have hlen : (indexFree rows).length = rows.length := by
    obtain ⟨g, _, hf⟩ := indexFree_eq rows hn
    rw [hf, List.length_map]
  constructor
  · rintro ⟨i, h⟩
    have hlt : i < rows.length := hlen ▸ (List.getElem?_eq_some_iff.1 h).1
    obtain ⟨i', r', a1, a2, a3, _, a5⟩ := free_at rows hn i rows[i] (List.getElem?_eq_getElem hlt) ha
    rw [h, Option.some.injEq] at a5
    split_ifs at a5 with hx
    · have hp : indep rows r' = true :=
        (indep_iff rows hn r' (List.mem_of_getElem? a1)).2 ⟨hx, a2⟩
      have hl := (List.getElem?_eq_some_iff.1 a1).1
      have := countP_take_lt (indep rows) rows i' rows.length r' a1 hp hl
      rw [List.take_length] at this
      unfold numFree; omega
    · exact absurd a5 hm
  · intro h
    obtain ⟨i, r, h1, h2, h3⟩ := countP_surj (indep rows) rows (m - 1) (by unfold numFree at h; omega)
    have hi := (indep_iff rows hn r (List.mem_of_getElem? h1)).1 h2
    obtain ⟨i', r', a1, a2, a3, a4, a5⟩ := free_at rows hn i r h1 ha
    have hrr : r' = r := by
      rcases a4 with h | ⟨h, h'⟩
      · exact h
      · obtain ⟨ℓ, hℓ⟩ := Option.isSome_iff_exists.1 h
        exact row_unique rows hn _ _ (List.mem_of_getElem? a1) (List.mem_of_getElem? h1)
          (by rw [a2 ℓ (by rw [h', hℓ]), hi.2 ℓ hℓ])
    subst hrr
    have hii : i' = i := by
      have hp : indep rows r' = true := h2
      obtain ⟨x1, x2⟩ := List.getElem?_eq_some_iff.1 a1
      obtain ⟨y1, y2⟩ := List.getElem?_eq_some_iff.1 h1
      have := List.nodup_iff_injective_getElem.1 (List.Nodup.of_map _ hn)
      have := @this ⟨i', x1⟩ ⟨i, y1⟩ (by simp only; rw [x2, y2])
      simpa using this
    subst hii
    refine ⟨i', ?_⟩
    rw [a5, if_pos hi.1, h3]
    congr 1; omega

/-- `f =~ a*x1 + a*x2` with the first loading fixed: the free loading gets no number. -/
theorem C31_label_fixed_first_violated :
    indexFree [IRow.mk 0 true (some 0), IRow.mk 1 false (some 0)] = [0, 0] := by decide

/-- A fixed row that shares the label of an earlier free row gets that row's number. -/
theorem C31_label_fixed_second_violated :
    indexFree [IRow.mk 0 false (some 0), IRow.mk 1 true (some 0)] = [1, 1] := by decide

/-- The `ind` column counts rows, not parameters: rows of one label get different values. -/
theorem C31_ind_not_shared_violated :
    indexFree [IRow.mk 0 false (some 0), IRow.mk 1 false (some 0)] = [1, 1] ∧
    indexInd [IRow.mk 0 false (some 0), IRow.mk 1 false (some 0)] = [0, 1] := by decide

example : LabelsAgree [IRow.mk 0 false (some 0), IRow.mk 1 true none, IRow.mk 2 false (some 0)] ∧
    ([IRow.mk 0 false (some 0), IRow.mk 1 true none, IRow.mk 2 false (some 0)].map
      IRow.idx).Nodup ∧
    indexFree [IRow.mk 0 false (some 0), IRow.mk 1 true none, IRow.mk 2 false (some 0),
      IRow.mk 3 false none] = [1, 0, 1, 2] := by
  refine ⟨?_, by decide, by decide⟩
  unfold LabelsAgree
  intro r hr s hs
  simp only [List.mem_cons, List.not_mem_nil, or_false] at hr hs
  rcases hr with rfl | rfl | rfl <;> rcases hs with rfl | rfl | rfl <;> simp

end C31

/-! ## C48 -/

section C48
variable {N : Type*} [DecidableEq N]

/-- Specification of the target cell: matrix (0 loadings, 1 structural, 2 factor covariance,
3 residual covariance, 4 observed mean, 5 factor mean), row, column. -/
def target (one : N) (lav : Finset N) (r : MRow N) : ℕ × Cell N × Cell N :=
  match r.rel with
  | R3.mes =>
    if r.dummy = true ∨ r.rhs ∉ lav then (0, Cell.var r.rhs, Cell.var r.lhs)
    else (1, Cell.var r.rhs, Cell.var r.lhs)
  | R3.reg =>
    if r.rhs = one then
      if r.lhs ∈ lav then (5, Cell.zero, Cell.var r.lhs) else (4, Cell.zero, Cell.var r.lhs)
    else (1, Cell.var r.lhs, Cell.var r.rhs)
  | R3.cov =>
    if r.lhs ∈ lav then (2, Cell.var r.lhs, Cell.var r.rhs)
    else (3, Cell.var r.lhs, Cell.var r.rhs)

/-- Rows the model builder produces: dummies are measurement rows; every variable named is
latent-side or observed. -/
def RowOk (one : N) (lav obs : Finset N) (r : MRow N) : Prop :=
  (r.dummy = true → r.rel = R3.mes) ∧ (r.lhs ∈ lav ∨ r.lhs ∈ obs) ∧
  (r.rhs = one ∨ r.rhs ∈ lav ∨ r.rhs ∈ obs) ∧ (r.rel = R3.mes → r.rhs ≠ one)

/-- Every row is given exactly one cell, the one its relation and roles call for. -/
theorem C48_assign (one : N) (lav obs : Finset N) (r : MRow N) (h : RowOk one lav obs r) :
    assign one lav obs r =
      ((target one lav r).1, some (target one lav r).2.1, some (target one lav r).2.2) := by
  obtain ⟨lhs, rel, rhs, dummy⟩ := r
  obtain ⟨h1, h2, h3, h4⟩ := h
  simp only at h1 h2 h3 h4
  have hr : List.range 6 = [0, 1, 2, 3, 4, 5] := by decide
  unfold assign
  rw [hr]
  cases rel
  · by_cases ha : rhs ∈ lav <;> by_cases hb : rhs ∈ obs <;> cases dummy <;>
      by_cases hl : lhs ∈ lav <;> by_cases ho : lhs ∈ obs <;> by_cases h1' : rhs = one <;>
      simp_all [assignStep, matMask, target]
  · cases dummy
    · by_cases ha : rhs ∈ lav <;> by_cases hb : rhs ∈ obs <;>
      by_cases hl : lhs ∈ lav <;> by_cases ho : lhs ∈ obs <;> by_cases h1' : rhs = one <;>
      simp_all [assignStep, matMask, target]
    · simp at h1
  · cases dummy
    · by_cases ha : rhs ∈ lav <;> by_cases hb : rhs ∈ obs <;>
      by_cases hl : lhs ∈ lav <;> by_cases ho : lhs ∈ obs <;> by_cases h1' : rhs = one <;>
      simp_all [assignStep, matMask, target]
    · simp at h1

/-- The shape of each matrix: the row and column labels it has. -/
def InShape (lav obs : Finset N) : ℕ → Cell N → Cell N → Prop
  | 0, Cell.var r, Cell.var c => r ∈ obs ∧ c ∈ lav
  | 1, Cell.var r, Cell.var c => r ∈ lav ∧ c ∈ lav
  | 2, Cell.var r, Cell.var c => r ∈ lav ∧ c ∈ lav
  | 3, Cell.var r, Cell.var c => r ∈ obs ∧ c ∈ obs
  | 4, Cell.zero, Cell.var c => c ∈ obs
  | 5, Cell.zero, Cell.var c => c ∈ lav
  | _, _, _ => False

/-- The cell exists in its matrix when: measurement rows have a latent-side left side and
dummies an observed right side, both sides of a regression are latent-side, and a covariance
row does not pair a latent-side variable with a purely observed one. -/
theorem C48_in_shape_partial (one : N) (lav obs : Finset N) (r : MRow N)
    (h : RowOk one lav obs r)
    (hm : r.rel = R3.mes → r.lhs ∈ lav ∧ (r.dummy = true → r.rhs ∈ obs))
    (hr : r.rel = R3.reg → r.rhs ≠ one → r.lhs ∈ lav ∧ r.rhs ∈ lav)
    (hc : r.rel = R3.cov → (r.lhs ∈ lav → r.rhs ∈ lav) ∧ (r.lhs ∉ lav → r.rhs ∈ obs)) :
    InShape lav obs (target one lav r).1 (target one lav r).2.1 (target one lav r).2.2 := by
  obtain ⟨lhs, rel, rhs, dummy⟩ := r
  obtain ⟨h1, h2, h3, h4⟩ := h
  simp only at h1 h2 h3 h4 hm hr hc
  cases rel
  · by_cases ha : rhs ∈ lav <;> cases dummy <;> simp_all [target, InShape]
  · by_cases ho : rhs = one <;> by_cases ha : lhs ∈ lav <;> simp_all [target, InShape]
  · by_cases ha : lhs ∈ lav <;> simp_all [target, InShape]

/-- `f =~ x1 + x2; y ~ f; y ~~ x1` (0 = f, 1 = x1, 2 = y, 3 = "1"): the covariance of `y` with
`x1` is sent to the factor covariance matrix, which has no column `x1`. -/
theorem C48_in_shape_violated :
    assign (3 : ℕ) {0, 2} {1, 2} (MRow.mk 2 R3.cov 1 false) =
      (2, some (Cell.var 2), some (Cell.var 1)) ∧ RowOk 3 {0, 2} {1, 2} (MRow.mk 2 R3.cov 1 false) ∧
    (1 : ℕ) ∉ ({0, 2} : Finset ℕ) := by
  refine ⟨by decide, ?_, by decide⟩
  unfold RowOk; decide

/-- Two measurement rows, two regressions, or two covariance rows never share a cell. -/
theorem C48_injective (one : N) (lav obs : Finset N) (r s : MRow N)
    (hr : RowOk one lav obs r) (hs : RowOk one lav obs s) (hrel : r.rel = s.rel)
    (h : assign one lav obs r = assign one lav obs s) : r.lhs = s.lhs ∧ r.rhs = s.rhs := by
  rw [C48_assign one lav obs r hr, C48_assign one lav obs s hs] at h
  obtain ⟨lhs, rel, rhs, dummy⟩ := r
  obtain ⟨lhs', rel', rhs', dummy'⟩ := s
  simp only at hrel
  subst hrel
  unfold target at h
  cases rel
  · simp only at h; split_ifs at h <;> simp_all
  · simp only at h; split_ifs at h <;> simp_all
  · simp only at h; split_ifs at h <;> simp_all

/-- A measurement row and a regression can share a cell: `f =~ y` (`y` latent-side) and
`y ~ f`. -/
theorem C48_injective_violated :
    assign (3 : ℕ) {0, 2} {1, 2} (MRow.mk 0 R3.mes 2 false) =
      assign (3 : ℕ) {0, 2} {1, 2} (MRow.mk 2 R3.reg 0 false) := by decide

/-- Symmetric cells are sent to the lower triangle, to themselves or their mirror image. -/
theorem C48_lower (rc : ℕ × ℕ) :
    (symCell rc).2 ≤ (symCell rc).1 ∧ (symCell rc = rc ∨ symCell rc = (rc.2, rc.1)) := by
  unfold symCell
  split_ifs with h
  · exact ⟨by simp only; omega, Or.inr rfl⟩
  · exact ⟨by omega, Or.inl rfl⟩

/-- Two cells go to one place exactly when they are equal or mirror images. -/
theorem C48_lower_inj (a b : ℕ × ℕ) :
    symCell a = symCell b ↔ a = b ∨ a = (b.2, b.1) := by
  obtain ⟨a1, a2⟩ := a
  obtain ⟨b1, b2⟩ := b
  unfold symCell
  split_ifs with h1 h2 h2 <;> simp only [Prod.mk.injEq] at * <;> omega

example : RowOk (3 : ℕ) {0, 2} {1, 2} (MRow.mk 0 R3.mes 1 false) := by unfold RowOk; decide

end C48

end Verif.Sem
