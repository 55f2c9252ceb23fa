import Verif.Sem.Table
import Verif.Func.Lemmas
import Mathlib.Data.Finset.Card
import Mathlib.Data.List.GetD
/-!
# Lemmas: order dictionaries, numbering, the label loop
-/
set_option linter.unusedSectionVars false
namespace Verif.Sem
open Verif.Func

section dict
variable {α : Type*} [DecidableEq α]

theorem dictGet_iff {υ : Type*} (d : Dict α υ) (hd : (d.map Prod.fst).Nodup) (k : α) (v : υ) :
    Dict.get d k = some v ↔ (k, v) ∈ d := by
  induction d with
  | nil => simp [Dict.get]
  | cons e d ih =>
    rw [Dict.get_cons, List.mem_cons]
    have hn := List.nodup_cons.1 hd
    by_cases h : e.1 = k
    · subst h
      rw [if_pos rfl, Option.some.injEq]
      constructor
      · rintro rfl; left; rfl
      · rintro (h | h)
        · rw [← h]
        · exact absurd (List.mem_map_of_mem (f := Prod.fst) h) hn.1
    · rw [if_neg h, ih hn.2]
      constructor
      · exact Or.inr
      · rintro (h' | h')
        · exact absurd (by rw [← h']) h
        · exact h'

theorem ordDict_get (l : List α) (hl : l.Nodup) (v : α) (i : ℕ) :
    Dict.get (ordDict l) v = some i ↔ l[i]? = some v := by
  have hk : (l.zip (List.range l.length)).map Prod.fst = l := by
    rw [List.map_fst_zip]; simp
  have h1 := Dict.get_foldl (l.zip (List.range l.length)) (by rw [hk]; exact hl) [] v
  have h2 : Dict.get (ordDict l) v = Dict.get (l.zip (List.range l.length)) v := by
    refine Eq.trans h1 ?_
    simp [Dict.get]
  rw [h2, dictGet_iff _ (by rw [hk]; exact hl)]
  rw [List.mem_iff_getElem?]
  constructor
  · rintro ⟨j, hj⟩
    rw [List.getElem?_zip_eq_some] at hj
    obtain ⟨a, b⟩ := hj
    have hlt := (List.getElem?_eq_some_iff.1 b).1
    have : j = i := by
      have := (List.getElem?_eq_some_iff.1 b).2
      simpa using this
    rw [← this]; exact a
  · intro h
    have hlt := (List.getElem?_eq_some_iff.1 h).1
    exact ⟨i, List.getElem?_zip_eq_some.2 ⟨h, List.getElem?_range hlt⟩⟩

end dict

section number
variable {R : Type*}

theorem number_get (p : R → Bool) (l : List R) (k i : ℕ) :
    (number p l k)[i]? = (l[i]?).map fun r => if p r then k + (l.take i).countP p else 0 := by
  induction l generalizing k i with
  | nil => simp [number]
  | cons a l ih =>
    rw [number]
    cases i with
    | zero => split_ifs with h <;> simp [h]
    | succ i =>
      split_ifs with h
      · rw [List.getElem?_cons_succ, ih, List.getElem?_cons_succ, List.take_succ_cons,
          List.countP_cons_of_pos h]
        congr 1; funext r; split_ifs
        · omega
        · rfl
      · rw [List.getElem?_cons_succ, ih, List.getElem?_cons_succ, List.take_succ_cons,
          List.countP_cons_of_neg h]

theorem number_length (p : R → Bool) (l : List R) (k : ℕ) : (number p l k).length = l.length := by
  induction l generalizing k with
  | nil => rfl
  | cons a l ih => rw [number]; split_ifs <;> simp [ih]

theorem countP_take_lt (p : R → Bool) (l : List R) (i j : ℕ) (r : R) (hi : l[i]? = some r)
    (hp : p r = true) (hij : i < j) : (l.take i).countP p < (l.take j).countP p := by
  obtain ⟨hl, rfl⟩ := List.getElem?_eq_some_iff.1 hi
  have h1 : (l.take (i + 1)).countP p = (l.take i).countP p + 1 := by
    rw [List.take_add_one, hi, List.countP_append, Option.toList_some,
      List.countP_cons_of_pos hp, List.countP_nil]
  have h2 : (l.take (i + 1)).countP p ≤ (l.take j).countP p :=
    (List.take_sublist_take_left (by omega)).countP_le
  omega

theorem countP_surj (p : R → Bool) (l : List R) (m : ℕ) (hm : m < l.countP p) :
    ∃ i r, l[i]? = some r ∧ p r = true ∧ (l.take i).countP p = m := by
  induction l generalizing m with
  | nil => simp at hm
  | cons a l ih =>
    by_cases h : p a = true
    · cases m with
      | zero => exact ⟨0, a, rfl, h, by simp⟩
      | succ m =>
        rw [List.countP_cons_of_pos h] at hm
        obtain ⟨i, r, h1, h2, h3⟩ := ih m (by omega)
        exact ⟨i + 1, r, by simpa using h1, h2, by
          rw [List.take_succ_cons, List.countP_cons_of_pos h, h3]⟩
    · rw [List.countP_cons_of_neg h] at hm
      obtain ⟨i, r, h1, h2, h3⟩ := ih m hm
      exact ⟨i + 1, r, by simpa using h1, h2, by
        rw [List.take_succ_cons, List.countP_cons_of_neg h, h3]⟩

end number

section index
variable {L : Type*} [DecidableEq L]

theorem row_unique (rows : List (IRow L)) (hn : (rows.map IRow.idx).Nodup) (r s : IRow L)
    (hr : r ∈ rows) (hs : s ∈ rows) (h : r.idx = s.idx) : r = s :=
  List.inj_on_of_nodup_map hn hr hs h

theorem locFree_map (rows : List (IRow L)) (hn : (rows.map IRow.idx).Nodup) (g : ℕ → ℕ)
    (r : IRow L) (hr : r ∈ rows) : locFree rows (rows.map fun s => g s.idx) r.idx = g r.idx := by
  unfold locFree
  induction rows with
  | nil => simp at hr
  | cons a rows ih =>
    rw [List.map_cons, List.zip_cons_cons, List.find?_cons]
    by_cases h : a.idx = r.idx
    · simp [h]
    · simp only [h, decide_false]
      apply ih
      · rw [List.map_cons, List.nodup_cons] at hn; exact hn.2
      · rcases List.mem_cons.1 hr with rfl | h'
        · exact absurd rfl h
        · exact h'

theorem mem_sameLabel (rows : List (IRow L)) (hn : (rows.map IRow.idx).Nodup) (r : IRow L)
    (hr : r ∈ rows) (ℓ : L) : r.idx ∈ sameLabel rows ℓ ↔ r.label = some ℓ := by
  unfold sameLabel
  rw [List.mem_map]
  constructor
  · rintro ⟨s, hs, h⟩
    have hs' := List.mem_filter.1 hs
    have := row_unique rows hn s r hs'.1 hr h
    rw [← this]; simpa using hs'.2
  · intro h
    exact ⟨r, List.mem_filter.2 ⟨hr, by simpa using h⟩, rfl⟩

theorem mem_labels (rows : List (IRow L)) (ℓ : L) :
    ℓ ∈ labels rows ↔ ∃ r ∈ rows, r.label = some ℓ := by
  unfold labels
  rw [List.mem_dedup, List.mem_filterMap]

/-- The representative is a row of its class. -/
theorem rep_row (rows : List (IRow L)) (ℓ : L) (h : ℓ ∈ labels rows) :
    ∃ r ∈ rows, r.label = some ℓ ∧ r.idx = repIdx rows ℓ := by
  obtain ⟨s, hs, hl⟩ := (mem_labels rows ℓ).1 h
  have hne : sameLabel rows ℓ ≠ [] := by
    intro h0
    have : s.idx ∈ sameLabel rows ℓ :=
      List.mem_map_of_mem (List.mem_filter.2 ⟨hs, by simpa using hl⟩)
    rw [h0] at this; simp at this
  rcases hm : (sameLabel rows ℓ).min? with _ | m
  · exact absurd (List.min?_eq_none_iff.1 hm) hne
  · have hmem := List.min?_mem hm
    have hrep : repIdx rows ℓ = m := by unfold repIdx; rw [hm]; rfl
    unfold sameLabel at hmem
    obtain ⟨r, hr, rfl⟩ := List.mem_map.1 hmem
    have := List.mem_filter.1 hr
    exact ⟨r, this.1, by simpa using this.2, hrep.symm⟩

/-- Closed form of the loop over labels. -/
theorem labelLoop (rows : List (IRow L)) (hn : (rows.map IRow.idx).Nodup) (g : ℕ → ℕ)
    (ls : List L) (hls : ls.Nodup) (hsub : ∀ ℓ ∈ ls, ℓ ∈ labels rows) :
    ls.foldl (fun free ℓ =>
      let v := locFree rows free (repIdx rows ℓ)
      List.zipWith (fun r f => if r.idx ∈ sameLabel rows ℓ then v else f) rows free)
      (rows.map fun s => g s.idx) =
    rows.map fun s => match s.label with
      | none => g s.idx
      | some ℓ => if ℓ ∈ ls then g (repIdx rows ℓ) else g s.idx := by
  classical
  induction ls using List.reverseRecOn with
  | nil =>
    simp only [List.foldl_nil, List.not_mem_nil, if_false]
    apply List.map_congr_left
    intro s _
    split <;> rfl
  | append_singleton ls ℓ ih =>
    have hnd := List.nodup_append.1 hls
    have hℓ : ℓ ∉ ls := fun h => hnd.2.2 ℓ h ℓ (by simp) rfl
    rw [List.foldl_append, ih hnd.1 (fun x hx => hsub x (List.mem_append_left _ hx))]
    simp only [List.foldl_cons, List.foldl_nil]
    obtain ⟨q, hq, hql, hqi⟩ := rep_row rows ℓ (hsub ℓ (by simp))
    -- the current array as a function of the index label
    have hcur : ∃ G : ℕ → ℕ, (∀ s ∈ rows, G s.idx = (match s.label with
        | none => g s.idx
        | some ℓ => if ℓ ∈ ls then g (repIdx rows ℓ) else g s.idx)) := by
      refine ⟨fun i => if h : ∃ t ∈ rows, t.idx = i then
          (match h.choose.label with
            | none => g i
            | some ℓ => if ℓ ∈ ls then g (repIdx rows ℓ) else g i) else 0, ?_⟩
      intro s hs
      have hex : ∃ t ∈ rows, t.idx = s.idx := ⟨s, hs, rfl⟩
      have hc := row_unique rows hn _ s hex.choose_spec.1 hs hex.choose_spec.2
      simp only [dif_pos hex, hc]
    obtain ⟨G, hG⟩ := hcur
    have hv : locFree rows (rows.map fun s => match s.label with
        | none => g s.idx
        | some ℓ => if ℓ ∈ ls then g (repIdx rows ℓ) else g s.idx) (repIdx rows ℓ) =
        g (repIdx rows ℓ) := by
      rw [← List.map_congr_left hG, ← hqi, locFree_map rows hn G q hq, hG q hq, hql]
      simp only [if_neg hℓ]
    rw [hv, List.zipWith_map_right, List.zipWith_self]
    apply List.map_congr_left
    intro s hs
    have hm := mem_sameLabel rows hn s hs ℓ
    rcases hl : s.label with _ | ℓ'
    · rw [if_neg (by rw [hm, hl]; simp)]
    · by_cases h : ℓ' = ℓ
      · subst h
        rw [if_pos (by rw [hm, hl])]
        simp
      · rw [if_neg (by rw [hm, hl]; simpa using h)]
        simp [h]

/-- Every array is a function of the index label. -/
theorem eq_map_locFree (rows : List (IRow L)) (f : List ℕ) (hn : (rows.map IRow.idx).Nodup)
    (hf : f.length = rows.length) : f = rows.map fun s => locFree rows f s.idx := by
  induction rows generalizing f with
  | nil => simpa using hf
  | cons a rows ih =>
    cases f with
    | nil => simp at hf
    | cons x f =>
      rw [List.map_cons, List.nodup_cons] at hn
      rw [List.map_cons]
      congr 1
      · simp [locFree]
      · conv_lhs => rw [ih f hn.2 (by simpa using hf)]
        apply List.map_congr_left
        intro s hs
        unfold locFree
        rw [List.zip_cons_cons, List.find?_cons]
        have : ¬ a.idx = s.idx := fun h => hn.1 (h ▸ List.mem_map_of_mem hs)
        simp [this]

theorem indexFree_eq (rows : List (IRow L)) (hn : (rows.map IRow.idx).Nodup) :
    ∃ g : ℕ → ℕ, number (indep rows) rows 1 = (rows.map fun s => g s.idx) ∧
      indexFree rows = rows.map fun s => match s.label with
        | none => g s.idx
        | some ℓ => g (repIdx rows ℓ) := by
  refine ⟨locFree rows (number (indep rows) rows 1), ?_, ?_⟩
  · exact eq_map_locFree rows _ hn (number_length _ _ _)
  · have h1 := eq_map_locFree rows (number (indep rows) rows 1) hn (number_length _ _ _)
    unfold indexFree
    simp only
    conv_lhs => rw [h1]
    refine (labelLoop rows hn (locFree rows (number (indep rows) rows 1)) (labels rows)
      (List.nodup_dedup _) (fun _ h => h)).trans ?_
    apply List.map_congr_left
    intro s hs
    rcases hl : s.label with _ | ℓ
    · rfl
    · simp only
      rw [if_pos ((mem_labels rows ℓ).2 ⟨s, hs, hl⟩)]

/-- Which rows are numbered. -/
theorem indep_iff (rows : List (IRow L)) (hn : (rows.map IRow.idx).Nodup) (r : IRow L)
    (hr : r ∈ rows) : indep rows r = true ↔
      r.fixed = false ∧ ∀ ℓ, r.label = some ℓ → r.idx = repIdx rows ℓ := by
  unfold indep stillLabeled
  simp only [Bool.and_eq_true, Bool.not_eq_true', Bool.and_eq_false_iff, Bool.not_eq_false',
    List.any_eq_true, beq_iff_eq, Option.isSome_eq_false_iff, Option.isNone_iff_eq_none]
  constructor
  · rintro ⟨h1, h2⟩
    refine ⟨h1, ?_⟩
    intro ℓ hl
    rcases h2 with h2 | ⟨ℓ', h3, h4⟩
    · rw [h2] at hl; simp at hl
    · obtain ⟨q, hq, hql, hqi⟩ := rep_row rows ℓ' h3
      have : q = r := row_unique rows hn q r hq hr (by rw [hqi, h4])
      subst this
      rw [hl, Option.some.injEq] at hql
      subst hql
      exact hqi
  · rintro ⟨h1, h2⟩
    refine ⟨h1, ?_⟩
    rcases hl : r.label with _ | ℓ
    · left; rfl
    · right
      exact ⟨ℓ, (mem_labels rows ℓ).2 ⟨r, hr, hl⟩, (h2 ℓ hl).symm⟩

end index

end Verif.Sem
