import Verif.Lmm.ReTables
import Mathlib.Data.List.Nodup
import Mathlib.Tactic.Ring

namespace Verif.Lmm.ReTables

theorem levels_concat {α : Type} [DecidableEq α] (gr : List α) (g : α) :
    levels (gr ++ [g]) = if g ∈ levels gr then levels gr else levels gr ++ [g] := by
  rw [levels, List.foldl_append]; rfl

/-- **C252** The levels are the distinct groups. -/
theorem C252_levels {α : Type} [DecidableEq α] (gr : List α) : (levels gr).Nodup ∧ ∀ x, x ∈ levels gr ↔ x ∈ gr := by
  induction gr using List.reverseRecOn with
  | nil => exact ⟨List.nodup_nil, fun x => Iff.rfl⟩
  | append_singleton gr g ih =>
    rw [levels_concat]
    by_cases h : g ∈ levels gr
    · rw [if_pos h]
      refine ⟨ih.1, fun x => ?_⟩
      rw [ih.2, List.mem_append, List.mem_singleton]
      exact ⟨Or.inl, fun hx => hx.elim id fun e => e ▸ (ih.2 g).1 h⟩
    · rw [if_neg h]
      refine ⟨?_, fun x => by rw [List.mem_append, List.mem_append, ih.2]⟩
      rw [List.nodup_append]
      refine ⟨ih.1, List.nodup_singleton g, ?_⟩
      intro a ha b hb
      rw [List.mem_singleton] at hb
      rintro rfl
      exact h (hb ▸ ha)

/-- **C252** The codes are defined exactly when no group is missing, and then the level of an observation's code is its group. -/
theorem C252_codes {α : Type} [DecidableEq α] (gr : List (Option α)) :
    (codes gr = none ↔ none ∈ gr) ∧ ∀ cs, codes gr = some cs → cs.length = gr.length ∧
      ∀ (i : ℕ) (g : α), gr[i]? = some (some g) → ∃ c, cs[i]? = some c ∧ (levels (gr.filterMap id))[c]? = some g ∧ c < (levels (gr.filterMap id)).length := by
  have key : ∀ (f : α → ℕ) (l : List (Option α)), (l.mapM (fun g => g.map f) = none ↔ none ∈ l) ∧
      ∀ cs, l.mapM (fun g => g.map f) = some cs → cs.length = l.length ∧ ∀ (i : ℕ) (g : α), l[i]? = some (some g) → cs[i]? = some (f g) := by
    intro f l
    induction l with
    | nil =>
      refine ⟨⟨fun h => by simp at h, fun h => by simp at h⟩, fun cs h => ?_⟩
      simp at h
      subst h
      exact ⟨rfl, fun i g h => by simp at h⟩
    | cons a l ih =>
      cases a with
      | none =>
        constructor
        · simp
        · intro cs h; simp at h
      | some a =>
        rw [List.mapM_cons]
        cases hl : l.mapM (fun g => g.map f) with
        | none =>
          refine ⟨⟨fun _ => List.mem_cons_of_mem _ (ih.1.1 hl), fun _ => by simp⟩, fun cs h => by simp at h⟩
        | some cs =>
          refine ⟨⟨fun h => by simp at h, fun h => ?_⟩, fun ds h => ?_⟩
          · rw [List.mem_cons] at h
            rcases h with h | h
            · cases h
            · rw [ih.1.2 h] at hl; cases hl
          · simp at h
            subst h
            refine ⟨by simp [(ih.2 cs hl).1], fun i g hi => ?_⟩
            cases i with
            | zero => simp at hi; subst hi; rfl
            | succ i =>
              rw [List.getElem?_cons_succ] at hi ⊢
              exact (ih.2 cs hl).2 i g hi
  refine ⟨(key _ gr).1, fun cs h => ⟨((key _ gr).2 cs h).1, fun i g hi => ?_⟩⟩
  refine ⟨_, ((key _ gr).2 cs h).2 i g hi, ?_⟩
  have hm : g ∈ levels (gr.filterMap id) := by
    rw [(C252_levels _).2, List.mem_filterMap]
    exact ⟨some g, List.mem_of_getElem? hi, rfl⟩
  have hlt := List.idxOf_lt_length_of_mem hm
  exact ⟨by rw [List.getElem?_eq_getElem hlt, List.getElem_idxOf hlt], hlt⟩

/-- **C252** The prediction of an observation takes from each table the row of its level. -/
theorem C252_predict (ts : List GTerm) (n : ℕ) (u : ℕ → ℝ) (i : ℕ) (hi : i < n) :
    zDot ts n u i = ((List.range ts.length).map fun k =>
      match ts[k]? with
      | some t => ∑ a ∈ Finset.range t.nv, t.arr i a * table ts u k t.nv (t.code i) a
      | none => 0).sum := by
  rw [zDot]
  congr 1
  apply List.map_congr_left
  intro k _
  cases hk : ts[k]? with
  | none => rfl
  | some t =>
    simp only
    symm
    refine Finset.sum_bij (fun a _ => i * t.nv + a) ?_ ?_ ?_ ?_
    · intro a ha
      rw [Finset.mem_range] at ha
      rw [Finset.mem_filter, Finset.mem_range]
      constructor
      · calc i * t.nv + a < i * t.nv + t.nv := by omega
          _ = (i + 1) * t.nv := by ring
          _ ≤ n * t.nv := Nat.mul_le_mul_right _ hi
      · rw [Nat.mul_comm, Nat.mul_add_div (by omega), Nat.div_eq_of_lt ha, Nat.add_zero]
    · intro a _ b _ h
      exact Nat.add_left_cancel h
    · intro s hs
      rw [Finset.mem_filter, Finset.mem_range] at hs
      have h0 : 0 < t.nv := by
        rcases Nat.eq_zero_or_pos t.nv with h | h
        · rw [h] at hs; omega
        · exact h
      refine ⟨s % t.nv, Finset.mem_range.2 (Nat.mod_lt _ h0), ?_⟩
      show i * t.nv + s % t.nv = s
      rw [← hs.2, Nat.mul_comm, Nat.div_add_mod]
    · intro a ha
      rw [Finset.mem_range] at ha
      have h1 : (i * t.nv + a) / t.nv = i := by rw [Nat.mul_comm, Nat.mul_add_div (by omega), Nat.div_eq_of_lt ha, Nat.add_zero]
      have h2 : (i * t.nv + a) % t.nv = a := by rw [Nat.mul_comm, Nat.mul_add_mod, Nat.mod_eq_of_lt ha]
      rw [table, zCol, h1, h2]

theorem block_range (o ng nv : ℕ) : ((List.range ng).flatMap fun j => (List.range nv).map fun a => o + (j * nv + a)) = (List.range (ng * nv)).map (o + ·) := by
  induction ng with
  | zero => simp
  | succ m ih =>
    rw [List.range_succ, List.flatMap_append, ih, Nat.succ_mul, List.range_add, List.map_append, List.map_map]
    simp [Function.comp_def]

theorem off_succ (ts : List GTerm) (k : ℕ) (t : GTerm) (h : ts[k]? = some t) : off ts (k + 1) = off ts k + t.ng * t.nv := by
  rw [off, List.take_add_one, h]
  simp [off]

/-- Position in the vector of effects of a key of the long table. -/
def keyPos (ts : List GTerm) (key : ℕ × ℕ × ℕ) : ℕ :=
  match ts[key.1]? with
  | some t => off ts key.1 + (key.2.1 * t.nv + key.2.2)
  | none => 0

theorem long_pos (ts : List GTerm) (u se : ℕ → ℝ) : (long ts u se).map (fun r => keyPos ts r.1) = List.range (off ts ts.length) := by
  have key : ∀ m ≤ ts.length, ((List.range m).flatMap fun k =>
      match ts[k]? with
      | some t => (List.range t.ng).flatMap fun j => (List.range t.nv).map fun a => off ts k + (j * t.nv + a)
      | none => []) = List.range (off ts m) := by
    intro m hm
    induction m with
    | zero => simp [off]
    | succ m ih =>
      rw [List.range_succ, List.flatMap_append, ih (by omega)]
      have h := List.getElem?_eq_getElem (show m < ts.length by omega)
      rw [off_succ ts m _ h, List.range_add, List.flatMap_singleton, h]
      congr 1
      exact block_range _ _ _
  rw [← key _ le_rfl, long, List.map_flatMap]
  congr 1
  funext k
  cases hk : ts[k]? with
  | none => rfl
  | some t =>
    simp only [List.map_flatMap, List.map_map]
    congr 1
    funext j
    apply List.map_congr_left
    intro a _
    simp [keyPos, hk]

theorem mem_long (ts : List GTerm) (u se : ℕ → ℝ) (k j a : ℕ) (v s : ℝ) : ((k, j, a), v, s) ∈ long ts u se ↔
    ∃ t, ts[k]? = some t ∧ j < t.ng ∧ a < t.nv ∧ v = table ts u k t.nv j a ∧ s = table ts se k t.nv j a := by
  rw [long, List.mem_flatMap]
  constructor
  · rintro ⟨k', hk', h⟩
    cases hk : ts[k']? with
    | none => rw [hk] at h; simp at h
    | some t =>
      rw [hk] at h
      simp only [List.mem_flatMap, List.mem_map, List.mem_range, Prod.mk.injEq] at h
      obtain ⟨j', hj, a', ha, ⟨rfl, rfl, rfl⟩, rfl, rfl⟩ := h
      exact ⟨t, hk, hj, ha, rfl, rfl⟩
  · rintro ⟨t, hk, hj, ha, rfl, rfl⟩
    refine ⟨k, List.mem_range.2 ?_, ?_⟩
    · by_contra hh
      rw [List.getElem?_eq_none (by omega)] at hk
      cases hk
    · rw [hk]
      simp only [List.mem_flatMap, List.mem_map, List.mem_range]
      exact ⟨j, hj, a, ha, rfl⟩

/-- **C252** The long table has one row for each term, level and variable, with the estimate and the standard error of the tables. -/
theorem C252_long (ts : List GTerm) (u se : ℕ → ℝ) :
    ((long ts u se).map Prod.fst).Nodup ∧ (long ts u se).length = off ts ts.length ∧
    ∀ k j a v s, ((k, j, a), v, s) ∈ long ts u se ↔
      ∃ t, ts[k]? = some t ∧ j < t.ng ∧ a < t.nv ∧ v = table ts u k t.nv j a ∧ s = table ts se k t.nv j a := by
  refine ⟨?_, ?_, mem_long ts u se⟩
  · apply List.Nodup.of_map (keyPos ts)
    rw [List.map_map]
    show ((long ts u se).map (fun r => keyPos ts r.1)).Nodup
    rw [long_pos]
    exact List.nodup_range
  · have := congrArg List.length (long_pos ts u se)
    simpa using this

/-- **C252** Its columns are the vectors of effects and of standard errors, in order: nothing is lost and nothing is shown twice. -/
theorem C252_columns (ts : List GTerm) (u se : ℕ → ℝ) :
    (long ts u se).map (fun r => r.2.1) = (List.range (off ts ts.length)).map u ∧ (long ts u se).map (fun r => r.2.2) = (List.range (off ts ts.length)).map se := by
  rw [← long_pos ts u se, List.map_map, List.map_map]
  constructor <;>
  · apply List.map_congr_left
    rintro ⟨⟨k, j, a⟩, v, s⟩ h
    obtain ⟨t, hk, -, -, rfl, rfl⟩ := (mem_long ts u se k j a v s).1 h
    simp [keyPos, hk, table]

theorem foldl_max_ge (l : List ℕ) : ∀ m, m ≤ l.foldl max m ∧ ∀ x ∈ l, x ≤ l.foldl max m := by
  induction l with
  | nil => intro m; exact ⟨le_rfl, by simp⟩
  | cons a l ih =>
    intro m
    obtain ⟨h1, h2⟩ := ih (max m a)
    refine ⟨le_trans (le_max_left _ _) h1, fun x hx => ?_⟩
    rcases List.mem_cons.1 hx with rfl | hx
    · exact le_trans (le_max_right _ _) h1
    · exact h2 x hx

/-- **C252** The frame of all terms: the row of a level has the values of its table, and is empty beyond the variables of its term. -/
theorem C252_multi (ts : List GTerm) (u : ℕ → ℝ) (k : ℕ) (t : GTerm) (hk : ts[k]? = some t) (j : ℕ) (hj : j < t.ng) :
    ∃ row, ((k, j), row) ∈ (multi ts u).2 ∧ t.nv ≤ (multi ts u).1 ∧ ∀ a, row a = if a < t.nv then some (table ts u k t.nv j a) else none := by
  refine ⟨_, ?_, ?_, fun a => rfl⟩
  · rw [multi, List.mem_flatMap]
    refine ⟨k, List.mem_range.2 ?_, ?_⟩
    · by_contra hh
      rw [List.getElem?_eq_none (by omega)] at hk
      cases hk
    · rw [hk]
      exact List.mem_map.2 ⟨j, List.mem_range.2 hj, rfl⟩
  · exact (foldl_max_ge _ 0).2 _ (List.mem_map.2 ⟨t, List.mem_of_getElem? hk, rfl⟩)

/-- **C252** The rows of a table are numbered by first appearance and carry no group: sorting the data changes which group row zero is. -/
theorem C252_order_violated : ∃ gr gr' : List ℕ, gr.Perm gr' ∧ (levels gr)[0]? ≠ (levels gr')[0]? :=
  ⟨[1, 0], [0, 1], by decide, by decide⟩

/-- **C252** In the frame of all terms the first variables of different terms share a column: an intercept of one term stands above a slope of
another. -/
theorem C252_column_violated : ∃ ts : List GTerm, ∃ t t', ts = [t, t'] ∧ (∀ i, t.arr i 0 = 1) ∧ (∀ i, t'.arr i 0 = i) ∧
    ∀ u : ℕ → ℝ, ∃ r r' : ℕ → Option ℝ, (multi ts u).2 = [((0, 0), r), ((1, 0), r')] ∧ r 0 = some (u 0) ∧ r' 0 = some (u 1) := by
  refine ⟨[⟨1, 1, fun _ => 0, fun _ _ => 1⟩, ⟨1, 1, fun _ => 0, fun i _ => i⟩], _, _, rfl, fun _ => rfl, fun _ => rfl, fun u => ⟨_, _, rfl, rfl, rfl⟩⟩

example : codes [some 3, none, some 3] = none := by decide
example : codes [some 3, some 1, some 3] = some [0, 1, 0] := by decide

end Verif.Lmm.ReTables
