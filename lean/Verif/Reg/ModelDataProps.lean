import Verif.Reg.ModelData
import Mathlib.Tactic.Linarith
import Mathlib.Algebra.BigOperators.Ring.Finset

namespace Verif.Reg
open Finset

/-! ### Rows -/

/-- **C244** When the same observations are missing in all formulas, row `i` of every stored matrix is the same observation. -/
theorem C244_rows_partial (n : ℕ) (main : ℕ → Bool) (others : List (ℕ → Bool)) (h : ∀ m ∈ others, ∀ i < n, m i = main i) :
    ∀ l ∈ fromFormulas n main others, l = keptRows n main := by
  intro l hl
  rcases List.mem_cons.1 hl with rfl | hl
  · rfl
  rcases List.mem_append.1 hl with hl | hl
  · obtain ⟨m, hm, rfl⟩ := List.mem_map.1 hl
    exact List.filter_congr fun i hi => by rw [h m hm i (List.mem_range.1 hi)]
  · exact List.mem_singleton.1 hl

/-- **C244** With a variable of the first formula missing in one observation and one of the second in another, the matrices have the same
number of rows, so nothing raises, and the rows belong to different observations. -/
theorem C244_rows_violated :
    fromFormulas 3 (fun i => decide (i = 0)) [fun i => decide (i = 1)] = [[1, 2], [0, 2], [1, 2]] := by
  decide +kernel

/-- **C244** The response always goes with the main design. -/
theorem C244_response (n : ℕ) (main : ℕ → Bool) (others : List (ℕ → Bool)) :
    (fromFormulas n main others).head? = (fromFormulas n main others).getLast? := by
  rw [fromFormulas, List.head?_cons, ← List.cons_append, List.getLast?_concat]

/-! ### `drop_missing` -/

theorem dropRows_eq {α : Type} [Inhabited α] (mask : List Bool) (a : List α) (h : a.length = mask.length) :
    dropRows mask a = ((List.range mask.length).filter fun i => !mask.getD i false).map fun i => a.getD i default := by
  induction a generalizing mask with
  | nil =>
    cases mask with
    | nil => rfl
    | cons => simp at h
  | cons x a ih =>
    cases mask with
    | nil => simp at h
    | cons b mask =>
      have h' : a.length = mask.length := by simpa using h
      have hd : dropRows (b :: mask) (x :: a) = if b then dropRows mask a else x :: dropRows mask a := by
        cases b <;> simp [dropRows]
      rw [hd, ih mask h', List.length_cons, List.range_succ_eq_map, List.filter_cons]
      cases b <;> simp [List.filter_map, Function.comp_def]

/-- **C244** `drop_missing` keeps, in every matrix, in every index and in the weights, exactly the observations without a missing cell in any
matrix, in their order. -/
theorem C244_drop_partial (n : ℕ) (mats : List (List (List (Option ℤ)))) (indexes : List (List ℕ)) (weights : Option (List ℤ))
    (hm : ∀ a ∈ mats, a.length = n) (hi : ∀ a ∈ indexes, a.length = n) (hw : ∀ a ∈ weights, a.length = n) :
    let keep := (List.range n).filter fun i => decide (∀ a ∈ mats, ∀ x ∈ a.getD i [], x ≠ none)
    dropMissing n (mats.map Stored.mat) indexes weights =
      some (mats.map fun a => keep.map fun i => a.getD i [], indexes.map fun a => keep.map fun i => a.getD i 0,
        weights.map fun a => keep.map fun i => a.getD i 0) := by
  intro keep
  have h1 : (mats.map Stored.mat).mapM nanRow = some (mats.map fun rows => rows.map fun r => r.any (·.isNone)) := by
    clear hm hi hw keep
    induction mats with
    | nil => rfl
    | cons a mats ih => rw [List.map_cons, List.mapM_cons, ih]; rfl
  set mask := (List.range n).map fun i => (mats.map fun rows => rows.map fun r => r.any (·.isNone)).any fun b => b.getD i false with hmask
  have hlen : mask.length = n := by simp [hmask]
  have h2 : anyRows n (mats.map fun rows => rows.map fun r => r.any (·.isNone)) = some mask := by
    rw [anyRows, if_pos]
    intro b hb
    obtain ⟨a, ha, rfl⟩ := List.mem_map.1 hb
    rw [List.length_map, hm a ha]
  have hk : ((List.range mask.length).filter fun i => !mask.getD i false) = keep := by
    rw [hlen]
    refine List.filter_congr fun i hir => ?_
    have hin := List.mem_range.1 hir
    have hg : mask.getD i false = (mats.map fun rows => rows.map fun r => r.any (·.isNone)).any fun b => b.getD i false := by
      rw [hmask, List.getD_eq_getElem _ _ (by simpa using hin), List.getElem_map, List.getElem_range]
    rw [hg, Bool.eq_iff_iff]
    simp only [Bool.not_eq_true', List.any_eq_false, List.mem_map, forall_exists_index, and_imp, forall_apply_eq_imp_iff₂, decide_eq_true_eq]
    refine forall₂_congr fun a ha => ?_
    have hai : i < a.length := by rw [hm a ha]; exact hin
    rw [List.getD_eq_getElem _ _ (by rw [List.length_map]; exact hai), List.getElem_map, List.getD_eq_getElem _ _ hai]
    simp only [Bool.not_eq_true, List.any_eq_false, Option.isNone_iff_eq_none]
  have h3 : ((mats.map Stored.mat).map Stored.rows) = mats := by
    rw [List.map_map]
    exact (List.map_congr_left fun a _ => rfl).trans (List.map_id _)
  rw [dropMissing, h1, Option.bind_eq_bind, Option.bind_some, h2, Option.bind_eq_bind, Option.bind_some, h3]
  refine congrArg some (Prod.ext ?_ (Prod.ext ?_ ?_))
  · exact List.map_congr_left fun a ha => by rw [dropRows_eq mask a (by rw [hm a ha, hlen]), hk]; rfl
  · exact List.map_congr_left fun a ha => by rw [dropRows_eq mask a (by rw [hi a ha, hlen]), hk]; rfl
  · cases weights with
    | none => rfl
    | some a =>
      show some _ = some _
      rw [dropRows_eq mask a (by rw [hw a rfl, hlen]), hk]
      rfl

example : dropMissing 3 [.mat [[some 1], [none], [some 3]], .mat [[some 4, none], [some 5, some 5], [some 6, some 7]]] [[0, 1, 2]] (some [1, 2, 3]) =
    some ([[[some 3]], [[some 6, some 7]]], [[2]], some [3]) := by decide +kernel

/-- **C244** After `flatten_y`, which every model with one response applies, `drop_missing` raises. -/
theorem C244_flat_violated (n : ℕ) (X : List (List (Option ℤ))) (y : List (Option ℤ)) (ix : List (List ℕ)) (w : Option (List ℤ)) :
    dropMissing n [.mat X, .flat y] ix w = none := rfl

/-! ### `drop_intercept` -/

theorem layTerms_append (a : ℕ) (l m : List (String × List String)) :
    layTerms a (l ++ m) = layTerms a l ++ layTerms (a + (l.flatMap Prod.snd).length) m := by
  induction l generalizing a with
  | nil => simp [layTerms]
  | cons t l ih =>
    obtain ⟨name, cols⟩ := t
    simp only [List.cons_append, layTerms, ih, List.flatMap_cons, List.length_append, Nat.add_assoc]

theorem layTerms_names (a : ℕ) (l : List (String × List String)) : (layTerms a l).map Prod.fst = l.map Prod.fst := by
  induction l generalizing a with
  | nil => rfl
  | cons t l ih => simp [layTerms, ih]

theorem layTerms_bounds (a : ℕ) (l : List (String × List String)) :
    ∀ t ∈ layTerms a l, a ≤ t.2.1 ∧ t.2.1 ≤ t.2.2 ∧ t.2.2 ≤ a + (l.flatMap Prod.snd).length := by
  induction l generalizing a with
  | nil => simp [layTerms]
  | cons u l ih =>
    intro t ht
    obtain ⟨name, cols⟩ := u
    simp only [layTerms, List.flatMap_cons, List.length_append] at *
    rcases List.mem_cons.1 ht with rfl | ht
    · simp
    · have := ih _ t ht
      omega

theorem slice_append {α : Type} (pre l : List α) (a b : ℕ) : slice (pre ++ l) (pre.length + a) (pre.length + b) = slice l a b := by
  simp [slice, List.take_append, List.drop_append, List.take_of_length_le]

/-- **C244** The slices of the terms cut out the columns of the terms. -/
theorem C244_layout (terms : List (String × List String)) :
    (desInfo terms).slices.map (fun t => (t.1, slice (desInfo terms).columns t.2.1 t.2.2)) = terms := by
  have key : ∀ (pre : List String) (l : List (String × List String)),
      (layTerms pre.length l).map (fun t => (t.1, slice (pre ++ l.flatMap Prod.snd) t.2.1 t.2.2)) = l := by
    intro pre l
    induction l generalizing pre with
    | nil => rfl
    | cons t l ih =>
      obtain ⟨name, cols⟩ := t
      simp only [layTerms, List.map_cons, List.flatMap_cons]
      congr 1
      · have := slice_append pre (cols ++ l.flatMap Prod.snd) 0 cols.length
        rw [Nat.add_zero] at this
        rw [this]
        simp [slice]
      · have := ih (pre ++ cols)
        rw [List.length_append] at this
        rw [← List.append_assoc]
        exact this
  exact key [] terms

/-- **C244** After the intercept is dropped, wherever it stood, the slices are those of the remaining terms: they cut the same columns out of the
smaller matrix. -/
theorem C244_intercept (pre post : List (String × List String)) (hpre : ∀ t ∈ pre, t.1 ≠ "Intercept") (hpost : ∀ t ∈ post, t.1 ≠ "Intercept")
    (hc : ∀ t ∈ pre, "Intercept" ∉ t.2) :
    (dropIntercept (desInfo (pre ++ ("Intercept", ["Intercept"]) :: post))).columns = (desInfo (pre ++ post)).columns ∧
      (dropIntercept (desInfo (pre ++ ("Intercept", ["Intercept"]) :: post))).slices = (desInfo (pre ++ post)).slices := by
  set P := pre.flatMap Prod.snd with hP
  have hcols : (desInfo (pre ++ ("Intercept", ["Intercept"]) :: post)).columns = P ++ "Intercept" :: post.flatMap Prod.snd := by
    simp [desInfo, hP]
  have hPn : "Intercept" ∉ P := by
    rw [hP, List.mem_flatMap]
    rintro ⟨t, ht, h⟩
    exact hc t ht h
  have hmem : "Intercept" ∈ (desInfo (pre ++ ("Intercept", ["Intercept"]) :: post)).columns := by rw [hcols]; simp
  have hidx : (desInfo (pre ++ ("Intercept", ["Intercept"]) :: post)).columns.idxOf "Intercept" = P.length := by
    rw [hcols, List.idxOf_append_of_notMem hPn]; simp
  have hsl : (desInfo (pre ++ ("Intercept", ["Intercept"]) :: post)).slices =
      layTerms 0 pre ++ ("Intercept", P.length, P.length + 1) :: layTerms (P.length + 1) post := by
    simp only [desInfo, layTerms_append, layTerms, Nat.zero_add, ← hP]
    rfl
  have hn1 : ∀ t ∈ layTerms 0 pre, t.1 ≠ "Intercept" := fun t ht => by
    have : t.1 ∈ (layTerms 0 pre).map Prod.fst := List.mem_map.2 ⟨t, ht, rfl⟩
    rw [layTerms_names] at this
    obtain ⟨u, hu, e⟩ := List.mem_map.1 this
    rw [← e]; exact hpre u hu
  have hn2 : ∀ t ∈ layTerms (P.length + 1) post, t.1 ≠ "Intercept" := fun t ht => by
    have : t.1 ∈ (layTerms (P.length + 1) post).map Prod.fst := List.mem_map.2 ⟨t, ht, rfl⟩
    rw [layTerms_names] at this
    obtain ⟨u, hu, e⟩ := List.mem_map.1 this
    rw [← e]; exact hpost u hu
  have hlk : (desInfo (pre ++ ("Intercept", ["Intercept"]) :: post)).slices.lookup "Intercept" = some (P.length, P.length + 1) := by
    rw [hsl]
    generalize layTerms 0 pre = q at hn1
    induction q with
    | nil => simp
    | cons t q ih =>
      have ht := hn1 t List.mem_cons_self
      rw [List.cons_append, List.lookup_cons]
      have : ("Intercept" == t.1) = false := by simpa using fun e => ht e.symm
      rw [this]
      exact ih fun u hu => hn1 u (List.mem_cons_of_mem _ hu)
  rw [dropIntercept, if_pos hmem]
  refine ⟨?_, ?_⟩
  · show (desInfo _).columns.eraseIdx _ = _
    rw [hidx, hcols, List.eraseIdx_append_of_length_le (le_refl _), Nat.sub_self]
    simp [desInfo, hP]
  · show (((desInfo _).slices.filter _).map _) = _
    rw [hlk, Option.getD_some, hsl, List.filter_append, List.filter_cons]
    simp only [ne_eq, not_true_eq_false, decide_false, Bool.false_eq_true, if_false, decide_not]
    rw [List.filter_eq_self.2 (by simpa using hn1), List.filter_eq_self.2 (by simpa using hn2), List.map_append]
    have e1 : (layTerms 0 pre).map (fun t => if t.2.1 > P.length then (t.1, t.2.1 - 1, t.2.2 - 1) else t) = layTerms 0 pre := by
      refine (List.map_congr_left fun t ht => ?_).trans (List.map_id _)
      have := layTerms_bounds 0 pre t ht
      rw [if_neg (by rw [← hP] at this; omega)]
      rfl
    have e2 : ∀ (a : ℕ), P.length ≤ a → (layTerms (a + 1) post).map (fun t => if t.2.1 > P.length then (t.1, t.2.1 - 1, t.2.2 - 1) else t) =
        layTerms a post := by
      clear hn2 hpost hsl hlk hcols hmem hidx
      induction post with
      | nil => intro a _; rfl
      | cons t post ih =>
        intro a ha
        obtain ⟨name, cols⟩ := t
        simp only [layTerms, List.map_cons]
        rw [if_pos (by omega), show a + 1 + cols.length = (a + cols.length) + 1 by omega, ih (a + cols.length) (by omega)]
        simp
    rw [e1, e2 P.length (le_refl _)]
    simp only [desInfo, layTerms_append, Nat.zero_add, hP]

example : (dropIntercept (desInfo [("Intercept", ["Intercept"]), ("g", ["g[b]", "g[c]"]), ("x", ["x"])])).slices = [("g", 0, 2), ("x", 2, 3)] := by
  decide +kernel

/-- **C244** The positions of the columns by name are not moved: after the intercept is dropped they are one too large, the last outside the
matrix. -/
theorem C244_positions_violated :
    (dropIntercept (desInfo [("Intercept", ["Intercept"]), ("x", ["x"])])).columns = ["x"] ∧
      (dropIntercept (desInfo [("Intercept", ["Intercept"]), ("x", ["x"])])).colIndex = [("x", 1)] := by
  decide +kernel

/-! ### Constraint matrices -/

theorem termPositions_eq (nParams offset start stop : ℕ) (h : stop + offset ≤ nParams) :
    termPositions nParams offset start stop = List.range' (start + offset) (stop - start) := by
  rw [termPositions, slice, List.take_range, min_eq_left h, List.range_eq_range', List.drop_range']
  congr 1 <;> omega

/-- **C244** The constraint matrix of a term takes the parameters of the term out of the parameter vector, and has a row for each. -/
theorem C244_matrix_partial (nParams offset start stop : ℕ) (h : stop + offset ≤ nParams) (theta : ℕ → ℝ) (r : ℕ) (hr : r < stop - start) :
    (termPositions nParams offset start stop).length = stop - start ∧
      ∑ c ∈ range nParams, termMatrix nParams offset start stop r c * theta c = theta (start + offset + r) := by
  have he := termPositions_eq nParams offset start stop h
  refine ⟨by rw [he, List.length_range'], ?_⟩
  have hg : (termPositions nParams offset start stop).getD r 0 = start + offset + r := by
    rw [he, List.getD_eq_getElem _ _ (by rw [List.length_range']; exact hr), List.getElem_range']; omega
  rw [Finset.sum_eq_single (start + offset + r)]
  · rw [termMatrix]
    simp only [hg]
    rw [if_pos ⟨by rw [he, List.length_range']; exact hr, trivial⟩, one_mul]
  · intro c _ hne
    rw [termMatrix]
    simp only [hg]
    rw [if_neg (fun e => hne e.2.symm), zero_mul]
  · intro hn
    exact absurd (mem_range.2 (by omega)) hn

/-- The names of the parameters of several designs, one after the other. -/
def paramNames (designs : List (List (String × List String))) : List String := designs.flatMap fun terms => terms.flatMap Prod.snd

/-- **C244** With several designs, the offset and the slice of every term point at the columns of that term in the joint parameter vector. -/
theorem C244_designs (lead : List String) (designs : List (List (String × List String))) :
    (termwise lead.length designs).map (fun l => l.map fun t => (t.1, slice (lead ++ paramNames designs) (t.2.2.1 + t.2.1) (t.2.2.2 + t.2.1))) =
      designs.map fun terms => terms.filter fun t => t.1 ≠ "Intercept" := by
  induction designs generalizing lead with
  | nil => rfl
  | cons terms designs ih =>
    simp only [termwise, List.map_cons]
    congr 1
    · rw [List.map_map]
      have hl := C244_layout terms
      have hf : terms.filter (fun t => t.1 ≠ "Intercept") = ((layTerms 0 terms).filter fun t => t.1 ≠ "Intercept").map
          fun t => (t.1, slice (desInfo terms).columns t.2.1 t.2.2) := by
        conv_lhs => rw [← hl]
        rw [List.filter_map]
        rfl
      rw [hf]
      refine List.map_congr_left fun t ht => ?_
      have hb := layTerms_bounds 0 terms t (List.mem_filter.1 ht).1
      simp only [Function.comp_apply, Prod.mk.injEq, true_and]
      rw [Nat.add_comm t.2.1, Nat.add_comm t.2.2, slice_append, paramNames, List.flatMap_cons]
      show slice (terms.flatMap Prod.snd ++ _) _ _ = slice (terms.flatMap Prod.snd) _ _
      rw [slice, slice, List.take_append_of_le_length (by omega)]
    · have := ih (lead ++ terms.flatMap Prod.snd)
      rw [List.length_append] at this
      rw [← this]
      simp only [paramNames, List.flatMap_cons, List.append_assoc]

/-- **C244** A parameter vector that is too short does not raise: the matrix loses rows. -/
theorem C244_short_violated : termPositions 2 0 1 3 = [1] := by decide +kernel

end Verif.Reg
