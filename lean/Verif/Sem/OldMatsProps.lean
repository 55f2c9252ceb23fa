import Verif.Sem.OldMats
import Verif.Sem.ParamsProps
import Verif.Sem.OldFlat
import Mathlib.Tactic
/-!
C257: from the table of the older structural equation models to their matrices.
-/
namespace Verif.Sem
open Verif.Vec
variable {R : Type} [Field R]

theorem oldLoop_indices (f : OFlat) (g : Flat) (hb : f.blk = g.blk) (ho : f.offset = g.offset) (i : ℕ) (bs : List Blk) :
    (oldLoop f i bs).flatMap OFlat.flatIndices = (blockLoop g i bs).flatMap Flat.flatIndices := by
  induction bs generalizing f g i with
  | nil => rfl
  | cons b bs ih =>
    have e : f.span.2 = g.stop := by simp only [OFlat.span, Flat.stop, hb, ho]
    simp only [oldLoop, blockLoop, List.flatMap_cons]
    congr 1
    · simp only [OFlat.flatIndices, Flat.flatIndices, OFlat.addOffsets, Flat.addOffsets, mkFlat, e]
    · exact ih _ _ rfl e _

/-- **C257** The indices of the older indexer are those of the newer one. -/
theorem C257_indices (bs : List Blk) : (oldFlat bs).flatMap OFlat.flatIndices = allFlatIndices bs := by
  cases bs with
  | nil => rfl
  | cons b bs =>
    simp only [oldFlat, allFlatIndices, blockFlat, List.flatMap_cons]
    congr 1
    exact oldLoop_indices _ _ rfl rfl 1 bs

/-- The row as pysem2 has it: fixed means number zero. -/
def FixRow.toT (x : FixRow R) : TRow R := TRow.mk x.mat x.r x.c (if x.fixed then 0 else x.free) none x.fixedval

/-- A row that is not fixed has a number, and one that is fixed has none. -/
def Consistent (t : List (FixRow R)) : Prop := ∀ x ∈ t, (x.fixed = true ↔ x.free = 0)

omit [Field R] in
theorem filter_toT (t : List (FixRow R)) (P : TRow R → Bool) : (t.map FixRow.toT).filter P = (t.filter fun x => P x.toT).map FixRow.toT := by
  rw [List.filter_map]; rfl

omit [Field R] in
theorem oldFreeMat_eq (t : List (FixRow R)) (h : ∀ x ∈ t, x.fixed = false → x.free ≠ 0) (i r c : ℕ) :
    oldFreeMat t i r c = freeMat (t.map FixRow.toT) i r c := by
  unfold oldFreeMat freeMat
  rw [filter_toT, filter_toT]
  have e : (t.filter fun x => decide (x.toT.mat = i ∧ x.toT.free ≠ 0)) = t.filter fun x => decide (x.mat = i ∧ x.fixed = false) := by
    refine List.filter_congr fun x hx => ?_
    have hh := h x hx
    cases hf : x.fixed <;> simp [FixRow.toT, hf]
    intro _; exact hh hf
  rw [e]
  have e2 : ((t.filter fun x => decide (x.mat = i ∧ x.fixed = false)).filter fun x => decide (x.toT.r = r ∧ x.toT.c = c)) =
      (t.filter fun x => decide (x.mat = i ∧ x.fixed = false)).filter fun x => decide (x.r = r ∧ x.c = c) := rfl
  rw [e2, List.getLast?_map]
  cases hl : ((t.filter fun x => decide (x.mat = i ∧ x.fixed = false)).filter fun x => decide (x.r = r ∧ x.c = c)).getLast? with
  | none => rfl
  | some x =>
    have hx := List.mem_of_getLast? hl
    have hx' : x.fixed = false := by
      have := (List.mem_filter.1 (List.mem_filter.1 hx).1).2
      simp at this
      exact this.2
    simp [FixRow.toT, hx']

omit [Field R] in
theorem oldBlocks_eq (p q : ℕ) (t : List (FixRow R)) (h : ∀ x ∈ t, x.fixed = false → x.free ≠ 0) :
    oldBlocks p q t = blocks p q (t.map FixRow.toT) := by
  unfold oldBlocks blocks
  refine List.map_congr_left fun i _ => ?_
  congr 1
  funext r c
  exact oldFreeMat_eq t h i r c

/-- The variables whose residual variance starts at one. -/
def onxLeft (lvo : List (ℕ × ℕ)) (onx : List ℕ) : List ℕ := onx.filter fun r => r ∉ lvo.map Prod.fst

/-- No row of the table sits where `apply_fixed_and_free_values` writes: the loading of an observed variable of the structural part on itself,
and its residual variance. -/
def Clear (lvo : List (ℕ × ℕ)) (t : List (FixRow R)) : Prop :=
  ∀ x ∈ t, ¬ (x.mat = 0 ∧ (x.r, x.c) ∈ lvo) ∧ ¬ (x.mat = 3 ∧ x.r = x.c ∧ x.r ∈ lvo.map Prod.fst)

theorem oldApplied_eq (lvo : List (ℕ × ℕ)) (onx : List ℕ) (t : List (FixRow R)) (h : ∀ x ∈ t, x.fixed = false → x.free ≠ 0)
    (hc : Clear lvo t) (i r c : ℕ) : oldApplied lvo onx t i r c = tmplMat lvo (onxLeft lvo onx) (t.map FixRow.toT) i r c := by
  have hstart : ∀ x ∈ t.map FixRow.toT, x.start = none := fun x hx => by
    obtain ⟨y, -, rfl⟩ := List.mem_map.1 hx; rfl
  have hm : ∀ init : R, ((((t.map FixRow.toT).filter fun x => x.mat = i ∧ x.free ≠ 0).filter fun x =>
      x.r = r ∧ x.c = c).getLast?.map fun x => x.start.getD init).getD init = init := fun init => by
    cases hl : (((t.map FixRow.toT).filter fun x => x.mat = i ∧ x.free ≠ 0).filter fun x => x.r = r ∧ x.c = c).getLast? with
    | none => rfl
    | some x =>
      have hx := hstart x (List.mem_of_mem_filter (List.mem_of_mem_filter (List.mem_of_getLast? hl)))
      simp [hx]
  unfold tmplMat
  simp only [hm]
  rw [filter_toT, filter_toT]
  have e : (t.filter fun x => decide (x.toT.mat = i ∧ x.toT.free = 0)) = t.filter fun x => decide (x.mat = i ∧ x.fixed = true) := by
    refine List.filter_congr fun x hx => ?_
    have hh := h x hx
    cases hf : x.fixed <;> simp [FixRow.toT, hf]
    intro _; exact hh hf
  rw [e]
  have e2 : ((t.filter fun x => decide (x.mat = i ∧ x.fixed = true)).filter fun x => decide (x.toT.r = r ∧ x.toT.c = c)) =
      (t.filter fun x => decide (x.mat = i ∧ x.fixed = true)).filter fun x => decide (x.r = r ∧ x.c = c) := rfl
  rw [e2, List.getLast?_map, Option.map_map]
  have e3 : (TRow.fixedval ∘ FixRow.toT : FixRow R → R) = FixRow.fixedval := rfl
  rw [e3]
  have hnone : (i = 0 ∧ (r, c) ∈ lvo) ∨ (i = 3 ∧ r = c ∧ r ∈ lvo.map Prod.fst) →
      ((t.filter fun x => decide (x.mat = i ∧ x.fixed = true)).filter fun x => decide (x.r = r ∧ x.c = c)) = [] := fun hh => by
    rw [List.filter_eq_nil_iff]
    intro x hx hrc
    have h1 := List.mem_filter.1 hx
    simp only [decide_eq_true_eq] at h1 hrc
    have := hc x h1.1
    rw [h1.2.1, hrc.1, hrc.2] at this
    rcases hh with hh | hh
    · exact this.1 hh
    · exact this.2 hh
  unfold oldApplied
  split_ifs with h1 h2
  · rw [hnone (Or.inl h1)]
    simp [initMat, h1.1, h1.2]
  · rw [hnone (Or.inr h2)]
    have : r ∉ onxLeft lvo onx := fun hh => by
      have := (List.mem_filter.1 hh).2
      simp only [decide_eq_true_eq] at this
      exact this h2.2.2
    simp [initMat, h2.1, this]
  · unfold oldStartMat
    congr 1
    unfold oldBase initMat
    by_cases h0 : i = 0
    · have : (r, c) ∉ lvo := fun hh => h1 ⟨h0, hh⟩
      simp [h0, this]
    · rw [if_neg h0]
      by_cases h22 : i = 2
      · rw [if_pos h22, if_pos h22]
      · rw [if_neg h22, if_neg h22]
        by_cases h3 : i = 3
        · rw [if_pos h3, if_pos h3]
          refine if_congr ?_ rfl rfl
          constructor
          · rintro ⟨ha, hb⟩
            refine ⟨ha, List.mem_filter.2 ⟨hb, ?_⟩⟩
            simp only [decide_eq_true_eq]
            exact fun hh => h2 ⟨h3, ha, hh⟩
          · rintro ⟨ha, hb⟩
            exact ⟨ha, List.mem_of_mem_filter hb⟩
        · rw [if_neg h3, if_neg h3]

theorem oldTemplate_eq (p q : ℕ) (lvo : List (ℕ × ℕ)) (onx : List ℕ) (t : List (FixRow R)) (h : ∀ x ∈ t, x.fixed = false → x.free ≠ 0)
    (hc : Clear lvo t) : oldTemplate p q lvo onx t = template p q lvo (onxLeft lvo onx) (t.map FixRow.toT) := by
  have : oldApplied lvo onx t = tmplMat lvo (onxLeft lvo onx) (t.map FixRow.toT) := by
    funext i r c; exact oldApplied_eq lvo onx t h hc i r c
  unfold oldTemplate template tmplPiece
  rw [this]

omit [Field R] in
theorem Consistent.fixed_free {t : List (FixRow R)} (h : Consistent t) : ∀ x ∈ t, x.fixed = false → x.free ≠ 0 := fun x hx hf h0 => by
  have := (h x hx).2 h0
  rw [hf] at this; exact absurd this (by simp)

omit [Field R] in
theorem oldFreeRows_eq {t : List (FixRow R)} (h : Consistent t) :
    (t.map FixRow.toT).filter (fun x => decide (x.free ≠ 0)) = (oldFreeRows t).map FixRow.toT := by
  rw [filter_toT, oldFreeRows]
  congr 1
  refine List.filter_congr fun x hx => ?_
  have := h x hx
  cases hf : x.fixed
  · simp [FixRow.toT, hf]
  · have h0 := this.1 hf
    simp [FixRow.toT, hf, h0]

/-- **C257** For a sorted table whose fixed rows have no number, the vector of a group has one entry for each of its free rows, and the matrices
built from it have that entry in the cell of the row, the fixed values in the cells of the fixed rows, and the defaults elsewhere; the covariance
matrices are symmetric. -/
theorem C257_matrices [CharZero R] (p q : ℕ) (lvo : List (ℕ × ℕ)) (onx : List ℕ) (t : List (FixRow R)) (hs : Sorted p q (t.map FixRow.toT)) (hk : Consistent t)
    (hc : Clear lvo t) (free : List R) (hlen : free.length = (oldFreeRows t).length) :
    ∃ (par : List R) (M : ℕ → ℕ → ℕ → R), groupFreeToPar (oldTemplate p q lvo onx t) (oldBlocks p q t) free = some par ∧
      (∀ i, i < 6 → parToMat p q (oldBlocks p q t) par i = some (M i)) ∧
      (∀ (k : ℕ) (x : FixRow R), (oldFreeRows t)[k]? = some x → free[k]? = some (M x.mat x.r x.c)) ∧
      (∀ x ∈ t, x.fixed = true → M x.mat x.r x.c = x.fixedval) ∧
      (∀ i r c, i < 6 → r < (matDims p q i).1 → c < (matDims p q i).2 → (isSym i = true → c ≤ r) →
        (∀ x ∈ t, ¬ (x.mat = i ∧ x.r = r ∧ x.c = c)) → M i r c = initMat lvo (onxLeft lvo onx) i r c) ∧
      (∀ i, i < 6 → isSym i = true → Symm (matDims p q i).2 (M i)) := by
  have hl : free.length = ((t.map FixRow.toT).filter fun x => decide (x.free ≠ 0)).length := by
    rw [oldFreeRows_eq hk, List.length_map, hlen]
  obtain ⟨par, M, h1, h2, h3, h4, h5, h6⟩ := C204_matrices (lvo := lvo) (onx := onxLeft lvo onx) hs free hl
  rw [oldTemplate_eq p q lvo onx t hk.fixed_free hc, oldBlocks_eq p q t hk.fixed_free]
  refine ⟨par, M, h1, h2, fun k x hx => ?_, fun x hx hf => ?_, fun i r c hi hr hcc hs' hno => ?_, h6⟩
  · refine h3 k x.toT ?_
    rw [oldFreeRows_eq hk, List.getElem?_map, hx]; rfl
  · exact h4 x.toT (List.mem_map_of_mem hx) (by simp [FixRow.toT, hf])
  · refine h5 i r c hi hr hcc hs' fun x hx => ?_
    obtain ⟨y, hy, rfl⟩ := List.mem_map.1 hx
    exact hno y hy

omit [Field R] in
/-- **C257** The places of the free parameters are those of the rows that are not fixed. -/
theorem C257_count (p q : ℕ) (t : List (FixRow R)) (hs : Sorted p q (t.map FixRow.toT)) (h : ∀ x ∈ t, x.fixed = false → x.free ≠ 0) :
    (allFlatIndices (oldBlocks p q t)).length = (t.filter fun x => x.fixed = false).length := by
  rw [oldBlocks_eq p q t h, C204_order hs, List.length_map, filter_toT, List.length_map]
  congr 1
  refine List.filter_congr fun x hx => ?_
  have hh := h x hx
  cases hf : x.fixed <;> simp [FixRow.toT, hf]
  exact hh hf

/-- **C257 (violated)** A row that `fix_sample_stats` fixes but that keeps its number, as a labelled covariance of exogenous variables does
(`C248_stats_violated`), is in the vector of the group but has no place in the matrices: the vector is too long, and the assignment raises. -/
theorem C257_length_violated (p q : ℕ) (tmpl : List R) (t : List (FixRow R)) (hs : Sorted p q (t.map FixRow.toT))
    (h : ∀ x ∈ t, x.fixed = false → x.free ≠ 0) (x : FixRow R) (hx : x ∈ t) (hf : x.fixed = true) (hn : x.free ≠ 0) (free : List R)
    (hlen : free.length = (oldFreeRows t).length) (h1 : free.length ≠ 1) :
    (allFlatIndices (oldBlocks p q t)).length < free.length ∧ groupFreeToPar tmpl (oldBlocks p q t) free = none := by
  have hlt : (allFlatIndices (oldBlocks p q t)).length < free.length := by
    rw [C257_count p q t hs h, hlen, oldFreeRows]
    have e : (t.filter fun x => x.fixed = false) = (t.filter fun x => x.free ≠ 0).filter fun x => x.fixed = false := by
      rw [List.filter_filter]
      refine List.filter_congr fun y hy => ?_
      have := h y hy
      cases hy' : y.fixed <;> simp [hy'] at this ⊢
      exact this
    rw [e]
    refine lt_of_le_of_ne (List.length_filter_le _ _) fun he => ?_
    have := List.length_filter_eq_length_iff.1 he x (List.mem_filter.2 ⟨hx, by simpa using hn⟩)
    simp [hf] at this
  exact ⟨hlt, C204_wrong_length tmpl _ free hlt.ne h1⟩

/-- **C257** `free_params` has the defaults, not the starting values of the table. -/
theorem C257_free_params (lvo : List (ℕ × ℕ)) (onx : List ℕ) (t : List (FixRow R)) (hk : Consistent t) (hc : Clear lvo t) (hnd : (t.map fun x => (x.mat, x.r, x.c)).Nodup)
    (x : FixRow R) (hx : x ∈ t) (hf : x.fixed = false) :
    oldApplied lvo onx t x.mat x.r x.c = initMat lvo (onxLeft lvo onx) x.mat x.r x.c ∧ oldFreeMat t x.mat x.r x.c = x.free := by
  have huniq : ∀ y ∈ t, y.mat = x.mat → y.r = x.r → y.c = x.c → y = x := fun y hy h1 h2 h3 =>
    List.inj_on_of_nodup_map hnd hy hx (by rw [h1, h2, h3])
  constructor
  · rw [oldApplied_eq lvo onx t hk.fixed_free hc]
    unfold tmplMat
    have e1 : (((t.map FixRow.toT).filter fun y => y.mat = x.mat ∧ y.free = 0).filter fun y => y.r = x.r ∧ y.c = x.c) = [] := by
      rw [List.filter_eq_nil_iff]
      intro y hy hrc
      obtain ⟨hy1, hy2⟩ := List.mem_filter.1 hy
      obtain ⟨z, hz, rfl⟩ := List.mem_map.1 hy1
      simp only [decide_eq_true_eq] at hy2 hrc
      have := huniq z hz hy2.1 hrc.1 hrc.2
      subst this
      have h0 : z.free = 0 := by simpa [FixRow.toT, hf] using hy2.2
      exact hk.fixed_free z hz hf h0
    rw [e1]
    cases hl : (((t.map FixRow.toT).filter fun y => y.mat = x.mat ∧ y.free ≠ 0).filter fun y => y.r = x.r ∧ y.c = x.c).getLast? with
    | none => simp
    | some y =>
      have hy := List.mem_of_mem_filter (List.mem_of_mem_filter (List.mem_of_getLast? hl))
      obtain ⟨z, -, rfl⟩ := List.mem_map.1 hy
      simp [FixRow.toT]
  · unfold oldFreeMat
    have hmem : x ∈ (t.filter fun y => y.mat = x.mat ∧ y.fixed = false).filter fun y => y.r = x.r ∧ y.c = x.c :=
      List.mem_filter.2 ⟨List.mem_filter.2 ⟨hx, by simp [hf]⟩, by simp⟩
    cases hl : ((t.filter fun y => y.mat = x.mat ∧ y.fixed = false).filter fun y => y.r = x.r ∧ y.c = x.c).getLast? with
    | none =>
      rw [List.getLast?_eq_none_iff] at hl
      rw [hl] at hmem; simp at hmem
    | some y =>
      obtain ⟨h1, h2⟩ := List.mem_filter.1 (List.mem_of_getLast? hl)
      obtain ⟨h3, h4⟩ := List.mem_filter.1 h1
      simp only [decide_eq_true_eq] at h2 h4
      rw [huniq y h3 h4.1 h2.1 h2.2]; rfl

/-- One factor with two indicators, sorted: fixed loading, free loading, factor variance, residual variances. -/
def oldEx : List (FixRow ℚ) :=
  [FixRow.mk 0 0 0 0 true 1, FixRow.mk 0 1 0 1 false 0, FixRow.mk 2 0 0 2 false 0, FixRow.mk 3 0 0 3 false 0, FixRow.mk 3 1 1 4 false 0]

example : Consistent oldEx ∧ Clear [] oldEx ∧ Sorted 2 1 (oldEx.map FixRow.toT) ∧ (oldEx.map fun x => (x.mat, x.r, x.c)).Nodup := by
  refine ⟨by unfold Consistent; decide +kernel, by simp [Clear], ⟨?_, ?_, ?_⟩, by decide +kernel⟩
  · unfold RowIn; decide +kernel
  · decide +kernel
  · simp [oldEx, FixRow.toT, Before]

example : allFlatIndices (oldBlocks 2 1 oldEx) = [1, 3, 4, 6] ∧
    groupFreeToPar (oldTemplate 2 1 [] [0, 1] oldEx) (oldBlocks 2 1 oldEx) [7, 8, 9, 10] = some [1, 7, 0, 8, 9, 0, 10, 0, 0, 0] ∧
    oldFreeParams 2 1 [] [0, 1] oldEx = [some 0, some 1, some 1, some 1] := by
  decide +kernel

end Verif.Sem
