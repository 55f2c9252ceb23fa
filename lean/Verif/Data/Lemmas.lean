import Verif.Data.Model
import Mathlib.Tactic.FieldSimp
import Mathlib.Tactic.Ring
import Mathlib.Tactic.Linarith
import Mathlib.Tactic.LinearCombination
import Mathlib.Algebra.BigOperators.Ring.Finset
import Mathlib.Algebra.BigOperators.Group.List.Basic
import Mathlib.Algebra.CharZero.Defs
import Mathlib.Data.List.Count
import Mathlib.Data.List.GetD
import Mathlib.Algebra.BigOperators.Ring.List
/-!
# Lemmas for `data_utils`
-/
namespace Verif.Data

/-! ## Welford -/

section welford
variable {α : Type*} [Field α] [CharZero α]

theorem welford_inv (xs : List α) :
    (xs.foldl (fun st x => welfordUpdate x st) (0, 0, 0)).1 = xs.length ∧
    (xs.length : α) * (xs.foldl (fun st x => welfordUpdate x st) (0, 0, 0)).2.1 = xs.sum ∧
    (xs.foldl (fun st x => welfordUpdate x st) (0, 0, 0)).2.2 =
      (xs.map (· ^ 2)).sum -
        xs.length * (xs.foldl (fun st x => welfordUpdate x st) (0, 0, 0)).2.1 ^ 2 := by
  induction xs using List.reverseRecOn with
  | nil => simp
  | append_singleton xs x ih =>
    obtain ⟨h1, h2, h3⟩ := ih
    rw [List.foldl_append]
    simp only [List.foldl_cons, List.foldl_nil]
    set st := xs.foldl (fun st x => welfordUpdate x st) (0, 0, 0) with hst
    have hn : ((xs.length : α) + 1) ≠ 0 := by exact_mod_cast Nat.succ_ne_zero xs.length
    refine ⟨by simp [welfordUpdate, h1], ?_, ?_⟩
    · simp only [welfordUpdate, h1, List.length_append, List.length_singleton, Nat.cast_add,
        Nat.cast_one, List.sum_append, List.sum_singleton, ← h2]
      field_simp
      ring
    · simp only [welfordUpdate, h1, List.length_append, List.length_singleton, Nat.cast_add,
        Nat.cast_one, List.sum_append, List.sum_singleton, List.map_append, List.map_cons,
        List.map_nil, h3]
      field_simp
      ring

theorem sum_sq_dev (xs : List α) (m : α) (hm : (xs.length : α) * m = xs.sum) :
    (xs.map fun x => (x - m) ^ 2).sum = (xs.map (· ^ 2)).sum - xs.length * m ^ 2 := by
  have : ∀ l : List α, (l.map fun x => (x - m) ^ 2).sum =
      (l.map (· ^ 2)).sum - 2 * m * l.sum + l.length * m ^ 2 := by
    intro l
    induction l with
    | nil => simp
    | cons a l ih =>
      simp only [List.map_cons, List.sum_cons, List.length_cons, Nat.cast_add, Nat.cast_one, ih]
      ring
  rw [this, ← hm]; ring

/-- Common fold shape of the two cross-product loops. -/
theorem cross_inv (step : ℕ × α × α × α → α × α → ℕ × α × α × α)
    (hstep : ∀ n mx my P x y, step (n, mx, my, P) (x, y) =
      (n + 1, mx + (x - mx) / (n + 1), my + (y - my) / (n + 1),
        P + (x - mx) * (y - my) * n / (n + 1)))
    (xy : List (α × α)) :
    ∃ mx my P, xy.foldl step (0, 0, 0, 0) = (xy.length, mx, my, P) ∧
      (xy.length : α) * mx = (xy.map Prod.fst).sum ∧
      (xy.length : α) * my = (xy.map Prod.snd).sum ∧
      P = (xy.map fun p => p.1 * p.2).sum - xy.length * mx * my := by
  induction xy using List.reverseRecOn with
  | nil => exact ⟨0, 0, 0, by simp⟩
  | append_singleton xs p ih =>
    obtain ⟨mx, my, P, h1, h2, h3, h4⟩ := ih
    obtain ⟨x, y⟩ := p
    have hn : ((xs.length : α) + 1) ≠ 0 := by exact_mod_cast Nat.succ_ne_zero xs.length
    rw [List.foldl_append, h1]
    simp only [List.foldl_cons, List.foldl_nil, hstep]
    refine ⟨_, _, _, by rw [List.length_append]; rfl, ?_, ?_, ?_⟩
    · simp only [List.length_append, List.length_singleton, Nat.cast_add, Nat.cast_one,
        List.map_append, List.sum_append, ← h2, List.map_cons, List.map_nil, List.sum_singleton]
      field_simp; ring
    · simp only [List.length_append, List.length_singleton, Nat.cast_add, Nat.cast_one,
        List.map_append, List.sum_append, ← h3, List.map_cons, List.map_nil, List.sum_singleton]
      field_simp; ring
    · simp only [List.length_append, List.length_singleton, Nat.cast_add, Nat.cast_one,
        List.map_append, List.sum_append, h4, List.map_cons, List.map_nil, List.sum_singleton]
      field_simp; ring

omit [CharZero α] in
theorem sum_cross_dev (xy : List (α × α)) (mx my : α)
    (h1 : (xy.length : α) * mx = (xy.map Prod.fst).sum)
    (h2 : (xy.length : α) * my = (xy.map Prod.snd).sum) :
    (xy.map fun p => (p.1 - mx) * (p.2 - my)).sum =
      (xy.map fun p => p.1 * p.2).sum - xy.length * mx * my := by
  have : ∀ l : List (α × α), (l.map fun p => (p.1 - mx) * (p.2 - my)).sum =
      (l.map fun p => p.1 * p.2).sum - my * (l.map Prod.fst).sum - mx * (l.map Prod.snd).sum
        + l.length * mx * my := by
    intro l
    induction l with
    | nil => simp
    | cons a l ih =>
      simp only [List.map_cons, List.sum_cons, List.length_cons, Nat.cast_add, Nat.cast_one, ih]
      ring
  rw [this, ← h1, ← h2]; ring

end welford

/-! ## Sorted distinct values -/

theorem mem_levels (l : List ℕ) (v : ℕ) : v ∈ levels l ↔ v ∈ l := by
  unfold levels
  rw [(List.perm_insertionSort _ _).mem_iff, List.mem_dedup]

theorem levels_nodup (l : List ℕ) : (levels l).Nodup := by
  unfold levels
  rw [(List.perm_insertionSort _ _).nodup_iff]
  exact List.nodup_dedup l

theorem levels_sorted (l : List ℕ) : (levels l).Pairwise (· ≤ ·) :=
  List.pairwise_insertionSort _ _

/-- A list taking exactly the values `0..s-1` has these as its levels. -/
theorem levels_eq_range (l : List ℕ) (s : ℕ) (h : ∀ v, v ∈ l ↔ v < s) : levels l = List.range s := by
  apply List.Perm.eq_of_pairwise' (r := (· ≤ ·))
  · exact levels_sorted l
  · exact List.pairwise_lt_range.imp (fun h => Nat.le_of_lt h)
  · rw [List.perm_ext_iff_of_nodup (levels_nodup l) List.nodup_range]
    intro v
    rw [mem_levels, h]; simp

/-! ## Dummy coding -/

theorem mem_dummyIdx (x cats : List ℕ) (r c : ℕ) :
    (r, c) ∈ dummyEncodeIdx x cats ↔ r < x.length ∧ c < cats.length ∧ x[r]? = cats[c]? := by
  unfold dummyEncodeIdx
  simp only [List.mem_flatMap, List.mem_map, List.mem_filter, List.mem_range, Prod.mk.injEq,
    decide_eq_true_eq]
  constructor
  · rintro ⟨⟨v, i⟩, hv, a, ⟨h1, h2⟩, rfl, rfl⟩
    rw [List.mk_mem_zipIdx_iff_getElem?] at hv
    exact ⟨h1, (List.getElem?_eq_some_iff.1 hv).1, by rw [h2, hv]⟩
  · rintro ⟨h1, h2, h3⟩
    refine ⟨(cats[c], c), ?_, r, ⟨h1, ?_⟩, rfl, rfl⟩
    · rw [List.mk_mem_zipIdx_iff_getElem?, List.getElem?_eq_getElem h2]
    · rw [h3, List.getElem?_eq_getElem h2]

theorem dummyIdx_nodup (x cats : List ℕ) : (dummyEncodeIdx x cats).Nodup := by
  unfold dummyEncodeIdx
  rw [List.nodup_flatMap]
  constructor
  · intro ci _
    apply List.Nodup.map
    · intro a b h; simpa using h
    · exact List.nodup_range.filter _
  · have : (cats.zipIdx.map Prod.snd).Nodup := by
      rw [List.zipIdx_map_snd]
      exact List.nodup_range'
    rw [List.Nodup, List.pairwise_map] at this
    refine this.imp ?_
    intro a b hab y h1 h2
    simp only [List.mem_map] at h1 h2
    obtain ⟨_, _, rfl⟩ := h1
    obtain ⟨_, _, h⟩ := h2
    simp only [Prod.mk.injEq] at h
    exact hab h.2.symm

theorem count_dummyIdx (x cats : List ℕ) (r c : ℕ) (hr : r < x.length) (hc : c < cats.length) :
    (dummyEncodeIdx x cats).count (r, c) = if x[r]? = cats[c]? then 1 else 0 := by
  split_ifs with h
  · exact List.count_eq_one_of_mem (dummyIdx_nodup x cats) ((mem_dummyIdx x cats r c).2 ⟨hr, hc, h⟩)
  · exact List.count_eq_zero.2 (fun h' => h ((mem_dummyIdx x cats r c).1 h').2.2)

theorem dummyIdx_length (x cats : List ℕ) (hc : cats.Nodup) :
    (dummyEncodeIdx x cats).length = (x.filter fun v => decide (v ∈ cats)).length := by
  have hperm : (dummyEncodeIdx x cats).Perm
      (((List.range x.length).filter fun r => decide (x.getD r 0 ∈ cats)).map
        fun r => (r, cats.idxOf (x.getD r 0))) := by
    rw [List.perm_ext_iff_of_nodup (dummyIdx_nodup x cats)]
    · rintro ⟨r, c⟩
      rw [mem_dummyIdx]
      simp only [List.mem_map, List.mem_filter, List.mem_range, decide_eq_true_eq, Prod.mk.injEq]
      constructor
      · rintro ⟨h1, h2, h3⟩
        rw [List.getElem?_eq_getElem h1, List.getElem?_eq_getElem h2, Option.some.injEq] at h3
        refine ⟨r, ⟨h1, ?_⟩, rfl, ?_⟩
        · rw [List.getD_eq_getElem _ _ h1, h3]; exact List.getElem_mem h2
        · rw [List.getD_eq_getElem _ _ h1, h3, List.Nodup.idxOf_getElem hc]
      · rintro ⟨a, ⟨h1, h2⟩, rfl, rfl⟩
        have h3 := List.idxOf_lt_length_iff.2 h2
        refine ⟨h1, h3, ?_⟩
        rw [List.getElem?_eq_getElem h3, List.getElem_idxOf h3, List.getD_eq_getElem _ _ h1,
          List.getElem?_eq_getElem h1]
    · apply List.Nodup.map
      · intro a b h
        simp only [Prod.mk.injEq] at h
        exact h.1
      · exact List.nodup_range.filter _
  rw [hperm.length_eq, List.length_map]
  clear hperm
  induction x using List.reverseRecOn with
  | nil => simp
  | append_singleton x a ih =>
    rw [List.length_append, List.length_singleton, List.range_succ, List.filter_append,
      List.filter_append, List.length_append, List.length_append, ← ih]
    congr 1
    · congr 1
      apply List.filter_congr
      intro r hr
      rw [List.getD_append _ _ _ _ (by simpa using hr)]
    · by_cases h : a ∈ cats <;> simp [h]

/-! ## Cross tabulation -/

theorem mem_ndindex (shape idx : List ℕ) :
    idx ∈ ndindex shape ↔ List.Forall₂ (fun i s => i < s) idx shape := by
  induction shape generalizing idx with
  | nil => simp [ndindex]
  | cons s shape ih =>
    simp only [ndindex, List.mem_flatMap, List.mem_range, List.mem_map]
    constructor
    · rintro ⟨i, hi, t, ht, rfl⟩
      exact List.Forall₂.cons hi ((ih t).1 ht)
    · intro h
      cases h with
      | cons h1 h2 => exact ⟨_, h1, _, (ih _).2 h2, rfl⟩

theorem ndindex_nodup (shape : List ℕ) : (ndindex shape).Nodup := by
  induction shape with
  | nil => simp [ndindex]
  | cons s shape ih =>
    rw [ndindex, List.nodup_flatMap]
    refine ⟨fun i _ => ih.map (fun a b h => by simpa using h), ?_⟩
    refine List.Pairwise.imp ?_ (List.nodup_range (n := s))
    intro a b hab l h1 h2
    simp only [List.mem_map] at h1 h2
    obtain ⟨l1, _, rfl⟩ := h1
    obtain ⟨l2, _, h⟩ := h2
    simp only [List.cons.injEq] at h
    exact hab h.1.symm

theorem mem_expand (shape : List ℕ) (table : List ℕ → ℕ) (r : List ℕ) :
    r ∈ expandCrosstab shape table ↔ r ∈ ndindex shape ∧ 0 < table r := by
  unfold expandCrosstab
  simp only [List.mem_flatMap, List.mem_replicate]
  constructor
  · rintro ⟨a, h1, h2, rfl⟩; exact ⟨h1, by omega⟩
  · rintro ⟨h1, h2⟩; exact ⟨r, h1, by omega, rfl⟩

theorem count_flatMap_replicate (l : List (List ℕ)) (hl : l.Nodup) (table : List ℕ → ℕ)
    (r : List ℕ) (hr : r ∈ l) :
    (l.flatMap fun ii => List.replicate (table ii) ii).count r = table r := by
  induction l with
  | nil => simp at hr
  | cons a l ih =>
    rw [List.flatMap_cons, List.count_append, List.count_replicate]
    rcases List.mem_cons.1 hr with rfl | hr'
    · have : (l.flatMap fun ii => List.replicate (table ii) ii).count r = 0 := by
        rw [List.count_eq_zero]
        intro h
        obtain ⟨b, hb, hb'⟩ := List.mem_flatMap.1 h
        rw [List.eq_of_mem_replicate hb'] at hl
        exact (List.nodup_cons.1 hl).1 hb
      simp [this]
    · have hne : a ≠ r := fun h => (List.nodup_cons.1 hl).1 (h ▸ hr')
      rw [ih (List.nodup_cons.1 hl).2 hr']
      simp [hne]

/-- Level numbering is the identity on index tuples when the levels are `0..s-1`. -/
theorem levelIndex_range (shape r : List ℕ) (h : List.Forall₂ (fun i s => i < s) r shape) :
    levelIndex (shape.map List.range) r = r := by
  unfold levelIndex
  induction h with
  | nil => rfl
  | @cons i s r shape h1 h2 ih =>
    simp only [List.map_cons, List.zipWith_cons_cons, List.cons.injEq]
    refine ⟨?_, ih⟩
    have : (List.range s)[i]'(by simpa using h1) = i := by simp
    conv_lhs => rw [← this]
    exact List.Nodup.idxOf_getElem List.nodup_range i _

/-! ## Sign changes -/

theorem signLoop_found (s b : ℤ) (pre : List ℤ) (y : ℤ) (post : List ℤ)
    (hpre : ∀ x ∈ pre, sgn x b = s) (hy : sgn y b ≠ s) : ∀ i,
    signLoop s b i (pre ++ y :: post) = i + pre.length := by
  induction pre with
  | nil => intro i; simp [signLoop, hy]
  | cons a pre ih =>
    intro i
    rw [List.cons_append, signLoop, if_neg (by simpa using hpre a (by simp)),
      ih (fun x hx => hpre x (by simp [hx]))]
    simp; omega

theorem signLoop_none (s b : ℤ) (l : List ℤ) (h : ∀ x ∈ l, sgn x b = s) : ∀ i,
    signLoop s b i l = i + l.length - 1 := by
  induction l with
  | nil => intro i; simp [signLoop]
  | cons a l ih =>
    intro i
    rw [signLoop, if_neg (by simpa using h a (by simp)), ih (fun x hx => h x (by simp [hx]))]
    rw [List.length_cons]; omega

/-- The counter loop stops at the `k`-th element whose sign differs from the first one's. -/
theorem kthLoop_found (s b : ℤ) (k : ℕ) (pre : List ℤ) (y : ℤ) (post : List ℤ) :
    ∀ j i, (j + (pre.filter fun x => decide (sgn x b ≠ s)).length + 1 = k) →
      sgn y b ≠ s → j ≠ k →
    kthLoop s b k j i (pre ++ y :: post) = i + pre.length := by
  induction pre with
  | nil => intro j i hj hy _; simp at hj; simp [kthLoop, hy, hj]
  | cons a pre ih =>
    intro j i hj hy hjk
    rw [List.cons_append, kthLoop]
    by_cases ha : sgn a b ≠ s
    · simp only [List.filter_cons, ha, ne_eq, not_false_eq_true, decide_true, if_true,
        List.length_cons] at hj ⊢
      rw [if_neg (by omega), ih (j + 1) (i + 1) (by simp only [ne_eq]; omega) hy (by omega)]
      omega
    · simp only [List.filter_cons, ha, decide_false, Bool.false_eq_true, if_false] at hj ⊢
      rw [if_neg hjk, ih j (i + 1) hj hy hjk, List.length_cons]
      omega

end Verif.Data
