import Verif.Robust.DispLemmas
import Verif.Vec.Props
import Mathlib.Algebra.Order.Ring.Rat
import Mathlib.Tactic.IntervalCases
import Mathlib.Tactic.FieldSimp
import Mathlib.Data.Nat.Cast.Field
/-!
# C136: estimators of dispersion
-/
namespace Verif.Robust
open Verif.Np Verif.Vec

set_option linter.unusedSectionVars false

variable {R : Type} [Field R] [LinearOrder R] [IsStrictOrderedRing R]

/-! ### The fast Sn -/

theorem rd_eq {y : List R} {k : ℤ} {j : ℕ} (h : k = j) (hj : j < y.length) : rd y k = some (y.getD j 0) := by
  subst h
  rw [rd, if_pos (by omega), Int.toNat_natCast, List.getElem?_eq_getElem hj, List.getD_eq_getElem _ _ hj]

theorem getD_mono {y : List R} (h : y.SortedLE) {i j : ℕ} (hij : i ≤ j) (hj : j < y.length) : y.getD i 0 ≤ y.getD j 0 := by
  rw [List.getD_eq_getElem _ _ (hij.trans_lt hj), List.getD_eq_getElem _ _ hj]
  exact h.getElem_le_getElem_of_le hij

/-- The distances from entry `j` of a sorted list: zero, those to the left and those to the right. -/
theorem dists_perm {y : List R} (h : y.SortedLE) {j : ℕ} (hj : j < y.length) :
    (y.map fun w => |y.getD j 0 - w|).Perm (0 :: ((List.range j).map (fun t => y.getD j 0 - y.getD (j - (t + 1)) 0) ++
      (List.range (y.length - 1 - j)).map (fun t => y.getD (j + (t + 1)) 0 - y.getD j 0))) := by
  have e1 : (y.map fun w => |y.getD j 0 - w|) = (List.range (j + (1 + (y.length - 1 - j)))).map fun k => |y.getD j 0 - y.getD k 0| := by
    rw [show j + (1 + (y.length - 1 - j)) = y.length by omega]
    refine List.ext_getElem (by simp) fun k h1 h2 => ?_
    rw [List.length_map] at h1
    rw [List.getElem_map, List.getElem_map, List.getElem_range, List.getD_eq_getElem y 0 h1]
  rw [e1, List.range_add, List.range_add, List.map_append, List.map_map, List.map_append]
  have e2 : ((List.range j).map fun k => |y.getD j 0 - y.getD k 0|).Perm ((List.range j).map fun t => y.getD j 0 - y.getD (j - (t + 1)) 0) := by
    have : ((List.range j).map fun t => y.getD j 0 - y.getD (j - (t + 1)) 0) = ((List.range j).map fun k => |y.getD j 0 - y.getD k 0|).reverse := by
      refine List.ext_getElem (by simp) fun k h1 h2 => ?_
      simp only [List.length_map, List.length_range] at h1
      simp only [List.getElem_map, List.getElem_range, List.getElem_reverse, List.length_map, List.length_range]
      rw [show j - 1 - k = j - (k + 1) by omega, abs_of_nonneg (sub_nonneg.2 (getD_mono h (by omega) hj))]
    rw [this]; exact (List.reverse_perm _).symm
  have e3 : (((List.range (y.length - 1 - j)).map (1 + ·)).map ((fun k => |y.getD j 0 - y.getD k 0|) ∘ (j + ·))) =
      (List.range (y.length - 1 - j)).map (fun t => y.getD (j + (t + 1)) 0 - y.getD j 0) := by
    rw [List.map_map]
    refine List.map_congr_left fun t ht => ?_
    rw [List.mem_range] at ht
    simp only [Function.comp]
    rw [add_comm 1 t, abs_sub_comm, abs_of_nonneg (sub_nonneg.2 (getD_mono h (by omega) (by omega)))]
  rw [e3]
  simp only [List.range_one, List.map_cons, List.map_nil, Function.comp, add_zero, sub_self, abs_zero, List.singleton_append]
  exact (List.perm_middle).trans (List.Perm.cons 0 (e2.append_right _))

/-- The entry of `_sn_a` is the order statistic `n // 2` of the distances, -/
theorem snBody_left {y : List R} (h : y.SortedLE) {i : ℕ} (h2 : 2 ≤ i) (hi : i ≤ (y.length + 1) / 2) :
    ∃ v, snBody (snA y i) (snB y i) (i - 1) (y.length - i) = some v ∧ kth (y.map fun w => |y.getD (i - 1) 0 - w|) (y.length / 2) = some v := by
  obtain ⟨v, a, b, he, ha, hb, hab, g1, g2, g3, g4, g5⟩ := snBody_ok (mA := snA y i) (mB := snB y i) (nA := i - 1) (nB := y.length - i) (by omega) (by omega)
    (fun t => y.getD (i - 1) 0 - y.getD (i - 1 - t) 0) (fun t => y.getD (i - 1 + t) 0 - y.getD (i - 1) 0)
    (fun t t1 t2 => by
      rw [snA, rd_eq (j := i - 1) (by omega) (by omega), rd_eq (j := i - 1 - t) (by omega) (by omega)]; rfl)
    (fun t t1 t2 => by
      rw [snB, rd_eq (j := i - 1 + t) (by omega) (by omega), rd_eq (j := i - 1) (by omega) (by omega)]; rfl)
    (fun s t s1 st tn => by have := getD_mono h (i := i - 1 - t) (j := i - 1 - s) (by omega) (by omega); linarith)
    (fun s t s1 st tn => by have := getD_mono h (i := i - 1 + s) (j := i - 1 + t) (by omega) (by omega); linarith)
  refine ⟨v, he, ?_⟩
  rw [show y.length / 2 = a + b + 1 by omega]
  refine kth_of_split (nA := i - 1) (nB := y.length - i) ?_ ?_ ?_ ha hb g1 g2 g3 g4 g5
  · have := dists_perm h (j := i - 1) (by omega)
    rwa [show y.length - 1 - (i - 1) = y.length - i by omega] at this
  · exact fun t t1 t2 => sub_nonneg.2 (getD_mono h (by omega) (by omega))
  · exact fun t t1 t2 => sub_nonneg.2 (getD_mono h (by omega) (by omega))

/-- and so is the entry of `_sn_b`. -/
theorem snBody_right {y : List R} (h : y.SortedLE) {i : ℕ} (h2 : (y.length + 1) / 2 + 1 ≤ i) (hi : i < y.length) :
    ∃ v, snBody (snA' y i) (snB' y i) (y.length - i) (i - 1) = some v ∧ kth (y.map fun w => |y.getD (i - 1) 0 - w|) (y.length / 2) = some v := by
  obtain ⟨v, a, b, he, ha, hb, hab, g1, g2, g3, g4, g5⟩ := snBody_ok (mA := snA' y i) (mB := snB' y i) (nA := y.length - i) (nB := i - 1) (by omega) (by omega)
    (fun t => y.getD (i - 1 + t) 0 - y.getD (i - 1) 0) (fun t => y.getD (i - 1) 0 - y.getD (i - 1 - t) 0)
    (fun t t1 t2 => by
      rw [snA', rd_eq (j := i - 1 + t) (by omega) (by omega), rd_eq (j := i - 1) (by omega) (by omega)]; rfl)
    (fun t t1 t2 => by
      rw [snB', rd_eq (j := i - 1) (by omega) (by omega), rd_eq (j := i - 1 - t) (by omega) (by omega)]; rfl)
    (fun s t s1 st tn => by have := getD_mono h (i := i - 1 + s) (j := i - 1 + t) (by omega) (by omega); linarith)
    (fun s t s1 st tn => by have := getD_mono h (i := i - 1 - t) (j := i - 1 - s) (by omega) (by omega); linarith)
  refine ⟨v, he, ?_⟩
  rw [show y.length / 2 = a + b + 1 by omega]
  refine kth_of_split (nA := y.length - i) (nB := i - 1) ?_ ?_ ?_ ha hb g1 g2 g3 g4 g5
  · have := dists_perm h (j := i - 1) (by omega)
    rw [show y.length - 1 - (i - 1) = y.length - i by omega] at this
    exact this.trans (List.Perm.cons 0 List.perm_append_comm)
  · exact fun t t1 t2 => sub_nonneg.2 (getD_mono h (by omega) (by omega))
  · exact fun t t1 t2 => sub_nonneg.2 (getD_mono h (by omega) (by omega))

/-- The first entry, -/
theorem sn_first {y : List R} (h : y.SortedLE) (h0 : 0 < y.length) :
    kth (y.map fun w => |y.getD 0 0 - w|) (y.length / 2) = some (y.getD (y.length / 2) 0 - y.getD 0 0) := by
  rcases Nat.lt_or_ge y.length 2 with h2 | h2
  · obtain ⟨a, rfl⟩ := List.length_eq_one_iff.1 (show y.length = 1 by omega)
    simp [kth, npSort]
  · have := kth_of_split (nA := 0) (nB := y.length - 1) (P := fun t => y.getD 0 0 - y.getD (0 - t) 0) (Q := fun t => y.getD (0 + t) 0 - y.getD 0 0) (a := 0) (b := y.length / 2 - 1)
      (v := y.getD (y.length / 2) 0 - y.getD 0 0) (l := y.map fun w => |y.getD 0 0 - w|) (by have := dists_perm h h0; rwa [Nat.sub_zero] at this)
      (fun t _ _ => by omega) (fun t t1 t2 => sub_nonneg.2 (getD_mono h (by omega) (by omega))) le_rfl (by omega) (fun t _ _ => by omega)
      (fun t t1 t2 => by have := getD_mono h (i := 0 + t) (j := y.length / 2) (by omega) (by omega); linarith) (fun t _ _ => by omega)
      (fun t t1 t2 => by have := getD_mono h (i := y.length / 2) (j := 0 + t) (by omega) (by omega); linarith)
      (Or.inr ⟨by omega, by rw [show 0 + (y.length / 2 - 1 + 1) = y.length / 2 by omega]⟩)
    rwa [show 0 + (y.length / 2 - 1) + 1 = y.length / 2 by omega] at this

/-- and the last. -/
theorem sn_last {y : List R} (h : y.SortedLE) (h0 : 0 < y.length) :
    kth (y.map fun w => |y.getD (y.length - 1) 0 - w|) (y.length / 2) = some (y.getD (y.length - 1) 0 - y.getD ((y.length + 1) / 2 - 1) 0) := by
  rcases Nat.lt_or_ge y.length 2 with h2 | h2
  · obtain ⟨a, rfl⟩ := List.length_eq_one_iff.1 (show y.length = 1 by omega)
    simp [kth, npSort]
  · have := kth_of_split (nA := y.length - 1) (nB := 0) (P := fun t => y.getD (y.length - 1) 0 - y.getD (y.length - 1 - t) 0) (Q := fun t => y.getD (y.length - 1 + t) 0 - y.getD (y.length - 1) 0)
      (a := y.length / 2 - 1) (b := 0)
      (v := y.getD (y.length - 1) 0 - y.getD ((y.length + 1) / 2 - 1) 0) (l := y.map fun w => |y.getD (y.length - 1) 0 - w|)
      (by have := dists_perm h (j := y.length - 1) (by omega); rwa [Nat.sub_self] at this)
      (fun t t1 t2 => sub_nonneg.2 (getD_mono h (by omega) (by omega))) (fun t _ _ => by omega) (by omega) le_rfl
      (fun t t1 t2 => by have := getD_mono h (i := (y.length + 1) / 2 - 1) (j := y.length - 1 - t) (by omega) (by omega); linarith) (fun t _ _ => by omega)
      (fun t t1 t2 => by have := getD_mono h (i := y.length - 1 - t) (j := (y.length + 1) / 2 - 1) (by omega) (by omega); linarith) (fun t _ _ => by omega)
      (Or.inl ⟨by omega, by rw [show y.length - 1 - (y.length / 2 - 1 + 1) = (y.length + 1) / 2 - 1 by omega]⟩)
    rwa [show y.length / 2 - 1 + 0 + 1 = y.length / 2 by omega] at this

omit [Field R] [LinearOrder R] [IsStrictOrderedRing R] in
/-- A loop storing `V i` in position `i - 1`. -/
theorem foldlM_set (V : ℕ → R) (f : ℕ → Option R) : ∀ (is : List ℕ) (a : List R), (∀ i ∈ is, f i = some (V i)) →
    is.foldlM (fun a i => (f i).map (a.set (i - 1))) a = some (is.foldl (fun a i => a.set (i - 1) (V i)) a)
  | [], a, _ => rfl
  | i :: is, a, h => by
    rw [List.foldlM_cons, h i List.mem_cons_self, Option.map_some, Option.bind_eq_bind, Option.bind_some, foldlM_set V f is _ fun j hj => h j (List.mem_cons_of_mem _ hj)]
    rfl

omit [Field R] [LinearOrder R] [IsStrictOrderedRing R] in
theorem foldl_set_get (V : ℕ → R) (k : ℕ) : ∀ (is : List ℕ) (a : List R), (∀ i ∈ is, 1 ≤ i) → k < a.length →
    (is.foldl (fun a i => a.set (i - 1) (V i)) a)[k]? = if k + 1 ∈ is then some (V (k + 1)) else a[k]?
  | [], a, _, _ => by simp
  | i :: is, a, h, hk => by
    rw [List.foldl_cons, foldl_set_get V k is _ (fun j hj => h j (List.mem_cons_of_mem _ hj)) (by simpa using hk)]
    have hi := h i List.mem_cons_self
    rcases eq_or_ne (k + 1) i with e | e
    · subst e; simp [hk]
    · have : i - 1 ≠ k := by omega
      simp only [List.mem_cons, e, false_or, List.getElem?_set_ne this]

omit [Field R] [LinearOrder R] [IsStrictOrderedRing R] in
theorem foldl_set_len (V : ℕ → R) : ∀ (is : List ℕ) (a : List R), (is.foldl (fun a i => a.set (i - 1) (V i)) a).length = a.length
  | [], a => rfl
  | i :: is, a => by rw [List.foldl_cons, foldl_set_len V is, List.length_set]

theorem kth_some {l : List R} {k : ℕ} (h : k < l.length) : ∃ v, kth l k = some v :=
  ⟨_, List.getElem?_eq_getElem (by rwa [npSort_len])⟩

/-- The high median of the distances from `v`. -/
def hiMed (x : List R) (v : R) : R := (medianHigh (x.map fun w => |v - w|)).getD 0

theorem hiMed_eq {x : List R} (h : x ≠ []) (v : R) : medianHigh (x.map fun w => |v - w|) = some (hiMed x v) := by
  obtain ⟨u, hu⟩ := kth_some (l := x.map fun w => |v - w|) (k := (x.map fun w => |v - w|).length / 2)
    (by have := List.length_pos_iff.2 h; rw [List.length_map]; omega)
  rw [hiMed, medianHigh, hu]; rfl

theorem hiMed_perm {x y : List R} (h : x.Perm y) (v : R) : hiMed x v = hiMed y v := by
  rw [hiMed, hiMed, medianHigh, medianHigh, kth_congr (h.map _)]
  simp only [List.length_map, h.length_eq]

theorem mapM_some {α β : Type} (f : α → Option β) (g : α → β) : ∀ (x : List α), (∀ v ∈ x, f v = some (g v)) → x.mapM f = some (x.map g)
  | [], _ => rfl
  | a :: x, h => by
    rw [List.mapM_cons, h a List.mem_cons_self, mapM_some f g x fun v hv => h v (List.mem_cons_of_mem _ hv)]; rfl

theorem snNaive_eq {x : List R} (h : x ≠ []) (c : Bool) :
    ∃ m, kth (x.map (hiMed x)) ((x.length + 1) / 2 - 1) = some m ∧ snNaive x c = some (snCorr x.length (11926 / 10000 * m) c, x.map (hiMed x)) := by
  obtain ⟨m, hm⟩ := kth_some (l := x.map (hiMed x)) (k := (x.length + 1) / 2 - 1) (by have := List.length_pos_iff.2 h; rw [List.length_map]; omega)
  refine ⟨m, hm, ?_⟩
  rw [snNaive, mapM_some _ (hiMed x) x fun v _ => hiMed_eq h v]
  simp only [Option.bind_eq_bind, Option.bind_some, medianLow, List.length_map, hm, Option.pure_def]

/-- The entries `sn` collects are the high medians of the sorted sample. -/
theorem sn_eq {x : List R} (h : x ≠ []) (c : Bool) :
    ∃ m, kth ((npSort x).map (hiMed x)) ((x.length + 1) / 2 - 1) = some m ∧ sn x c = some (snCorr x.length (11926 / 10000 * m) c, (npSort x).map (hiMed x)) := by
  obtain ⟨m, hm⟩ := kth_some (l := (npSort x).map (hiMed x)) (k := (x.length + 1) / 2 - 1) (by have := List.length_pos_iff.2 h; rw [List.length_map, npSort_len]; omega)
  refine ⟨m, hm, ?_⟩
  have hs := npSort_sorted x
  have hl := npSort_len x
  have hp : ∀ v, hiMed x v = hiMed (npSort x) v := hiMed_perm (npSort_perm x).symm
  have h0 : 0 < (npSort x).length := by rw [hl]; exact List.length_pos_iff.2 h
  simp only [sn]
  rw [← hl] at hm ⊢
  generalize npSort x = y at *
  have hv : ∀ j u, kth (y.map fun w => |y.getD j 0 - w|) (y.length / 2) = some u → u = hiMed y (y.getD j 0) := by
    intro j u hu
    rw [hiMed, medianHigh, List.length_map, hu]; rfl
  let V : ℕ → R := fun i => hiMed y (y.getD (i - 1) 0)
  have hA : ∀ a : List R, snFoldA y a y.length ((y.length + 1) / 2) = some ((List.range' 2 ((y.length + 1) / 2 + 1 - 2)).foldl (fun a i => a.set (i - 1) (V i)) a) := fun a =>
    foldlM_set V _ _ a fun i hi => by
      rw [List.mem_range'_1] at hi
      obtain ⟨u, h1, h2⟩ := snBody_left hs (i := i) (by omega) (by omega)
      rw [h1, hv _ _ h2]
  have hB : ∀ a : List R, snFoldB y a y.length ((y.length + 1) / 2) = some ((List.range' ((y.length + 1) / 2 + 1) (y.length - ((y.length + 1) / 2 + 1))).foldl (fun a i => a.set (i - 1) (V i)) a) := fun a =>
    foldlM_set V _ _ a fun i hi => by
      rw [List.mem_range'_1] at hi
      obtain ⟨u, h1, h2⟩ := snBody_right hs (i := i) (by omega) (by omega)
      rw [h1, hv _ _ h2]
  rw [rd_eq (j := y.length / 2) rfl (by omega), rd_eq (y := y) (k := 0) (j := 0) rfl h0, rd_eq (j := y.length - 1) (by omega) (by omega), rd_eq (j := (y.length + 1) / 2 - 1) (by omega) (by omega)]
  simp only [Option.bind_eq_bind, Option.bind_some, hA, hB]
  have e : ((List.range' ((y.length + 1) / 2 + 1) (y.length - ((y.length + 1) / 2 + 1))).foldl (fun a i => a.set (i - 1) (V i))
      ((List.range' 2 ((y.length + 1) / 2 + 1 - 2)).foldl (fun a i => a.set (i - 1) (V i)) ((y.map fun _ => (0 : R)).set 0 (y.getD (y.length / 2) 0 - y.getD 0 0)))).set (y.length - 1)
      (y.getD (y.length - 1) 0 - y.getD ((y.length + 1) / 2 - 1) 0) = y.map (hiMed x) := by
    apply List.ext_getElem?
    intro k
    rcases Nat.lt_or_ge k y.length with hk | hk
    · have e0 : (y.map (hiMed x))[k]? = some (V (k + 1)) := by
        rw [List.getElem?_map, List.getElem?_eq_getElem hk, Option.map_some, hp]
        simp only [V, Nat.add_sub_cancel, List.getD_eq_getElem _ _ hk]
      rw [e0, hv _ _ (sn_first hs h0), hv _ _ (sn_last hs h0)]
      rcases eq_or_ne (y.length - 1) k with e1 | e1
      · subst e1
        rw [List.getElem?_set_self (by simpa [foldl_set_len] using h0)]
        simp only [V, Nat.add_sub_cancel]
      · rw [List.getElem?_set_ne e1, foldl_set_get V k _ _ (fun i hi => by rw [List.mem_range'_1] at hi; omega) (by simpa [foldl_set_len] using hk),
          foldl_set_get V k _ _ (fun i hi => by rw [List.mem_range'_1] at hi; omega) (by simpa using hk)]
        simp only [List.mem_range'_1]
        split_ifs with c1 c2
        · rfl
        · rfl
        · have : k = 0 := by omega
          subst this
          rw [List.getElem?_set_self (by simpa using h0)]
    · rw [List.getElem?_eq_none (by simpa [foldl_set_len] using hk), List.getElem?_eq_none (by simpa using hk)]
  rw [e, hm]
  rfl

/-- **C136** The fast `sn` returns what `sn_naive` returns, for every non-empty sample; the array of high medians is that of the sorted
sample, a rearrangement of the naive one. -/
theorem C136_sn {x : List R} (h : x ≠ []) (c : Bool) :
    ∃ s a a2, sn x c = some (s, a) ∧ snNaive x c = some (s, a2) ∧ a.Perm a2 ∧ snNaive (npSort x) c = some (s, a) := by
  obtain ⟨m, hm, e⟩ := sn_eq h c
  obtain ⟨m', hm', e'⟩ := snNaive_eq h c
  have hp : ((npSort x).map (hiMed x)).Perm (x.map (hiMed x)) := (npSort_perm x).map _
  have : m = m' := by rw [kth_congr hp, hm'] at hm; exact (Option.some.inj hm).symm
  subst this
  have h2 : npSort x ≠ [] := by
    intro h3; have := npSort_len x; rw [h3] at this; exact h (List.length_eq_zero_iff.1 this.symm)
  obtain ⟨m2, hm2, e2⟩ := snNaive_eq h2 c
  have hf : hiMed (npSort x) = hiMed x := funext fun v => hiMed_perm (npSort_perm x) v
  rw [hf, npSort_len] at hm2 e2
  rw [hm] at hm2
  rw [← Option.some.inj hm2] at e2
  exact ⟨_, _, _, e, e', hp, e2⟩

/-- Order statistics commute with monotone maps. -/
theorem kth_map (f : R → R) (hf : Monotone f) (l : List R) (k : ℕ) : kth (l.map f) k = (kth l k).map f := by
  have : npSort (l.map f) = (npSort l).map f := by
    refine ((npSort_perm _).trans ((npSort_perm l).map f).symm).eq_of_pairwise (fun _ _ _ _ h1 h2 => le_antisymm h1 h2) (npSort_sorted _).pairwise ?_
    exact List.pairwise_map.2 ((npSort_sorted l).pairwise.imp fun h => hf h)
  rw [kth, this, List.getElem?_map]; rfl

theorem snCorr_mul (n : ℕ) (k s : R) (c : Bool) : snCorr n (k * s) c = k * snCorr n s c := by
  cases c
  · rfl
  · simp only [snCorr]; split_ifs <;> ring

theorem hiMed_affine (x : List R) (h : x ≠ []) (a b v : R) : hiMed (x.map fun w => a * w + b) (a * v + b) = |a| * hiMed x v := by
  have e : ((x.map fun w => a * w + b).map fun w => |a * v + b - w|) = (x.map fun w => |v - w|).map (|a| * ·) := by
    simp only [List.map_map]
    refine List.map_congr_left fun w _ => ?_
    simp only [Function.comp]
    rw [← abs_mul]; congr 1; ring
  have e2 := hiMed_eq h v
  rw [medianHigh] at e2
  rw [hiMed, e, medianHigh, List.length_map, kth_map _ (fun u w h => mul_le_mul_of_nonneg_left h (abs_nonneg a)), e2]
  rfl

/-- **C136** `sn` is invariant under shifts and changes with the unit. -/
theorem C136_sn_equivariant {x : List R} (h : x ≠ []) (c : Bool) (a b : R) :
    (sn (x.map fun v => a * v + b) c).map (·.1) = (sn x c).map fun r => |a| * r.1 := by
  have h' : (x.map fun v => a * v + b) ≠ [] := by simpa using h
  obtain ⟨s, _, _, e1, e2, _, _⟩ := C136_sn h c
  obtain ⟨s', _, _, e1', e2', _, _⟩ := C136_sn h' c
  obtain ⟨m, hm, e3⟩ := snNaive_eq h c
  obtain ⟨m', hm', e3'⟩ := snNaive_eq h' c
  rw [e1, e1']
  rw [e2] at e3
  rw [e2'] at e3'
  have hs : s = snCorr x.length (11926 / 10000 * m) c := congrArg Prod.fst (Option.some.inj e3)
  have hs' : s' = snCorr x.length (11926 / 10000 * m') c := by
    have := congrArg Prod.fst (Option.some.inj e3'); rwa [List.length_map] at this
  have hmap : (x.map fun v => a * v + b).map (hiMed (x.map fun v => a * v + b)) = (x.map (hiMed x)).map (|a| * ·) := by
    simp only [List.map_map]
    exact List.map_congr_left fun w _ => hiMed_affine x h a b w
  rw [hmap, List.length_map, kth_map _ (fun u w h => mul_le_mul_of_nonneg_left h (abs_nonneg a)), hm] at hm'
  have hmm : m' = |a| * m := (Option.some.inj hm').symm
  simp only [Option.map_some]
  rw [hs, hs', hmm, ← snCorr_mul]
  congr 2; ring

/-! ### Gini's mean difference and the other estimators -/

theorem nodup_tril (n : ℕ) : (npTril n (-1)).Nodup := by
  rw [npTril, List.nodup_flatMap]
  refine ⟨fun i _ => ((List.nodup_range).filter _).map fun a b h => (Prod.mk.inj h).2, ?_⟩
  refine List.nodup_range.imp fun {a b} hab => ?_
  rw [Function.onFun, List.disjoint_left]
  intro p h1 h2
  simp only [List.mem_map] at h1 h2
  obtain ⟨_, _, rfl⟩ := h1
  obtain ⟨_, _, h3⟩ := h2
  exact hab (Prod.mk.inj h3).1.symm

/-- The lower triangle with its diagonal is the diagonal and the strict lower triangle. -/
theorem tri_perm (n : ℕ) : ((npTriu n 0).map Prod.swap).Perm ((List.range n).map (fun i => (i, i)) ++ npTril n (-1)) := by
  refine (List.perm_ext_iff_of_nodup ((nodup_npTriu n 0).map Prod.swap_injective) ?_).2 fun p => ?_
  · rw [List.nodup_append]
    refine ⟨List.nodup_range.map fun a b h => (Prod.mk.inj h).1, nodup_tril n, ?_⟩
    rintro p h1 q h2 rfl
    obtain ⟨i, _, rfl⟩ := List.mem_map.1 h1
    have := Verif.Index.mem_npTril.1 h2
    omega
  · obtain ⟨a, b⟩ := p
    rw [List.mem_append, Verif.Index.mem_npTril]
    simp only [List.mem_map, List.mem_range, Prod.exists, Prod.mk.injEq, Prod.swap_prod_mk, Verif.Index.mem_npTriu]
    constructor
    · rintro ⟨i, j, h, rfl, rfl⟩
      rcases eq_or_ne i j with rfl | hne
      · exact Or.inl ⟨i, by omega, rfl, rfl⟩
      · exact Or.inr (by omega)
    · rintro (⟨i, hi, rfl, rfl⟩ | h)
      · exact ⟨i, i, by omega, rfl, rfl⟩
      · exact ⟨b, a, by omega, rfl, rfl⟩

/-- The vech of the matrix of distances: a zero for each point and the distances of the pairs. -/
theorem vech_perm (x : List R) : (vechMaskVersion (outerDiff x) x.length).Perm (List.replicate x.length 0 ++ pairDists x) := by
  rw [(C11_vech_versions _ _).1]
  have := (tri_perm x.length).map fun p : ℕ × ℕ => outerDiff x p.1 p.2
  rw [List.map_map, List.map_append, List.map_map] at this
  refine this.trans (List.Perm.of_eq ?_)
  refine congrArg₂ (· ++ ·) ?_ rfl
  refine List.ext_getElem (by simp) fun k h1 h2 => ?_
  simp [outerDiff]

theorem len_pairs (x : List R) : (pairDists x).length = x.length * (x.length - 1) / 2 := by
  have h := (tri_perm x.length).length_eq
  rw [List.length_map, List.length_append, List.length_map, List.length_range, length_npTriu_zero] at h
  rw [pairDists, List.length_map]
  rcases Nat.eq_zero_or_pos x.length with h0 | h0
  · rw [h0] at h ⊢; omega
  · obtain ⟨m, hm⟩ : ∃ m, x.length = m + 1 := ⟨_, (Nat.sub_add_cancel h0).symm⟩
    rw [hm] at h ⊢
    have e : (m + 1) * (m + 1 + 1) = (m + 1) * m + 2 * (m + 1) := by ring
    rw [e, Nat.add_mul_div_left _ _ (by norm_num)] at h
    rw [Nat.add_sub_cancel]; omega

/-- The sum over pairs as a double sum. -/
theorem sum_pairs (x : List R) : (pairDists x).sum = ∑ i ∈ Finset.range x.length, ∑ j ∈ Finset.range i, |x.getD i 0 - x.getD j 0| := by
  rw [pairDists, ← List.sum_toFinset _ (nodup_tril _), Finset.sum_sigma']
  refine Finset.sum_bij' (fun p _ => ⟨p.1, p.2⟩) (fun p _ => (p.1, p.2)) ?_ ?_ ?_ ?_ ?_
  · rintro ⟨a, b⟩ h
    rw [List.mem_toFinset, Verif.Index.mem_npTril] at h
    simp only [Finset.mem_sigma, Finset.mem_range]; omega
  · rintro ⟨a, b⟩ h
    simp only [Finset.mem_sigma, Finset.mem_range] at h
    rw [List.mem_toFinset]
    refine Verif.Index.mem_npTril.2 ?_
    dsimp only
    omega
  · rintro ⟨a, b⟩ _; rfl
  · rintro ⟨a, b⟩ _; rfl
  · rintro ⟨a, b⟩ _; rfl

/-- All ordered pairs are counted twice. -/
theorem sum_all (n : ℕ) (f : ℕ → R) : ∑ i ∈ Finset.range n, ∑ j ∈ Finset.range n, |f i - f j| = 2 * ∑ i ∈ Finset.range n, ∑ j ∈ Finset.range i, |f i - f j| := by
  induction n with
  | zero => simp
  | succ n ih =>
    simp only [Finset.sum_range_succ, Finset.sum_add_distrib, sub_self, abs_zero, add_zero] at ih ⊢
    rw [ih]
    have : ∑ i ∈ Finset.range n, |f i - f n| = ∑ j ∈ Finset.range n, |f n - f j| := Finset.sum_congr rfl fun i _ => abs_sub_comm _ _
    rw [this]; ring

theorem fold_inner (f : ℕ → R) (m : R) (i : ℕ) : (List.range i).foldl (fun m j => m + f j) m = m + ∑ j ∈ Finset.range i, f j := by
  induction i with
  | zero => simp
  | succ i ih => rw [List.range_succ, List.foldl_append, ih, Finset.sum_range_succ]; simp [add_assoc]

theorem fold_outer (g : ℕ → R) (h0 : g 0 = 0) (n : ℕ) : (List.range' 1 (n - 1)).foldl (fun m i => m + g i) 0 = ∑ i ∈ Finset.range n, g i := by
  rcases n with _ | n
  · simp
  · rw [Nat.add_sub_cancel]
    induction n with
    | zero => simp [h0]
    | succ n ih => rw [List.range'_1_concat, List.foldl_append, ih, Finset.sum_range_succ _ (n + 1), add_comm 1 n]; rfl

/-- **C136** The three versions of Gini's mean difference agree: the mean distance of two distinct observations. -/
theorem C136_gmd (c : R) (x : List R) (corrected : Bool) (h2 : 2 ≤ x.length) :
    gmd c x corrected = corr corrected c ((∑ i ∈ Finset.range x.length, ∑ j ∈ Finset.range x.length, |x.getD i 0 - x.getD j 0|) / (x.length * (x.length - 1))) ∧
    gmd2 c x corrected = gmd c x corrected ∧ gmd3 c x corrected = gmd c x corrected := by
  have hn : (x.length : R) ≠ 0 := by positivity
  have hn1 : (x.length : R) - 1 ≠ 0 := by
    have : (2 : R) ≤ x.length := by exact_mod_cast h2
    intro h0; linarith
  have hd : ((npTril x.length (-1)).length : R) = (x.length : R) * ((x.length : R) - 1) / 2 := by
    have h := len_pairs x
    rw [pairDists, List.length_map] at h
    rw [h, Nat.cast_div (Nat.even_mul_pred_self _).two_dvd (by norm_num), Nat.cast_mul, Nat.cast_sub (by omega)]
    norm_num
  have e1 : gmd c x corrected = corr corrected c ((∑ i ∈ Finset.range x.length, ∑ j ∈ Finset.range i, |x.getD i 0 - x.getD j 0|) / ((x.length : R) * ((x.length : R) - 1) / 2)) := by
    rw [← sum_pairs, gmd, hd, pairDists]
  refine ⟨?_, ?_, ?_⟩
  · rw [e1, sum_all]
    congr 1
    field_simp
  · rw [e1, gmd2, (vech_perm x).sum_eq, List.sum_append, sum_pairs]
    simp
  · rw [e1, gmd3]
    simp only [fold_inner]
    rw [fold_outer _ (by simp)]

theorem rowMedians_congr {D E : ℕ → ℕ → R} {n : ℕ} (h : Agree n n D E) : rowMedians D n = rowMedians E n := by
  rw [rowMedians, rowMedians]
  have key : ∀ l : List ℕ, (∀ i ∈ l, i < n) → (l.mapM fun i => npMedian ((List.range n).map (D i))) = l.mapM fun i => npMedian ((List.range n).map (E i)) := by
    intro l hl
    induction l with
    | nil => rfl
    | cons i l ih =>
      have e : (List.range n).map (D i) = (List.range n).map (E i) :=
        List.map_congr_left fun j hj => h i j (hl i List.mem_cons_self) (List.mem_range.1 hj)
      rw [List.mapM_cons, List.mapM_cons, e, ih fun j hj => hl j (List.mem_cons_of_mem _ hj)]
  exact key _ fun i hi => List.mem_range.1 hi

/-- **C136** `sn_estimator2`, from the half of the matrix of distances, is `sn_estimator`. -/
theorem C136_sn_estimator (c : R) (x : List R) (corrected : Bool) : snEstimator2 c x corrected = snEstimator c x corrected := by
  have hS : Symm x.length (outerDiff x) := fun i j _ _ => abs_sub_comm _ _
  obtain ⟨_, Y, h1, h2⟩ := C11_invech_vech (outerDiff x) x.length hS
  have e : ((npTriu x.length 0).map fun p => |x.getD p.1 0 - x.getD p.2 0|) = vechMaskVersion (outerDiff x) x.length := by
    rw [(C11_vech_versions _ _).1]
    exact List.map_congr_left fun p _ => abs_sub_comm _ _
  rw [snEstimator2, e, h1]
  simp only [Option.bind_eq_bind, Option.bind_some, rowMedians_congr h2]
  rfl

theorem qnK_eq (n : ℕ) : 2 * qnK n = ((n + 1) / 2 + 1) * ((n + 1) / 2) := by
  rw [qnK, Nat.add_sub_cancel, mul_comm ((n + 1) / 2 + 1)]
  exact Nat.two_mul_div_two_of_even (Nat.even_mul_succ_self _)

theorem pairs_two (n : ℕ) : 2 * (n * (n - 1) / 2) = n * (n - 1) := Nat.two_mul_div_two_of_even (Nat.even_mul_pred_self n)

/-- **C136** From four observations on `qn_estimator` is the order statistic with index `qnK` of the distances of the pairs, -/
theorem C136_qn_partial (c : R) (x : List R) (corrected : Bool) (h : 4 ≤ x.length) :
    ∃ v, kth (pairDists x) (qnK x.length) = some v ∧ qnEstimator c x corrected = some (corr corrected c v) := by
  have hk : qnK x.length < (pairDists x).length := by
    rw [len_pairs]
    have h1 := qnK_eq x.length
    have h2 := pairs_two x.length
    have h3 : ((x.length + 1) / 2 + 1) * ((x.length + 1) / 2) < x.length * (x.length - 1) := by
      generalize x.length = n at *
      rcases Nat.lt_or_ge n 6 with h6 | h6
      · interval_cases n <;> norm_num
      · exact Nat.mul_lt_mul'' (by omega) (by omega)
    omega
  obtain ⟨v, hv⟩ := kth_some hk
  exact ⟨v, hv, by rw [qnEstimator, hv]; rfl⟩

/-- below that the index is out of bounds; -/
theorem C136_qn_small_violated (c : R) (x : List R) (corrected : Bool) (h : x.length < 4) : qnEstimator c x corrected = none := by
  have hk : (pairDists x).length ≤ qnK x.length := by
    rw [len_pairs]
    generalize x.length = n at *
    interval_cases n <;> decide
  rw [qnEstimator, kth, List.getElem?_eq_none (by rwa [npSort_len])]; rfl

/-- `k`-th smallest distance with `h = n // 2 + 1`, `k = h (h - 1) / 2` counted from one: the definition of the estimator. -/
def qnSpec (x : List R) : Option R := kth (pairDists x) ((x.length / 2 + 1) * (x.length / 2) / 2 - 1)

/-- the index of the code is too large, by one for an even number of observations: for 0, 1, 3, 7 the estimator is 3, the code has 4; -/
theorem C136_qn_violated : qnSpec [(0 : ℚ), 1, 3, 7] = some 3 ∧ qnEstimator 1 [(0 : ℚ), 1, 3, 7] true = some 4 := by
  have e : pairDists [(0 : ℚ), 1, 3, 7] = [1, 3, 2, 7, 6, 4] := by decide +kernel
  constructor
  · rw [qnSpec, e]
    exact kth_eq (by decide +kernel) (by decide +kernel)
  · rw [qnEstimator, e, kth_eq (v := 4) (by decide +kernel) (by decide +kernel)]
    decide +kernel

/-- and for an odd number by more. -/
theorem C136_qn_index (n : ℕ) (h : 2 ≤ n) : qnK n = ((n / 2 + 1) * (n / 2) / 2 - 1) + 1 + (if n % 2 = 1 then n / 2 + 1 else 0) := by
  have h1 := qnK_eq n
  have h2 : 2 * ((n / 2 + 1) * (n / 2) / 2) = (n / 2 + 1) * (n / 2) := Nat.two_mul_div_two_of_even (by rw [mul_comm]; exact Nat.even_mul_succ_self _)
  have h3 : 0 < (n / 2 + 1) * (n / 2) := Nat.mul_pos (by omega) (by omega)
  split_ifs with ho
  · rw [show (n + 1) / 2 = n / 2 + 1 by omega] at h1
    have : (n / 2 + 1 + 1) * (n / 2 + 1) = (n / 2 + 1) * (n / 2) + 2 * (n / 2 + 1) := by ring
    omega
  · rw [show (n + 1) / 2 = n / 2 by omega] at h1
    omega

/-- **C136** fails for `qn_estimator2`: the vech has the zero distance of every point to itself, so it takes the order statistic that is
lower by the number of points, -/
theorem C136_qn2 (c : R) (x : List R) (corrected : Bool) : qnEstimator2 c x corrected =
    (kth (List.replicate x.length 0 ++ pairDists x) (qnK x.length)).map (corr corrected c) := by
  rw [qnEstimator2, kth_congr (vech_perm x)]

/-- and zero for any four observations. -/
theorem C136_qn2_violated (c : R) (x : List R) (corrected : Bool) (h : x.length = 4) : qnEstimator2 c x corrected = some 0 := by
  have : kth (List.replicate x.length 0 ++ pairDists x) (qnK x.length) = some 0 := by
    have hp : ∀ v ∈ pairDists x, 0 ≤ v := by
      intro v hv
      obtain ⟨p, _, rfl⟩ := List.mem_map.1 hv
      exact abs_nonneg _
    rw [h, show qnK 4 = 3 by decide]
    apply kth_eq
    · rw [List.countP_append, List.countP_eq_zero.2, List.countP_eq_zero.2]
      · omega
      · intro v hv; simpa using hp v hv
      · intro v hv; simp [List.eq_of_mem_replicate hv]
    · rw [List.countP_append, List.countP_replicate]; simp only [le_refl, decide_true, if_true]; omega
  rw [C136_qn2, this]
  cases corrected <;> simp [corr]

theorem npMedian_some {x : List R} (h : x ≠ []) : ∃ m, npMedian x = some m := by
  have h0 := List.length_pos_iff.2 h
  obtain ⟨u, hu⟩ := kth_some (l := x) (k := (x.length - 1) / 2) (by omega)
  obtain ⟨v, hv⟩ := kth_some (l := x) (k := x.length / 2) (by omega)
  exact ⟨(u + v) / 2, by rw [npMedian, hu, hv]; rfl⟩

/-- Order statistics under a decreasing map. -/
theorem kth_anti (f : R → R) (hf : Antitone f) (l : List R) {k : ℕ} (hk : k < l.length) : kth (l.map f) k = (kth l (l.length - 1 - k)).map f := by
  have : npSort (l.map f) = ((npSort l).map f).reverse := by
    refine ((npSort_perm _).trans (((npSort_perm l).map f).symm.trans (List.reverse_perm _).symm)).eq_of_pairwise (fun _ _ _ _ h1 h2 => le_antisymm h1 h2)
      (npSort_sorted _).pairwise ?_
    rw [List.pairwise_reverse]
    exact List.pairwise_map.2 ((npSort_sorted l).pairwise.imp fun h => hf h)
  rw [kth, this, List.getElem?_reverse (by rwa [List.length_map, npSort_len]), List.getElem?_map, List.length_map, npSort_len]; rfl

/-- The median is equivariant. -/
theorem npMedian_affine {x : List R} (h : x ≠ []) (a b : R) : npMedian (x.map fun v => a * v + b) = (npMedian x).map fun m => a * m + b := by
  have h0 := List.length_pos_iff.2 h
  obtain ⟨u, hu⟩ := kth_some (l := x) (k := (x.length - 1) / 2) (by omega)
  obtain ⟨v, hv⟩ := kth_some (l := x) (k := x.length / 2) (by omega)
  rcases le_total 0 a with ha | ha
  · have hm : Monotone fun v : R => a * v + b := fun s t hst => by have := mul_le_mul_of_nonneg_left hst ha; simpa using this
    rw [npMedian, npMedian, List.length_map, kth_map _ hm, kth_map _ hm, hu, hv]
    simp only [Option.bind_eq_bind, Option.bind_some, Option.map_some, Option.pure_def, Option.some.injEq]
    ring
  · have hm : Antitone fun v : R => a * v + b := fun s t hst => by have := mul_le_mul_of_nonpos_left hst ha; simpa using this
    rw [npMedian, npMedian, List.length_map, kth_anti _ hm _ (by omega), kth_anti _ hm _ (by omega), show x.length - 1 - (x.length - 1) / 2 = x.length / 2 by omega,
      show x.length - 1 - x.length / 2 = (x.length - 1) / 2 by omega, hu, hv]
    simp only [Option.bind_eq_bind, Option.bind_some, Option.map_some, Option.pure_def, Option.some.injEq]
    ring

/-- **C136** `mad` is invariant under shifts and changes with the unit, for any non-empty sample. -/
theorem C136_mad {x : List R} (h : x ≠ []) (cn a b : R) : ∃ s, mad cn x = some s ∧ mad cn (x.map fun v => a * v + b) = some (|a| * s) := by
  obtain ⟨m, hm⟩ := npMedian_some h
  obtain ⟨r, hr⟩ := npMedian_some (x := x.map fun v => |v - m|) (by simpa using h)
  refine ⟨r * cn, by rw [mad, hm]; simp only [Option.bind_eq_bind, Option.bind_some, hr, Option.pure_def], ?_⟩
  have e : ((x.map fun v => a * v + b).map fun v => |v - (a * m + b)|) = (x.map fun v => |v - m|).map fun v => |a| * v + 0 := by
    simp only [List.map_map]
    refine List.map_congr_left fun w _ => ?_
    simp only [Function.comp]
    rw [add_zero, ← abs_mul]; congr 1; ring
  rw [mad, npMedian_affine h, hm]
  simp only [Option.bind_eq_bind, Option.bind_some, Option.map_some, e]
  rw [npMedian_affine (by simpa using h), hr]
  simp only [Option.bind_some, Option.map_some, Option.pure_def, Option.some.injEq]
  ring

/-- The fast and the naive version on a sample with ties. -/
example : ∃ s a a2, sn [(3 : ℚ), 1, 1, 7, 2] true = some (s, a) ∧ snNaive [(3 : ℚ), 1, 1, 7, 2] true = some (s, a2) :=
  let ⟨s, a, a2, h1, h2, _⟩ := C136_sn (x := [(3 : ℚ), 1, 1, 7, 2]) (by simp) true
  ⟨s, a, a2, h1, h2⟩

end Verif.Robust
