import Verif.Index.Tensor
import Mathlib.Data.List.Permutation
import Mathlib.Data.List.GetD

namespace Verif.Index

theorem not_lt_of_sorted {u t : List ℕ} (hu : u.Pairwise (· ≤ ·)) (h : t.Perm u) : ¬ t < u := by
  induction u generalizing t with
  | nil => rw [List.perm_nil.1 h]; exact lt_irrefl _
  | cons a u ih =>
    cases t with
    | nil => exact absurd h.length_eq (by simp)
    | cons b t =>
      rw [List.cons_lt_cons_iff]
      rintro (hb | ⟨rfl, hlt⟩)
      · have : b ∈ a :: u := h.mem_iff.1 (List.mem_cons_self)
        rcases List.mem_cons.1 this with rfl | hm
        · exact lt_irrefl _ hb
        · exact absurd ((List.pairwise_cons.1 hu).1 b hm) (by omega)
      · exact ih (List.pairwise_cons.1 hu).2 (List.perm_cons _ |>.1 h) hlt

theorem not_gt_of_desc {u t : List ℕ} (hu : u.Pairwise (· ≥ ·)) (h : t.Perm u) : ¬ u < t := by
  induction u generalizing t with
  | nil => rw [List.perm_nil.1 h]; exact lt_irrefl _
  | cons a u ih =>
    cases t with
    | nil => exact absurd h.length_eq (by simp)
    | cons b t =>
      rw [List.cons_lt_cons_iff]
      rintro (hb | ⟨rfl, hlt⟩)
      · have : b ∈ a :: u := h.mem_iff.1 (List.mem_cons_self)
        rcases List.mem_cons.1 this with rfl | hm
        · exact lt_irrefl _ hb
        · exact absurd ((List.pairwise_cons.1 hu).1 b hm) (by omega)
      · exact ih (List.pairwise_cons.1 hu).2 (List.perm_cons _ |>.1 h) hlt

/-- The swap and the reversal, on the parts of the list. -/
theorem succ_least (pre : List ℕ) {a x : ℕ} {B C t : List ℕ} (hax : a < x) (hd : (B ++ x :: C).Pairwise (· ≥ ·)) (hC : ∀ c ∈ C, c ≤ a)
    (ht : t.Perm (pre ++ a :: (B ++ x :: C))) (hlt : pre ++ a :: (B ++ x :: C) < t) :
    pre ++ x :: (C.reverse ++ a :: B.reverse) ≤ t := by
  induction pre generalizing t with
  | nil =>
    cases t with
    | nil => exact absurd ht.length_eq (by simp)
    | cons y t =>
      simp only [List.nil_append] at *
      have hs : (C.reverse ++ a :: B.reverse).Pairwise (· ≤ ·) := by
        rw [List.pairwise_append] at hd
        obtain ⟨h1, h2, h3⟩ := hd
        rw [List.pairwise_cons] at h2
        rw [List.pairwise_append, List.pairwise_cons, List.pairwise_reverse, List.pairwise_reverse]
        refine ⟨h2.2, ⟨fun b hb => ?_, h1⟩, fun c hc d hd => ?_⟩
        · have := h3 b (List.mem_reverse.1 hb) x (List.mem_cons_self); omega
        · have h4 := hC c (List.mem_reverse.1 hc)
          rcases List.mem_cons.1 hd with rfl | hd
          · exact h4
          · have := h3 d (List.mem_reverse.1 hd) x (List.mem_cons_self); omega
      rcases List.cons_lt_cons_iff.1 hlt with hy | ⟨rfl, hy⟩
      · have hm : y ∈ a :: (B ++ x :: C) := ht.mem_iff.1 List.mem_cons_self
        have hxy : x ≤ y := by
          rcases List.mem_cons.1 hm with rfl | hm
          · omega
          rcases List.mem_append.1 hm with hm | hm
          · exact (List.pairwise_append.1 hd).2.2 y hm x List.mem_cons_self
          rcases List.mem_cons.1 hm with rfl | hm
          · exact le_refl _
          · have := hC y hm; omega
        rcases hxy.lt_or_eq with h | rfl
        · exact le_of_lt (List.cons_lt_cons_iff.2 (Or.inl h))
        · refine not_lt.1 fun hlt' => ?_
          rcases List.cons_lt_cons_iff.1 hlt' with h | ⟨-, h⟩
          · exact lt_irrefl _ h
          · refine not_lt_of_sorted hs ?_ h
            have h1 : (x :: t).Perm (x :: (a :: (B ++ C))) := ht.trans
              ((List.Perm.cons a List.perm_middle).trans (List.Perm.swap _ _ _))
            have h2 := (List.perm_cons x).1 h1
            refine h2.trans (List.Perm.trans ?_ List.perm_middle.symm)
            exact List.Perm.cons a (List.perm_append_comm.trans ((List.reverse_perm C).symm.append (List.reverse_perm B).symm))
      · exact absurd hy (not_gt_of_desc hd ((List.perm_cons a).1 ht))
  | cons p pre ih =>
    cases t with
    | nil => exact absurd ht.length_eq (by simp)
    | cons y t =>
      simp only [List.cons_append] at *
      rcases List.cons_lt_cons_iff.1 hlt with hy | ⟨rfl, hy⟩
      · exact le_of_lt (List.cons_lt_cons_iff.2 (Or.inl hy))
      · have := ih ((List.perm_cons p).1 ht) hy
        rcases this.lt_or_eq with h | h
        · exact le_of_lt (List.cons_lt_cons_iff.2 (Or.inr ⟨rfl, h⟩))
        · rw [h]

theorem lt_append (pre : List ℕ) {a x : ℕ} (u v : List ℕ) (h : a < x) : pre ++ a :: u < pre ++ x :: v := by
  induction pre with
  | nil => exact List.cons_lt_cons_iff.2 (Or.inl h)
  | cons p pre ih => exact List.cons_lt_cons_iff.2 (Or.inr ⟨rfl, ih⟩)

/-- The first hit of a search through a falling range is the last position with the property. -/
theorem find_rev {n k : ℕ} {p : ℕ → Bool} (h : (List.range n).reverse.find? p = some k) :
    k < n ∧ p k = true ∧ ∀ j, k < j → j < n → p j = false := by
  induction n with
  | zero => simp at h
  | succ n ih =>
    rw [List.range_succ, List.reverse_append, List.reverse_singleton, List.singleton_append, List.find?_cons] at h
    cases hp : p n with
    | true => rw [hp] at h; simp only [Option.some.injEq] at h; subst h; exact ⟨by omega, hp, fun j _ _ => by omega⟩
    | false =>
      rw [hp] at h
      obtain ⟨h1, h2, h3⟩ := ih h
      refine ⟨by omega, h2, fun j hj hjn => ?_⟩
      by_cases e : j = n
      · rw [e]; exact hp
      · exact h3 j hj (by omega)

theorem find_rev_none {n : ℕ} {p : ℕ → Bool} (h : (List.range n).reverse.find? p = none) : ∀ j < n, p j = false := by
  intro j hj
  have := List.find?_eq_none.1 h j (by simpa using hj)
  simpa using this

theorem kIndices_eq (n : ℕ) : (List.range n).reverse.drop 1 = (List.range (n - 1)).reverse := by
  cases n with
  | zero => rfl
  | succ n => rw [List.range_succ, List.reverse_append]; rfl

theorem desc_of_steps {s : List ℕ} (h : ∀ j, j + 1 < s.length → s.getD (j + 1) 0 ≤ s.getD j 0) : s.Pairwise (· ≥ ·) := by
  have : IsTrans ℕ (· ≥ ·) := ⟨fun a b c => by omega⟩
  rw [← List.isChain_iff_pairwise, List.isChain_iff_getElem]
  intro i hi
  have := h i (by omega)
  rwa [List.getD_eq_getElem _ _ (by omega), List.getD_eq_getElem _ _ (by omega)] at this

/-- The parts of the list that one turn of the loop finds, and what it makes of them. -/
theorem nextPerm_some {s t : List ℕ} (h : nextPerm s = some t) :
    ∃ pre a x B C, s = pre ++ a :: (B ++ x :: C) ∧ a < x ∧ (B ++ x :: C).Pairwise (· ≥ ·) ∧ (∀ c ∈ C, c ≤ a) ∧
      t = pre ++ x :: (C.reverse ++ a :: B.reverse) := by
  unfold nextPerm at h
  simp only [kIndices_eq] at h
  rw [Option.map_eq_some_iff] at h
  obtain ⟨k, hk, rfl⟩ := h
  obtain ⟨hkn, hka, hkl⟩ := find_rev hk
  simp only [decide_eq_true_eq, decide_eq_false_iff_not, not_lt] at hka hkl
  have hex : ∃ i, (List.range s.length).reverse.find? (fun i => decide (s.getD k 0 < s.getD i 0)) = some i := by
    cases e : (List.range s.length).reverse.find? (fun i => decide (s.getD k 0 < s.getD i 0)) with
    | some i => exact ⟨i, rfl⟩
    | none =>
      have := find_rev_none e (k + 1) (by omega)
      simp only [decide_eq_false_iff_not] at this
      omega
  obtain ⟨i, hi⟩ := hex
  obtain ⟨hin, hia, hil⟩ := find_rev hi
  simp only [decide_eq_true_eq, decide_eq_false_iff_not, not_lt] at hia hil
  rw [hi, Option.getD_some]
  have hki : k < i := by
    by_contra hc
    rcases Nat.lt_or_ge i (k + 1) with h1 | h1
    · have := hil (k + 1) (by omega) (by omega); omega
    · omega
  have hds : (s.drop (k + 1)).Pairwise (· ≥ ·) := by
    refine desc_of_steps fun j hj => ?_
    rw [List.length_drop] at hj
    have := hkl (k + 1 + j) (by omega) (by omega)
    rw [List.getD_eq_getElem _ _ (by omega), List.getD_eq_getElem _ _ (by omega)] at this
    rw [List.getD_eq_getElem _ _ (by rw [List.length_drop]; omega), List.getD_eq_getElem _ _ (by rw [List.length_drop]; omega),
      List.getElem_drop, List.getElem_drop]
    exact this
  obtain ⟨pre, rest, hs, hp⟩ : ∃ pre rest, s = pre ++ rest ∧ pre.length = k := ⟨s.take k, s.drop k, (List.take_append_drop _ _).symm, by
    rw [List.length_take]; omega⟩
  cases rest with
  | nil => rw [List.append_nil] at hs; subst hs; omega
  | cons a suf =>
    obtain ⟨B, rest, hsuf, hB⟩ : ∃ B rest, suf = B ++ rest ∧ B.length = i - (k + 1) := ⟨suf.take (i - (k + 1)), suf.drop (i - (k + 1)), (List.take_append_drop _ _).symm, by
      rw [List.length_take]
      have : s.length = pre.length + (suf.length + 1) := by rw [hs, List.length_append, List.length_cons]
      omega⟩
    cases rest with
    | nil =>
      rw [List.append_nil] at hsuf
      have : s.length = pre.length + (suf.length + 1) := by rw [hs, List.length_append, List.length_cons]
      have h2 := congrArg List.length hsuf
      rw [hp] at this
      omega
    | cons x C =>
      subst hsuf
      have hlen : s.length = k + (B.length + (C.length + 1) + 1) := by
        rw [hs]; simp [hp]
      have hsk : s.getD k 0 = a := by rw [hs, List.getD_append_right _ _ _ _ (by omega), hp]; simp
      have hsi : s.getD i 0 = x := by
        rw [hs, List.getD_append_right _ _ _ _ (by omega), hp, show i - k = (i - (k + 1)) + 1 by omega, List.getD_cons_succ,
          List.getD_append_right _ _ _ _ (by omega), ← hB]
        simp
      have hdrop : s.drop (k + 1) = B ++ x :: C := by
        rw [hs, ← hp]; simp
      refine ⟨pre, a, x, B, C, hs, by omega, by rw [← hdrop]; exact hds, fun c hc => ?_, ?_⟩
      · obtain ⟨j, hj, rfl⟩ := List.mem_iff_getElem.1 hc
        have := hil (i + 1 + j) (by omega) (by omega)
        rw [hsk] at this
        have e : s.getD (i + 1 + j) 0 = C[j] := by
          rw [hs, List.getD_append_right _ _ _ _ (by omega), hp, show i + 1 + j - k = (i - (k + 1) + (j + 1)) + 1 by omega, List.getD_cons_succ,
            List.getD_append_right _ _ _ _ (by omega), hB, Nat.add_sub_cancel_left, List.getD_cons_succ, List.getD_eq_getElem _ _ hj]
        omega
      · rw [hsk, hsi, hs]
        have e1 : (pre ++ a :: (B ++ x :: C)).set k x = pre ++ x :: (B ++ x :: C) := by
          rw [List.set_append_right _ _ (by omega), hp]; simp
        have e2 : (pre ++ x :: (B ++ x :: C)).set i a = pre ++ x :: (B ++ a :: C) := by
          rw [List.set_append_right _ _ (by omega), hp, show i - k = (i - (k + 1)) + 1 by omega, List.set_cons_succ,
            List.set_append_right _ _ (by omega), hB]
          simp
        rw [e1, e2]
        have e3 : (pre ++ x :: (B ++ a :: C)).take (k + 1) = pre ++ [x] := by
          rw [← hp, List.take_append, List.take_of_length_le (by omega)]; simp
        have e4 : (pre ++ x :: (B ++ a :: C)).drop (k + 1) = B ++ a :: C := by
          rw [← hp]; simp
        rw [e3, e4]
        simp

theorem nextPerm_none {s : List ℕ} (h : nextPerm s = none) : s.Pairwise (· ≥ ·) := by
  unfold nextPerm at h
  simp only [kIndices_eq] at h
  rw [Option.map_eq_none_iff] at h
  have := find_rev_none h
  refine desc_of_steps fun j hj => ?_
  have := this j (by omega)
  simp only [decide_eq_false_iff_not, not_lt] at this
  exact this

theorem nextPerm_perm {s t : List ℕ} (h : nextPerm s = some t) : t.Perm s := by
  obtain ⟨pre, a, x, B, C, rfl, -, -, -, rfl⟩ := nextPerm_some h
  refine List.Perm.append_left _ ?_
  have h1 : (C.reverse ++ a :: B.reverse).Perm (a :: (B ++ C)) :=
    List.perm_middle.trans (List.Perm.cons a (((List.reverse_perm C).append (List.reverse_perm B)).trans List.perm_append_comm))
  exact (List.Perm.cons x h1).trans ((List.Perm.swap _ _ _).trans (List.Perm.cons a List.perm_middle.symm))

theorem nextPerm_lt {s t : List ℕ} (h : nextPerm s = some t) : s < t := by
  obtain ⟨pre, a, x, B, C, rfl, hax, -, -, rfl⟩ := nextPerm_some h
  exact lt_append _ _ _ hax

theorem runPerm_spec (fuel : ℕ) (s : List ℕ) :
    (∀ t ∈ runPerm fuel s, t.Perm s ∧ s ≤ t) ∧ (runPerm fuel s).Pairwise (· < ·) ∧
      ((runPerm fuel s).length = fuel + 1 ∨ ∀ t, t.Perm s → s ≤ t → t ∈ runPerm fuel s) := by
  induction fuel generalizing s with
  | zero => simp [runPerm]
  | succ fuel ih =>
    unfold runPerm
    cases e : nextPerm s with
    | none =>
      refine ⟨by simp, by simp, Or.inr fun t ht hst => ?_⟩
      have := not_gt_of_desc (nextPerm_none e) ht
      rw [le_antisymm (not_lt.1 this) hst]
      exact List.mem_singleton.2 rfl
    | some u =>
      obtain ⟨h1, h2, h3⟩ := ih u
      have hlt := nextPerm_lt e
      have hp := nextPerm_perm e
      refine ⟨fun t ht => ?_, List.pairwise_cons.2 ⟨fun t ht => lt_of_lt_of_le hlt (h1 t ht).2, h2⟩, ?_⟩
      · rcases List.mem_cons.1 ht with rfl | ht
        · exact ⟨List.Perm.refl _, le_refl _⟩
        · exact ⟨(h1 t ht).1.trans hp, le_trans (le_of_lt hlt) (h1 t ht).2⟩
      · rcases h3 with h3 | h3
        · left; simp [h3]
        · right
          intro t ht hst
          rcases hst.lt_or_eq with hl | rfl
          · obtain ⟨pre, a, x, B, C, rfl, hax, hd, hC, rfl⟩ := nextPerm_some e
            exact List.mem_cons_of_mem _ (h3 t (ht.trans hp.symm) (succ_least pre hax hd hC ht hl))
          · exact List.mem_cons_self

end Verif.Index
