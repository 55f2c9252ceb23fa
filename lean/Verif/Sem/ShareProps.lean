import Verif.Sem.Share
import Verif.Rank.Props
import Mathlib.Algebra.BigOperators.Ring.Finset
import Mathlib.Data.List.GetD
/-!
# C30: equality constraints
-/
namespace Verif.Sem
open Verif.Rank

section
variable {α : Type*} [LinearOrder α] [Inhabited α]

theorem inv_eq (labels : List α) (r : ℕ) (hr : r < labels.length) :
    (unique labels).2.1[r]? = some ((unique labels).1.idxOf labels[r]) := by
  obtain ⟨h1, h2, h3, h4, h5, h6⟩ := C10_unique labels
  have h := h6 r hr
  have hl : r < (unique labels).2.1.length := by rw [h5]; exact hr
  rw [List.getElem?_eq_getElem hl]
  rw [List.getD_eq_getElem _ _ hl, List.getElem?_eq_getElem hr] at h
  obtain ⟨h7, h8⟩ := List.getElem?_eq_some_iff.1 h
  rw [← h8, List.Nodup.idxOf_getElem h1]

theorem ind_get (labels : List α) (x : α) (hx : x ∈ labels) :
    (unique labels).2.2.getD ((unique labels).1.idxOf x) 0 = labels.idxOf x := by
  obtain ⟨h1, h2, h3, h4, h5, h6⟩ := C10_unique labels
  have hm : x ∈ (unique labels).1 := (h2 x).2 hx
  have hlt := List.idxOf_lt_length_iff.2 hm
  rw [h3, List.getD_eq_getElem _ _ (by rw [List.length_map]; exact hlt), List.getElem_map,
    List.getElem_idxOf hlt]

theorem thetaIndex_eq (labels : List α) (r : ℕ) (hr : r < labels.length) :
    thetaIndex labels r = labels.idxOf labels[r] := by
  unfold thetaIndex
  rw [List.getD_eq_getElem _ _ hr]
  exact ind_get labels _ (List.getElem_mem hr)

/-- The free parameter in row `r` is the coordinate of `theta` that carries its label. -/
theorem C30_free {R : Type*} (labels : List α) (theta : ℕ → R) (r : ℕ) (hr : r < labels.length) :
    (thetaToFree labels theta)[r]? = some (theta ((unique labels).1.idxOf labels[r])) := by
  unfold thetaToFree
  rw [List.getElem?_map, inv_eq labels r hr]; rfl

theorem groupRows_lt (group : List ℕ) (i r : ℕ) (h : r ∈ groupRows group i) :
    r < group.length := by
  unfold groupRows at h
  exact List.mem_range.1 (List.mem_filter.1 h).1

/-- Every group's row `r` receives the coordinate of `theta` that carries its label. -/
theorem C30_group {R : Type*} [Zero R] (labels : List α) (group : List ℕ)
    (hg : group.length = labels.length) (theta : ℕ → R) (i : ℕ) :
    freeToGroup labels group (thetaToFree labels theta) i =
      (groupRows group i).map fun r => theta ((unique labels).1.idxOf (labels.getD r default)) := by
  unfold freeToGroup
  apply List.map_congr_left
  intro r hr
  have hr' : r < labels.length := hg ▸ groupRows_lt group i r hr
  rw [thetaIndex_eq labels r hr', List.getD_eq_getElem _ _ hr']
  have hlt : labels.idxOf labels[r] < labels.length :=
    List.idxOf_lt_length_iff.2 (List.getElem_mem hr')
  rw [List.getD_eq_getElem?_getD, C30_free labels theta _ hlt, List.getElem_idxOf hlt]; rfl

/-- Two rows read one coordinate exactly when their labels are equal, every coordinate is read
by some row, and no row reads outside `theta`. -/
theorem C30_classes (labels : List α) :
    (∀ r s, r < labels.length → s < labels.length →
      ((unique labels).1.idxOf (labels.getD r default) =
        (unique labels).1.idxOf (labels.getD s default) ↔
          labels.getD r default = labels.getD s default)) ∧
    (∀ k < (unique labels).1.length, ∃ r < labels.length,
      (unique labels).1.idxOf (labels.getD r default) = k) ∧
    (∀ r < labels.length,
      (unique labels).1.idxOf (labels.getD r default) < (unique labels).1.length) := by
  obtain ⟨h1, h2, h3, h4, h5, h6⟩ := C10_unique labels
  have hin : ∀ r < labels.length, labels.getD r default ∈ (unique labels).1 := by
    intro r hr
    rw [List.getD_eq_getElem _ _ hr]
    exact (h2 _).2 (List.getElem_mem hr)
  refine ⟨?_, ?_, ?_⟩
  · intro r s hr hs
    exact List.idxOf_inj (hin r hr)
  · intro k hk
    have hm := (h2 _).1 (List.getElem_mem hk)
    obtain ⟨r, hr, h⟩ := List.getElem_of_mem hm
    refine ⟨r, hr, ?_⟩
    rw [List.getD_eq_getElem _ _ hr, h, List.Nodup.idxOf_getElem h1]
  · intro r hr
    exact List.idxOf_lt_length_iff.2 (hin r hr)

/-- Reading `theta` back from the expanded vector returns it. -/
theorem C30_roundtrip {R : Type*} [Zero R] (labels : List α) (theta : ℕ → R) :
    freeToTheta labels (thetaToFree labels theta) =
      (List.range (unique labels).1.length).map theta := by
  obtain ⟨h1, h2, h3, h4, h5, h6⟩ := C10_unique labels
  unfold freeToTheta
  apply List.ext_getElem
  · simp [h3]
  · intro k hk hk'
    have hku : k < (unique labels).1.length := by simpa using hk'
    have hm := (h2 _).1 (List.getElem_mem hku)
    have hlt := List.idxOf_lt_length_iff.2 hm
    simp only [h3, List.getElem_map, List.getElem_range]
    rw [List.getD_eq_getElem?_getD, C30_free labels theta _ hlt, List.getElem_idxOf hlt,
      List.Nodup.idxOf_getElem h1]; rfl

/-- The last row carries a label not seen before. -/
def LastNew (labels : List α) : Prop :=
  ∃ l x, labels = l ++ [x] ∧ x ∉ l

theorem max_locs (labels : List α) (h : labels ≠ []) :
    ∃ mx, (unique labels).2.2.max? = some mx ∧ mx < labels.length ∧
      (mx + 1 = labels.length ↔ LastNew labels) := by
  obtain ⟨h1, h2, h3, h4, h5, h6⟩ := C10_unique labels
  have hmem : ∀ x ∈ labels, labels.idxOf x ∈ (unique labels).2.2 := by
    intro x hx
    rw [h3]; exact List.mem_map_of_mem ((h2 x).2 hx)
  rcases hm : (unique labels).2.2.max? with _ | mx
  · rw [List.max?_eq_none_iff] at hm
    obtain ⟨a, ha⟩ := List.exists_mem_of_ne_nil _ h
    have := hmem a ha
    rw [hm] at this; simp at this
  · refine ⟨mx, rfl, ?_, ?_⟩
    · have := List.max?_mem hm
      rw [h3, List.mem_map] at this
      obtain ⟨x, hx, rfl⟩ := this
      exact List.idxOf_lt_length_iff.2 ((h2 x).1 hx)
    · have hmax := (List.max?_eq_some_iff.1 hm)
      obtain ⟨l, x, rfl⟩ : ∃ l x, labels = l ++ [x] :=
        ⟨labels.dropLast, labels.getLast h, (List.dropLast_append_getLast h).symm⟩
      have hle : ∀ y ∈ l ++ [x], (l ++ [x]).idxOf y ≤ mx := fun y hy => hmax.2 _ (hmem y hy)
      constructor
      · intro hlen
        refine ⟨l, x, rfl, ?_⟩
        intro hxl
        have hml := hmax.1
        rw [h3, List.mem_map] at hml
        obtain ⟨y, hy, hyi⟩ := hml
        have hy := (h2 y).1 hy
        simp only [List.length_append, List.length_cons, List.length_nil] at hlen
        have hyl : y ∈ l := by
          rcases List.mem_append.1 hy with h | h
          · exact h
          · rw [List.mem_singleton.1 h]; exact hxl
        rw [List.idxOf_append_of_mem hyl] at hyi
        have := List.idxOf_lt_length_iff.2 hyl
        omega
      · rintro ⟨l', x', he, hx'⟩
        obtain ⟨rfl, he2⟩ := List.append_inj' he rfl
        obtain rfl : x = x' := by simpa using he2
        have h1' := hle x (by simp)
        rw [List.idxOf_append_of_notMem hx'] at h1'
        simp only [List.idxOf_cons_self] at h1'
        have hml := hmax.1
        rw [h3, List.mem_map] at hml
        obtain ⟨y, hy, hyi⟩ := hml
        have := List.idxOf_lt_length_iff.2 ((h2 y).1 hy)
        simp only [List.length_append, List.length_cons, List.length_nil] at this ⊢
        omega

theorem zip_range_sum {R : Type*} [AddCommMonoid R] (locs : List ℕ) (f : ℕ → R) (k : ℕ)
    (hk : k < locs.length) :
    (((List.range locs.length).zip locs).map fun rc => if rc.1 = k then f rc.2 else 0).sum =
      f locs[k] := by
  have key : ∀ (locs : List ℕ) (s k : ℕ) (hk : k < locs.length),
      (((List.range' s locs.length).zip locs).map fun rc =>
        if rc.1 = s + k then f rc.2 else 0).sum = f locs[k] := by
    intro locs
    induction locs with
    | nil => intro s k hk; simp at hk
    | cons a locs ih =>
      intro s k hk
      rw [List.length_cons, List.range'_succ, List.zip_cons_cons, List.map_cons, List.sum_cons]
      cases k with
      | zero =>
        simp only [Nat.add_zero, if_true, List.getElem_cons_zero]
        have : (((List.range' (s + 1) locs.length).zip locs).map fun rc =>
            if rc.1 = s then f rc.2 else 0).sum = 0 := by
          apply List.sum_eq_zero
          intro x hx
          obtain ⟨rc, hrc, rfl⟩ := List.mem_map.1 hx
          have := (List.mem_range'_1.1 (List.of_mem_zip hrc).1).1
          rw [if_neg (by omega)]
        rw [this, add_zero]
      | succ k =>
        have h := ih (s + 1) k (by simpa using hk)
        rw [if_neg (by omega), zero_add, List.getElem_cons_succ, ← h]
        congr 1
        apply List.map_congr_left
        intro rc _
        have : (rc.1 = s + (k + 1)) = (rc.1 = s + 1 + k) := by
          apply propext; constructor <;> intro h <;> omega
        simp only [this]
  have := key locs 0 k hk
  simpa [List.range_eq_range'] using this

/-- The reduced gradient, coordinate by coordinate: the sum over the group's rows that carry
the label. -/
theorem reduceGrad_eq {R : Type*} [AddCommMonoid R] (labels : List α) (group : List ℕ)
    (hg : group.length = labels.length) (g : List R) (i : ℕ) (hl : LastNew labels) :
    reduceGrad labels group g i = some ((List.range (unique labels).1.length).map fun k =>
      (((groupRows group i).zip g).map fun rv =>
        if (unique labels).1.idxOf (labels.getD rv.1 default) = k then rv.2 else 0).sum) := by
  have hne : labels ≠ [] := by
    obtain ⟨l, x, rfl, _⟩ := hl; simp
  obtain ⟨mx, hm, _, hiff⟩ := max_locs labels hne
  obtain ⟨h1, h2, h3, h4, h5, h6⟩ := C10_unique labels
  unfold reduceGrad jacTheta
  rw [hm]
  simp only
  have hlen : (jacGroup labels group g i).length = mx + 1 := by
    unfold jacGroup
    rw [List.length_map, List.length_range, hiff.2 hl]
  rw [if_pos hlen]
  have hul : (unique labels).2.2.length = (unique labels).1.length := by rw [h3, List.length_map]
  congr 1
  rw [hul]
  apply List.map_congr_left
  intro k hk
  have hk : k < (unique labels).1.length := List.mem_range.1 hk
  have hk2 : k < (unique labels).2.2.length := by omega
  have := zip_range_sum (unique labels).2.2 (fun j => (jacGroup labels group g i).getD j 0) k hk2
  rw [hul] at this
  rw [this]
  have hm := (h2 _).1 (List.getElem_mem hk)
  have hkk : (unique labels).2.2[k] = labels.idxOf (unique labels).1[k] := by
    simp only [h3, List.getElem_map]
  have hlt : labels.idxOf (unique labels).1[k] < labels.length := List.idxOf_lt_length_iff.2 hm
  rw [hkk]
  unfold jacGroup
  rw [List.getD_eq_getElem _ _ (by simpa using hlt), List.getElem_map, List.getElem_range]
  congr 1
  apply List.map_congr_left
  intro rv hrv
  have hr : rv.1 < labels.length := hg ▸ groupRows_lt group i _ (List.of_mem_zip hrv).1
  have hmem : labels[rv.1] ∈ labels := List.getElem_mem hr
  have : (thetaIndex labels rv.1 = labels.idxOf (unique labels).1[k]) =
      ((unique labels).1.idxOf (labels.getD rv.1 default) = k) := by
    rw [thetaIndex_eq labels _ hr, List.getD_eq_getElem _ _ hr, List.idxOf_inj hmem]
    apply propext
    constructor
    · intro h; rw [h, List.Nodup.idxOf_getElem h1]
    · intro h
      have := List.getElem_idxOf (List.idxOf_lt_length_iff.2 ((h2 _).2 hmem))
      simp only [h] at this
      exact this.symm
  simp only [this]

/-- Inner product. -/
def dot {R : Type*} [Add R] [Mul R] [Zero R] (a b : List R) : R := (List.zipWith (· * ·) a b).sum

/-- When the last row's label is new, the reduction of a group's gradient is the transpose of the
Jacobian of `theta ↦ group parameters`: the two inner products agree for every direction `t`. -/
theorem C30_jacobian_partial {R : Type*} [CommSemiring R] (labels : List α) (group : List ℕ)
    (hg : group.length = labels.length) (g : List R) (i : ℕ)
    (hgl : g.length = (groupRows group i).length) (hl : LastNew labels) (t : ℕ → R) :
    ∃ d, reduceGrad labels group g i = some d ∧
      dot d ((List.range (unique labels).1.length).map t) =
        dot g (freeToGroup labels group (thetaToFree labels t) i) := by
  refine ⟨_, reduceGrad_eq labels group hg g i hl, ?_⟩
  rw [C30_group labels group hg]
  unfold dot
  have hcl := (C30_classes labels).2.2
  rw [List.zipWith_map, List.zipWith_self]
  have hz : ∀ (rs : List ℕ) (g : List R), (∀ r ∈ rs, r < labels.length) → g.length = rs.length →
      (List.zipWith (· * ·) g (rs.map fun r =>
        t ((unique labels).1.idxOf (labels.getD r default)))).sum =
      ((List.range (unique labels).1.length).map fun k => ((rs.zip g).map fun rv =>
        if (unique labels).1.idxOf (labels.getD rv.1 default) = k then rv.2 else 0).sum
          * t k).sum := by
    intro rs
    induction rs with
    | nil => intro g _ hg; simp
    | cons r rs ih =>
      intro g hrs hg
      cases g with
      | nil => simp at hg
      | cons v g =>
        rw [List.map_cons, List.zipWith_cons_cons, List.sum_cons,
          ih g (fun x hx => hrs x (List.mem_cons_of_mem _ hx)) (by simpa using hg)]
        simp only [List.zip_cons_cons, List.map_cons, List.sum_cons, add_mul]
        rw [List.sum_map_add]
        congr 1
        have hlt := hcl r (hrs r (by simp))
        have hs : ∀ n m, m < n → ((List.range n).map fun k => (if m = k then v else 0) * t k).sum
            = v * t m := by
          intro n
          induction n with
          | zero => intro m hm; omega
          | succ n ih =>
            intro m hm
            rw [List.range_succ, List.map_append, List.sum_append, List.map_singleton,
              List.sum_singleton]
            by_cases h : m = n
            · subst h
              rw [if_pos rfl]
              have : ((List.range m).map fun k => (if m = k then v else 0) * t k).sum = 0 := by
                apply List.sum_eq_zero
                intro x hx
                obtain ⟨k, hk, rfl⟩ := List.mem_map.1 hx
                have := List.mem_range.1 hk
                rw [if_neg (by omega), zero_mul]
              rw [this, zero_add]
            · rw [ih m (by omega), if_neg h, zero_mul, add_zero]
        exact (hs _ _ hlt).symm
  exact (hz _ g (fun r hr => hg ▸ groupRows_lt group i r hr) hgl).symm

/-- If the last row's label occurs before, the gradient reduction raises. -/
theorem C30_jacobian_raises {R : Type*} [AddCommMonoid R] (labels : List α) (group : List ℕ)
    (g : List R) (i : ℕ) (hl : ¬ LastNew labels) : reduceGrad labels group g i = none := by
  unfold reduceGrad jacTheta
  rcases hm : (unique labels).2.2.max? with _ | mx
  · rfl
  · simp only
    by_cases hne : labels = []
    · subst hne
      obtain ⟨h1, h2, h3, h4, h5, h6⟩ := C10_unique ([] : List α)
      have := List.max?_mem hm
      rw [h3, List.mem_map] at this
      obtain ⟨x, hx, _⟩ := this
      simpa using (h2 x).1 hx
    · obtain ⟨mx', hm', h', hiff⟩ := max_locs labels hne
      rw [hm, Option.some.injEq] at hm'
      subst hm'
      rw [if_neg]
      intro h
      apply hl
      rw [← hiff]
      unfold jacGroup at h
      rw [List.length_map, List.length_range] at h
      exact h.symm

/-- In particular a model whose every label is shared by two groups (the default `shared`) has
no gradient. -/
theorem C30_shared_groups_violated {R : Type*} [AddCommMonoid R] (labels : List α)
    (group : List ℕ) (g : List R) (i : ℕ) : reduceGrad (labels ++ labels) group g i = none := by
  apply C30_jacobian_raises
  rintro ⟨l, x, h, hx⟩
  rcases List.eq_nil_or_concat labels with rfl | ⟨l', y, rfl⟩
  · simp at h
  · rw [List.concat_eq_append, ← List.append_assoc] at h
    obtain ⟨h1, h2⟩ := List.append_inj' h rfl
    apply hx
    rw [← h1]
    have : y = x := by simpa using h2
    simp [this]

example : LastNew [0, 1, 0, 2] := ⟨[0, 1, 0], 2, rfl, by decide⟩

end
end Verif.Sem
