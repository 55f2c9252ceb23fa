import Verif.Design.Model
import Mathlib.Data.List.GetD
import Mathlib.Algebra.BigOperators.Group.List.Basic
import Mathlib.Data.List.Count
import Mathlib.Tactic.Linarith
import Mathlib.Tactic.Ring
/-!
# Lemmas: groups of a sorted list, pointer arithmetic, the in-place loop
-/
namespace Verif.Design

section groups
variable {κ : Type*} [LinearOrder κ]

theorem mem_groups (l : List κ) (v : κ) : v ∈ groups l ↔ v ∈ l := by
  unfold groups
  rw [(List.perm_insertionSort _ _).mem_iff, List.mem_dedup]

theorem groups_nodup (l : List κ) : (groups l).Nodup := by
  unfold groups
  rw [(List.perm_insertionSort _ _).nodup_iff]
  exact List.nodup_dedup l

theorem groups_sorted (l : List κ) : (groups l).Pairwise (· ≤ ·) :=
  List.pairwise_insertionSort _ _

theorem groups_lt (l : List κ) : (groups l).Pairwise (· < ·) :=
  (groups_sorted l).imp₂ (fun _ _ h1 h2 => lt_of_le_of_ne h1 h2) (groups_nodup l)

theorem count_flat (g l : List κ) (hg : g.Nodup) (v : κ) :
    (g.flatMap fun k => List.replicate (l.count k) k).count v = if v ∈ g then l.count v else 0 := by
  induction g with
  | nil => simp
  | cons a g ih =>
    rw [List.flatMap_cons, List.count_append, List.count_replicate, ih (List.nodup_cons.1 hg).2]
    by_cases h : a = v
    · subst h
      simp [(List.nodup_cons.1 hg).1]
    · have : ¬ v = a := fun h' => h h'.symm
      simp [h, this]

/-- A sorted list is the concatenation of its constant runs. -/
theorem sorted_eq_runs (l : List κ) (hl : l.Pairwise (· ≤ ·)) :
    l = (groups l).flatMap fun k => List.replicate (l.count k) k := by
  apply List.Perm.eq_of_pairwise' (r := (· ≤ ·)) hl
  · rw [List.pairwise_flatMap]
    refine ⟨fun k _ => List.pairwise_replicate.2 (Or.inr le_rfl), ?_⟩
    refine (groups_sorted l).imp ?_
    intro a b hab x hx y hy
    rw [List.eq_of_mem_replicate hx, List.eq_of_mem_replicate hy]
    exact hab
  · rw [List.perm_iff_count]
    intro v
    rw [count_flat _ _ (groups_nodup l)]
    split_ifs with h
    · rfl
    · exact List.count_eq_zero.2 (fun h' => h ((mem_groups l v).2 h'))

/-- Position `r` of a concatenation of runs lies in run `k` iff it is between the pointers. -/
theorem runs_get (g : List κ) (c : κ → ℕ) (k : ℕ) (hk : k < g.length) (r : ℕ)
    (h1 : ((g.map c).take k).sum ≤ r) (h2 : r < ((g.map c).take (k + 1)).sum) :
    (g.flatMap fun a => List.replicate (c a) a)[r]? = some g[k] := by
  induction g generalizing k r with
  | nil => simp at hk
  | cons a g ih =>
    rw [List.flatMap_cons]
    cases k with
    | zero =>
      simp only [List.map_cons, List.take_succ_cons, List.take_zero, List.sum_cons, List.sum_nil,
        Nat.add_zero] at h2
      rw [List.getElem?_append_left (by simpa using h2)]
      simp [List.getElem?_replicate, h2]
    | succ k =>
      simp only [List.map_cons, List.take_succ_cons, List.sum_cons] at h1 h2
      rw [List.getElem?_append_right (by simp; omega)]
      simp only [List.length_replicate, List.getElem_cons_succ]
      exact ih k (by simpa using hk) (r - c a) (by omega) (by omega)

theorem take_sum_mono (l : List ℕ) {i j : ℕ} (h : i ≤ j) : (l.take i).sum ≤ (l.take j).sum := by
  obtain ⟨d, rfl⟩ := Nat.exists_eq_add_of_le h
  rw [List.take_add, List.sum_append]; omega

theorem ptr_total (l : List κ) (hl : l.Pairwise (· ≤ ·)) :
    ((groups l).map fun k => l.count k).sum = l.length := by
  conv_rhs => rw [sorted_eq_runs l hl]
  rw [List.length_flatMap]
  congr 1
  apply List.map_congr_left
  intro k _
  simp

/-- The pointer interval of group `k` is exactly the set of positions holding its key. -/
theorem ptr_iff (l : List κ) (hl : l.Pairwise (· ≤ ·)) (k : ℕ) (hk : k < (groups l).length)
    (r : ℕ) :
    (sizesToPtr ((groups l).map fun k => l.count k) k ≤ r ∧
      r < sizesToPtr ((groups l).map fun k => l.count k) (k + 1)) ↔
      l[r]? = some (groups l)[k] := by
  have key : ∀ k' (hk' : k' < (groups l).length),
      sizesToPtr ((groups l).map fun k => l.count k) k' ≤ r →
      r < sizesToPtr ((groups l).map fun k => l.count k) (k' + 1) →
      l[r]? = some (groups l)[k'] := by
    intro k' hk' h1 h2
    have := runs_get (groups l) (fun a => l.count a) k' hk' r h1 h2
    rwa [← sorted_eq_runs l hl] at this
  constructor
  · rintro ⟨h1, h2⟩; exact key k hk h1 h2
  · intro h
    have hr : r < l.length := (List.getElem?_eq_some_iff.1 h).1
    have hex : ∃ j, r < sizesToPtr ((groups l).map fun k => l.count k) j :=
      ⟨(groups l).length, by
        rw [sizesToPtr, List.take_of_length_le (by simp), ptr_total l hl]; exact hr⟩
    classical
    have hj := Nat.find_spec hex
    have hmin := fun m hm => Nat.find_min hex (m := m) hm
    set j := Nat.find hex
    have hj0 : 0 < j := by
      by_contra h0
      have : j = 0 := by omega
      rw [this] at hj; simp [sizesToPtr] at hj
    have hjl : j ≤ (groups l).length := by
      by_contra h0
      exact hmin (groups l).length (by omega) (by
        rw [sizesToPtr, List.take_of_length_le (by simp), ptr_total l hl]; exact hr)
    have h3 : sizesToPtr ((groups l).map fun k => l.count k) (j - 1) ≤ r :=
      not_lt.1 (hmin (j - 1) (by omega))
    have h4 := key (j - 1) (by omega) h3 (by rwa [Nat.sub_add_cancel hj0])
    rw [h, Option.some.injEq] at h4
    have : k = j - 1 := (List.Nodup.getElem_inj_iff (groups_nodup l)).1 h4
    subst this
    exact ⟨h3, by rwa [Nat.sub_add_cancel hj0]⟩

end groups

/-! ## The in-place loop -/

/-- With monotone pointers the centring of earlier blocks does not touch later ones. -/
theorem covLoop (L : Layout) (hm : Monotone L.indStr) (P0 : ℕ → ℕ → ℝ) (m : ℕ) :
    (∀ k c, L.indStr m ≤ k →
      ((List.range m).foldl (covStep L) (P0, fun _ _ => 0)).1 k c = P0 k c) ∧
    ∀ a b, ((List.range m).foldl (covStep L) (P0, fun _ _ => 0)).2 a b =
      ∑ h ∈ Finset.range m, (∑ k ∈ Finset.Ico (L.indStr h) (L.indStr (h + 1)),
        (P0 k a - (∑ k' ∈ Finset.Ico (L.indStr h) (L.indStr (h + 1)), P0 k' a) / L.nPsuPerStr h) *
        (P0 k b - (∑ k' ∈ Finset.Ico (L.indStr h) (L.indStr (h + 1)), P0 k' b) / L.nPsuPerStr h))
        * L.ssf h := by
  induction m with
  | zero => simp
  | succ m ih =>
    obtain ⟨ih1, ih2⟩ := ih
    rw [List.range_succ, List.foldl_append]
    simp only [List.foldl_cons, List.foldl_nil]
    set st := (List.range m).foldl (covStep L) (P0, fun _ _ => 0) with hst
    refine ⟨?_, ?_⟩
    · intro k c hk
      have h1 : ¬ (L.indStr m ≤ k ∧ k < L.indStr (m + 1)) := by omega
      simp only [covStep, if_neg h1]
      exact ih1 k c ((hm (Nat.le_succ m)).trans hk)
    · intro a b
      rw [Finset.sum_range_succ, ← ih2 a b]
      simp only [covStep]
      congr 2
      have hs : ∀ c, ∑ k' ∈ Finset.Ico (L.indStr m) (L.indStr (m + 1)), st.1 k' c =
          ∑ k' ∈ Finset.Ico (L.indStr m) (L.indStr (m + 1)), P0 k' c := by
        intro c
        apply Finset.sum_congr rfl
        intro k hk
        exact ih1 k c (Finset.mem_Ico.1 hk).1
      apply Finset.sum_congr rfl
      intro k hk
      have hk' := Finset.mem_Ico.1 hk
      rw [if_pos hk', if_pos hk', hs a, hs b, ih1 k a hk'.1, ih1 k b hk'.1]

/-! ## The layout -/

/-- The PSUs (keys) of a stratum. -/
def psus (keys : List Key) (s : ℤ) : Finset Key := keys.toFinset.filter fun k => strOf k = s

/-- Total of column `c` over the rows of PSU `k`. -/
noncomputable def psuTotal (keys : List Key) (U : ℕ → ℕ → ℝ) (k : Key) (c : ℕ) : ℝ :=
  ∑ r ∈ (Finset.range keys.length).filter (fun r => keys[r]? = some k), U r c

theorem groups_congr {κ : Type*} [LinearOrder κ] (l l' : List κ) (h : ∀ v, v ∈ l ↔ v ∈ l') :
    groups l = groups l' := by
  apply List.Perm.eq_of_pairwise' (r := (· ≤ ·)) (groups_sorted l) (groups_sorted l')
  rw [List.perm_ext_iff_of_nodup (groups_nodup l) (groups_nodup l')]
  intro v
  rw [mem_groups, mem_groups, h]

theorem strata_eq (keys : List Key) :
    groups ((groups keys).map strOf) = groups (keys.map strOf) := by
  apply groups_congr
  intro v
  simp only [List.mem_map, mem_groups]

theorem strOf_mono {a b : Key} (h : a ≤ b) : strOf a ≤ strOf b := by
  rcases (Prod.Lex.le_iff).1 h with h | h
  · exact le_of_lt h
  · exact le_of_eq h.1

theorem strs_sorted (keys : List Key) : ((groups keys).map strOf).Pairwise (· ≤ ·) := by
  rw [List.pairwise_map]
  exact (groups_sorted keys).imp fun h => strOf_mono h

theorem count_psus (keys : List Key) (s : ℤ) :
    ((groups keys).map strOf).count s = (psus keys s).card := by
  rw [List.count_eq_countP, List.countP_map, List.countP_eq_length_filter]
  rw [← List.toFinset_card_of_nodup ((groups_nodup keys).filter _)]
  congr 1
  ext k
  simp [psus, mem_groups]

/-- Sums over the pointer interval of stratum `h` are sums over its PSUs. -/
theorem sum_block (keys : List Key) (h : ℕ) (hh : h < (groups (keys.map strOf)).length)
    (F : ℕ → ℝ) (G : Key → ℝ)
    (hFG : ∀ k (hk : k < (groups keys).length), F k = G (groups keys)[k]) :
    ∑ k ∈ Finset.Ico (sizesToPtr (psuPerStr keys) h) (sizesToPtr (psuPerStr keys) (h + 1)), F k =
      ∑ k ∈ psus keys (groups (keys.map strOf))[h], G k := by
  have hmem : ∀ k, k ∈ Finset.Ico (sizesToPtr (psuPerStr keys) h)
      (sizesToPtr (psuPerStr keys) (h + 1)) ↔
      ∃ hk : k < (groups keys).length, strOf (groups keys)[k] = (groups (keys.map strOf))[h] := by
    intro k
    have h1 := ptr_iff ((groups keys).map strOf) (strs_sorted keys) h
      (by rw [strata_eq]; exact hh) k
    rw [Finset.mem_Ico]
    refine Iff.trans h1 ?_
    rw [List.getElem?_map, Option.map_eq_some_iff]
    simp only [strata_eq]
    constructor
    · rintro ⟨a, ha, hs⟩
      obtain ⟨hk, rfl⟩ := List.getElem?_eq_some_iff.1 ha
      exact ⟨hk, hs⟩
    · rintro ⟨hk, hs⟩
      exact ⟨_, List.getElem?_eq_getElem hk, hs⟩
  refine Finset.sum_bij (fun k hk => (groups keys)[k]'((hmem k).1 hk).1) ?_ ?_ ?_ ?_
  · intro k hk
    obtain ⟨h1, h2⟩ := (hmem k).1 hk
    simp only [psus, Finset.mem_filter, List.mem_toFinset]
    exact ⟨(mem_groups keys _).1 (List.getElem_mem h1), h2⟩
  · intro a ha b hb hab
    exact (List.Nodup.getElem_inj_iff (groups_nodup keys)).1 hab
  · intro k hk
    simp only [psus, Finset.mem_filter, List.mem_toFinset] at hk
    obtain ⟨i, hi, rfl⟩ := List.getElem_of_mem ((mem_groups keys k).2 hk.1)
    exact ⟨i, (hmem i).2 ⟨hi, hk.2⟩, rfl⟩
  · intro k hk
    exact hFG k ((hmem k).1 hk).1

/-- Slices of the sorted rows are the PSU totals. -/
theorem slice_total (keys : List Key) (hs : keys.Pairwise (· ≤ ·)) (U : ℕ → ℕ → ℝ) (c k : ℕ)
    (hk : k < (groups keys).length) :
    ∑ r ∈ Finset.Ico (sizesToPtr (obsPerPsu keys) k) (sizesToPtr (obsPerPsu keys) (k + 1)), U r c =
      psuTotal keys U (groups keys)[k] c := by
  unfold psuTotal
  apply Finset.sum_congr _ fun _ _ => rfl
  ext r
  rw [Finset.mem_Ico, Finset.mem_filter, Finset.mem_range]
  refine Iff.trans (ptr_iff keys hs k hk r) ?_
  exact ⟨fun h => ⟨(List.getElem?_eq_some_iff.1 h).1, h⟩, fun h => h.2⟩

theorem psuPerStr_getD (keys : List Key) (h : ℕ) (hh : h < (groups (keys.map strOf)).length) :
    (psuPerStr keys).getD h 0 = (psus keys (groups (keys.map strOf))[h]).card := by
  have hh' : h < (psuPerStr keys).length := by
    rw [psuPerStr, sizes, List.length_map, strata_eq]; exact hh
  rw [List.getD_eq_getElem _ _ hh']
  simp only [psuPerStr, sizes, List.getElem_map, count_psus, strata_eq]

theorem quad {κ : Type*} (S : Finset κ) (d : κ → ℕ → ℝ) (φ : ℝ) (x : ℕ → ℝ) (p : ℕ) :
    ∑ a ∈ Finset.range p, ∑ b ∈ Finset.range p, x a * (φ * ∑ k ∈ S, d k a * d k b) * x b =
      φ * ∑ k ∈ S, (∑ a ∈ Finset.range p, x a * d k a) ^ 2 := by
  simp_rw [pow_two, Finset.sum_mul_sum, Finset.mul_sum, Finset.sum_mul]
  rw [Finset.sum_comm (s := S)]
  apply Finset.sum_congr rfl
  intro a _
  rw [Finset.sum_comm]
  apply Finset.sum_congr rfl
  intro k _
  apply Finset.sum_congr rfl
  intro b _
  ring

/-! ## Singletons -/

theorem dedup_length_one {α : Type*} [DecidableEq α] (l : List α) :
    l.dedup.length = 1 ↔ l ≠ [] ∧ ∀ a ∈ l, ∀ b ∈ l, a = b := by
  constructor
  · intro h
    obtain ⟨c, hc⟩ := List.length_eq_one_iff.1 h
    have hall : ∀ a ∈ l, a = c := by
      intro a ha
      have := List.mem_dedup.2 ha
      rw [hc] at this
      simpa using this
    refine ⟨?_, fun a ha b hb => (hall a ha).trans (hall b hb).symm⟩
    rintro rfl
    simp at hc
  · rintro ⟨h1, h2⟩
    obtain ⟨a, ha⟩ := List.exists_mem_of_ne_nil l h1
    have : l.dedup.toFinset = {a} := by
      ext x
      simp only [List.mem_toFinset, List.mem_dedup, Finset.mem_singleton]
      exact ⟨fun hx => h2 x hx a ha, fun hx => hx ▸ ha⟩
    rw [← List.toFinset_card_of_nodup (List.nodup_dedup l), this, Finset.card_singleton]

theorem nPsu_one {υ : Type*} (rows : List (ℤ × ℤ × υ)) (s : ℤ) :
    nPsu rows s = 1 ↔ (∃ r ∈ rows, r.1 = s) ∧
      ∀ r ∈ rows, ∀ r' ∈ rows, r.1 = s → r'.1 = s → r.2.1 = r'.2.1 := by
  unfold nPsu
  rw [dedup_length_one]
  constructor
  · rintro ⟨h1, h2⟩
    refine ⟨?_, ?_⟩
    · obtain ⟨x, hx⟩ := List.exists_mem_of_ne_nil _ h1
      obtain ⟨r, hr, rfl⟩ := List.mem_map.1 hx
      have := List.mem_filter.1 hr
      exact ⟨r, this.1, by simpa using this.2⟩
    · intro r hr r' hr' h3 h4
      exact h2 _ (List.mem_map_of_mem (List.mem_filter.2 ⟨hr, by simpa using h3⟩)) _
        (List.mem_map_of_mem (List.mem_filter.2 ⟨hr', by simpa using h4⟩))
  · rintro ⟨⟨r, hr, h1⟩, h2⟩
    refine ⟨?_, ?_⟩
    · intro h
      have : r.2.1 ∈ (rows.filter fun r => decide (r.1 = s)).map fun r => r.2.1 :=
        List.mem_map_of_mem (List.mem_filter.2 ⟨hr, by simpa using h1⟩)
      rw [h] at this; simp at this
    · intro a ha b hb
      obtain ⟨r1, h3, rfl⟩ := List.mem_map.1 ha
      obtain ⟨r2, h4, rfl⟩ := List.mem_map.1 hb
      have h3 := List.mem_filter.1 h3
      have h4 := List.mem_filter.1 h4
      exact h2 r1 h3.1 r2 h4.1 (by simpa using h3.2) (by simpa using h4.2)

theorem mem_singletons {υ : Type*} (rows : List (ℤ × ℤ × υ)) (s : ℤ) :
    s ∈ singletons rows ↔ nPsu rows s = 1 := by
  unfold singletons
  simp only [List.mem_filter, decide_eq_true_eq, mem_groups]
  constructor
  · exact fun h => h.2
  · intro h
    obtain ⟨⟨r, hr, h1⟩, _⟩ := (nPsu_one rows s).1 h
    exact ⟨List.mem_map.2 ⟨r, hr, h1⟩, h⟩

theorem singletons_nodup {υ : Type*} (rows : List (ℤ × ℤ × υ)) : (singletons rows).Nodup :=
  (groups_nodup _).filter _

theorem lt_new {υ : Type*} (rows : List (ℤ × ℤ × υ)) (r : ℤ × ℤ × υ) (hr : r ∈ rows) :
    r.1 < maxStr rows + 1 := by
  have hm : r.1 ∈ rows.map fun r => r.1 := List.mem_map_of_mem hr
  rcases h : (rows.map fun r => r.1).max? with _ | m
  · rw [List.max?_eq_none_iff] at h
    rw [h] at hm; simp at hm
  · have := (List.max?_eq_some_iff.1 h).2 _ hm
    have h2 : maxStr rows = m := by rw [maxStr, h]; rfl
    omega

end Verif.Design
