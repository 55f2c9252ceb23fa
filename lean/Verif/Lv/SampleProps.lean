import Verif.Lv.Sample
import Verif.Lv.PolychorProps

namespace Verif.Lv
open Real Set Verif.Glm

/-! ### Counts -/

theorem uniq_sorted (x : List ℤ) : (uniq x).Pairwise (· < ·) := by
  have h1 : (uniq x).Pairwise (· ≤ ·) := List.pairwise_insertionSort _ _
  have h2 : (uniq x).Nodup := (List.perm_insertionSort _ _).nodup_iff.2 (List.nodup_dedup x)
  exact (h1.and h2).imp fun h => lt_of_le_of_ne h.1 h.2

theorem mem_uniq {x : List ℤ} {u : ℤ} : u ∈ uniq x ↔ u ∈ x := by simp [uniq]

theorem uniq_length (x : List ℤ) : (uniq x).length = ncat x := by simp [ncat, catt]

theorem cumsum_getElem (s : ℕ) (l : List ℕ) : (cumsum s l).length = l.length ∧ ∀ k < l.length, (cumsum s l)[k]? = some (s + (l.take (k + 1)).sum) := by
  induction l generalizing s with
  | nil => simp [cumsum]
  | cons c l ih =>
    obtain ⟨h1, h2⟩ := ih (s + c)
    refine ⟨by simp [cumsum, h1], fun k hk => ?_⟩
    cases k with
    | zero => simp [cumsum]
    | succ k =>
      simp only [cumsum, List.getElem?_cons_succ, List.take_succ_cons, List.sum_cons]
      rw [h2 k (by simpa using hk)]
      simp [add_assoc]

/-- Counts of distinct values add up to the number of entries among them. -/
theorem sum_count (x l : List ℤ) (hl : l.Nodup) : (l.map fun u => x.count u).sum = x.countP fun v => decide (v ∈ l) := by
  induction x with
  | nil => simp
  | cons v x ih =>
    have e : (l.map fun u => (v :: x).count u).sum = (l.map fun u => x.count u).sum + (l.map fun u => if v = u then 1 else 0).sum := by
      rw [← List.sum_map_add]
      refine congrArg List.sum (List.map_congr_left fun u _ => ?_)
      rw [List.count_cons]
      simp [beq_iff_eq]
    have e2 : (l.map fun u => if v = u then 1 else 0).sum = if v ∈ l then 1 else 0 := by
      clear e ih
      induction l with
      | nil => simp
      | cons w l ih =>
        rw [List.nodup_cons] at hl
        simp only [List.map_cons, List.sum_cons, ih hl.2, List.mem_cons]
        by_cases hw : v = w
        · subst hw
          simp [hl.1]
        · simp [hw]
    rw [e, ih, e2, List.countP_cons]
    simp

theorem take_uniq (x : List ℤ) {k : ℕ} (hk : k < (uniq x).length) (v : ℤ) (hv : v ∈ x) : v ∈ (uniq x).take (k + 1) ↔ v ≤ (uniq x)[k] := by
  have hs := uniq_sorted x
  constructor
  · intro h
    obtain ⟨i, hi, rfl⟩ := List.mem_iff_getElem.1 h
    rw [List.length_take] at hi
    rw [List.getElem_take]
    rcases Nat.lt_or_ge i k with h1 | h1
    · exact (List.pairwise_iff_getElem.1 hs i k (by omega) hk h1).le
    · have : i = k := by omega
      subst this
      exact le_rfl
  · intro h
    obtain ⟨i, hi, rfl⟩ := List.mem_iff_getElem.1 (mem_uniq.2 hv)
    have : i ≤ k := by
      by_contra hc
      exact absurd h (not_le.2 (List.pairwise_iff_getElem.1 hs k i hk hi (by omega)))
    rw [List.mem_iff_getElem]
    exact ⟨i, by rw [List.length_take]; omega, by rw [List.getElem_take]⟩

/-- **C162** `catt` counts every observation once. -/
theorem C162_total (x : List ℤ) : (catt x).sum = x.length := by
  unfold catt
  rw [sum_count x _ (uniq_sorted x).nodup, List.countP_eq_length]
  intro v hv
  simpa using mem_uniq.2 hv

/-- **C162** `cprp` holds the proportions of observations not above the values of the column, but for the largest. -/
theorem C162_cprp (x : List ℤ) : (cprp x).length = ncat x - 1 ∧
    ∀ k, (hk : k + 1 < ncat x) → (cprp x)[k]? = some ((x.countP fun v => decide (v ≤ (uniq x)[k]'(by rw [uniq_length]; omega)) : ℕ) / (x.length : ℚ)) := by
  obtain ⟨h1, h2⟩ := cumsum_getElem 0 (catt x)
  refine ⟨by simp [cprp, h1, ncat], fun k hk => ?_⟩
  have hlt : k < (cumsum 0 (catt x)).length := by
    rw [h1]
    unfold ncat at hk
    omega
  unfold cprp
  rw [List.getElem?_dropLast, if_pos (by rw [List.length_map, h1]; unfold ncat at hk; omega), List.getElem?_map, h2 k (by rw [← h1]; exact hlt), C162_total]
  simp only [Option.map_some, zero_add]
  congr 3
  unfold catt
  rw [← List.map_take, sum_count x _ ((uniq_sorted x).nodup.sublist (List.take_sublist _ _))]
  refine List.countP_congr fun v hv => ?_
  simp only [decide_eq_true_eq]
  exact take_uniq x _ v hv

theorem cprp_range (x : List ℤ) {k : ℕ} {q : ℚ} (h : (cprp x)[k]? = some q) : 0 < q ∧ q < 1 := by
  obtain ⟨h1, h2⟩ := C162_cprp x
  have hk : k < (cprp x).length := (List.getElem?_eq_some_iff.1 h).1
  rw [h1] at hk
  have h2 := h2 k (by omega)
  rw [h2] at h
  obtain rfl := Option.some.inj h
  have hu : k < (uniq x).length := by
    rw [uniq_length]
    omega
  have hu1 : k + 1 < (uniq x).length := by
    rw [uniq_length]
    omega
  have hmem := mem_uniq.1 (List.getElem_mem hu)
  have hmem1 := mem_uniq.1 (List.getElem_mem hu1)
  have hpos : 0 < x.countP fun v => decide (v ≤ (uniq x)[k]) := List.countP_pos_iff.2 ⟨_, hmem, by simp⟩
  have hlt : (x.countP fun v => decide (v ≤ (uniq x)[k])) < x.length := by
    refine lt_of_le_of_ne List.countP_le_length fun e => ?_
    have := List.countP_eq_length.1 e _ hmem1
    simp only [decide_eq_true_eq] at this
    exact absurd this (not_le.2 (List.pairwise_iff_getElem.1 (uniq_sorted x) k (k + 1) hu hu1 (by omega)))
  have hn : (0 : ℚ) < x.length := by exact_mod_cast lt_of_le_of_lt (Nat.zero_le _) hlt
  refine ⟨div_pos (by exact_mod_cast hpos) hn, ?_⟩
  rw [div_lt_one hn]
  exact_mod_cast hlt

theorem cprp_mono (x : List ℤ) {k : ℕ} {q q' : ℚ} (h : (cprp x)[k]? = some q) (h' : (cprp x)[k + 1]? = some q') : q < q' := by
  obtain ⟨h1, h2⟩ := C162_cprp x
  have hk : k + 1 < (cprp x).length := (List.getElem?_eq_some_iff.1 h').1
  rw [h1] at hk
  rw [h2 k (by omega)] at h
  rw [h2 (k + 1) (by omega)] at h'
  obtain rfl := Option.some.inj h
  obtain rfl := Option.some.inj h'
  have hu1 : k + 1 < (uniq x).length := by
    rw [uniq_length]
    omega
  have hlt := List.pairwise_iff_getElem.1 (uniq_sorted x) k (k + 1) (by omega) hu1 (by omega)
  have hmem1 := mem_uniq.1 (List.getElem_mem hu1)
  have hn : (0 : ℚ) < x.length := by exact_mod_cast List.length_pos_of_mem hmem1
  have : (x.countP fun v => decide (v ≤ (uniq x)[k]'(by omega))) < x.countP fun v => decide (v ≤ (uniq x)[k + 1]) := by
    generalize (uniq x)[k]'(by omega) = a at *
    generalize (uniq x)[k + 1] = b at *
    clear h1 h2 hk hu1 hn h h'
    induction x with
    | nil => simp at hmem1
    | cons v x ih =>
      rw [List.countP_cons, List.countP_cons]
      rcases List.mem_cons.1 hmem1 with rfl | hm
      · have := List.countP_mono_left (l := x) (p := fun v => decide (v ≤ a)) (q := fun v => decide (v ≤ b)) fun v _ hv => by
          simp only [decide_eq_true_eq] at hv ⊢
          omega
        simp [hlt.not_ge]
        omega
      · have := ih hm
        by_cases h1 : v ≤ a
        · have h2 : v ≤ b := by omega
          simp [h1, h2, this]
        · simp only [h1, decide_false]
          simp only [Bool.false_eq_true, if_false, add_zero]
          omega
  gcongr

/-- Contract of `scipy.special.ndtri`. -/
def IsNdtri (ndtri : ℝ → ℝ) : Prop := ∀ q ∈ Ioo (0 : ℝ) 1, ndtr0 (ndtri q) = q

/-- **C162** The sample thresholds are strictly increasing and the normal distribution function takes them to the cumulated proportions. -/
theorem C162_thresholds {ndtri : ℝ → ℝ} (hi : IsNdtri ndtri) (x : List ℤ) :
    (tauc ndtri x).length = ncat x - 1 ∧
    (∀ (k : ℕ) (q : ℚ), (cprp x)[k]? = some q → ∃ t, (tauc ndtri x)[k]? = some t ∧ ndtr0 t = (q : ℝ)) ∧
    ∀ (k : ℕ) (t t' : ℝ), (tauc ndtri x)[k]? = some t → (tauc ndtri x)[k + 1]? = some t' → t < t' := by
  refine ⟨by simp [tauc, (C162_cprp x).1], fun k q h => ⟨ndtri q, by simp [tauc, h], ?_⟩, fun k t t' h h' => ?_⟩
  · obtain ⟨h0, h1⟩ := cprp_range x h
    exact hi _ ⟨by exact_mod_cast h0, by exact_mod_cast h1⟩
  · simp only [tauc, List.getElem?_map, Option.map_eq_some_iff] at h h'
    obtain ⟨q, hq, rfl⟩ := h
    obtain ⟨q', hq', rfl⟩ := h'
    obtain ⟨h0, h1⟩ := cprp_range x hq
    obtain ⟨h0', h1'⟩ := cprp_range x hq'
    rw [← ndtr0_mono.lt_iff_lt, hi _ ⟨by exact_mod_cast h0, by exact_mod_cast h1⟩, hi _ ⟨by exact_mod_cast h0', by exact_mod_cast h1'⟩]
    exact_mod_cast cprp_mono x hq hq'

theorem exists_ndtri : ∃ ndtri, IsNdtri ndtri := by
  choose! f hf using fun (m : ℝ) (hm : m ∈ Ioo (0 : ℝ) 1) => ndtr0_surj hm
  exact ⟨f, hf⟩

/-! ### The table -/

theorem zip_count_fst (z : List (ℤ × ℤ)) (l : List ℤ) (hl : l.Nodup) (hz : ∀ p ∈ z, p.2 ∈ l) (u : ℤ) :
    (l.map fun v => z.count (u, v)).sum = (z.map Prod.fst).count u := by
  induction z with
  | nil => simp
  | cons p z ih =>
    obtain ⟨a, b⟩ := p
    have ih := ih fun p hp => hz p (List.mem_cons_of_mem _ hp)
    have hb : b ∈ l := hz (a, b) (List.mem_cons_self ..)
    have e : (l.map fun v => ((a, b) :: z).count (u, v)).sum = (l.map fun v => z.count (u, v)).sum + (l.map fun v => if a = u ∧ b = v then 1 else 0).sum := by
      rw [← List.sum_map_add]
      refine congrArg List.sum (List.map_congr_left fun v _ => ?_)
      rw [List.count_cons]
      simp [beq_iff_eq, Prod.ext_iff]
    have e2 : (l.map fun v => if a = u ∧ b = v then 1 else 0).sum = if a = u then 1 else 0 := by
      by_cases hau : a = u
      · simp only [hau, true_and, if_true]
        have := sum_count [b] l hl
        simp only [List.countP_cons, List.countP_nil, hb, decide_true, if_true, zero_add] at this
        refine Eq.trans (congrArg List.sum (List.map_congr_left fun v _ => ?_)) this
        rw [List.count_singleton]
        simp
      · simp [hau]
    rw [e, ih, e2, List.map_cons, List.count_cons]
    simp

/-- **C162** The rows and columns of the table add up to the counts of the categories. -/
theorem C162_margins (x y : List ℤ) (h : x.length = y.length) :
    (∀ i, i < ncat x → ∑ j ∈ Finset.range (ncat y), crosstab x y i j = (catt x).getD i 0) ∧
    ∀ j, j < ncat y → ∑ i ∈ Finset.range (ncat x), crosstab x y i j = (catt y).getD j 0 := by
  have key : ∀ x y : List ℤ, x.length = y.length → ∀ i, i < ncat x → ∑ j ∈ Finset.range (ncat y), crosstab x y i j = (catt x).getD i 0 := by
    intro x y h i hi
    have h1 := zip_count_fst (x.zip y) (uniq y) (uniq_sorted y).nodup (fun p hp => mem_uniq.2 (List.of_mem_zip hp).2) ((uniq x).getD i 0)
    rw [List.map_fst_zip h.le] at h1
    have hu : i < (uniq x).length := by rwa [uniq_length]
    have h2 : (catt x).getD i 0 = x.count ((uniq x).getD i 0) := by
      simp [catt, List.getD_eq_getElem?_getD, hu]
    rw [h2, ← h1, ← uniq_length, ← Fin.sum_univ_eq_sum_range, ← List.sum_ofFn]
    refine congrArg List.sum (List.ext_getElem (by simp) fun k hk _ => ?_)
    simp only [List.length_ofFn] at hk
    simp [crosstab, List.getD_eq_getElem?_getD]
  refine ⟨key x y h, fun j hj => ?_⟩
  rw [← key y x h.symm j hj]
  refine Finset.sum_congr rfl fun i _ => ?_
  unfold crosstab
  rw [← List.zip_swap y x, List.count_eq_countP, List.count_eq_countP, List.countP_map]
  refine List.countP_congr fun p _ => ?_
  simp [Prod.ext_iff, and_comm]

example : catt [3, 1, 3, 7] = [1, 2, 1] ∧ cprp [3, 1, 3, 7] = [1 / 4, 3 / 4] ∧ crosstab [3, 1, 3, 7] [0, 0, 1, 1] 1 1 = 1 := by
  decide +kernel

end Verif.Lv
