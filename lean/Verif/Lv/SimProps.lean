import Verif.Lv.Sim
import Verif.Lv.SerialProps

namespace Verif.Lv
open Real Set Verif.Glm

theorem cumsumR_get (s : ℝ) (l : List ℝ) : (cumsumR s l).length = l.length ∧ ∀ k < l.length, (cumsumR s l)[k]? = some (s + (l.take (k + 1)).sum) := by
  induction l generalizing s with
  | nil => simp [cumsumR]
  | cons c l ih =>
    obtain ⟨h1, h2⟩ := ih (s + c)
    refine ⟨by simp [cumsumR, h1], fun k hk => ?_⟩
    cases k with
    | zero => simp [cumsumR]
    | succ k =>
      rw [cumsumR, List.getElem?_cons_succ, h2 k (by simpa using hk)]
      simp [add_assoc]

theorem quantiles_get {d : List ℝ} (hs : d.sum = 1) {k : ℕ} (hk : k ≤ d.length) (hd : d ≠ []) : (quantiles d)[k]? = some (d.take k).sum := by
  have hl : (0 :: cumsumR 0 d).length = d.length + 1 := by simp [(cumsumR_get 0 d).1]
  unfold quantiles
  rcases hk.lt_or_eq with h | h
  · rw [List.getElem?_append_left (by rw [List.length_dropLast, hl]; omega), List.getElem?_dropLast, if_pos (by rw [hl]; omega)]
    cases k with
    | zero => simp
    | succ k =>
      rw [List.getElem?_cons_succ, (cumsumR_get 0 d).2 k (by omega), zero_add]
  · rw [List.getElem?_append_right (by rw [List.length_dropLast, hl]; omega), List.length_dropLast, hl, h]
    simp [hs]

theorem quantiles_length (d : List ℝ) : (quantiles d).length = d.length + 1 := by
  simp [quantiles, (cumsumR_get 0 d).1]

theorem take_mono {d : List ℝ} (hp : ∀ c ∈ d, 0 < c) {k : ℕ} (hk : k < d.length) : (d.take (k + 1)).sum = (d.take k).sum + d[k] ∧ 0 < d[k] :=
  ⟨by rw [List.sum_take_succ _ _ hk], hp _ (List.getElem_mem hk)⟩

theorem take_strict {d : List ℝ} (hp : ∀ c ∈ d, 0 < c) : ∀ {j k : ℕ}, j < k → k ≤ d.length → (d.take j).sum < (d.take k).sum := by
  intro j k hjk hk
  induction k with
  | zero => omega
  | succ k ih =>
    obtain ⟨h1, h2⟩ := take_mono hp (show k < d.length by omega)
    rcases Nat.lt_succ_iff_lt_or_eq.1 hjk with h | h
    · linarith [ih h (by omega)]
    · subst h
      linarith

/-- The threshold at position `k`. -/
theorem tau_get (ndtri : ℝ → ℝ) {d : List ℝ} (hp : ∀ c ∈ d, 0 < c) (hs : d.sum = 1) (hd : d ≠ []) {k : ℕ} (hk : k ≤ d.length) :
    (simTaus ndtri d)[k]? = some (if k = 0 then .bot else if k = d.length then .top else .fin (ndtri (d.take k).sum)) := by
  have hl : 0 < d.length := List.length_pos_iff.2 hd
  rw [simTaus, List.getElem?_map, quantiles_get hs hk hd, Option.map_some]
  congr 1
  unfold ndtriE
  by_cases h0 : k = 0
  · subst h0
    simp
  · have h1 : 0 < (d.take k).sum := by simpa using take_strict hp (Nat.pos_of_ne_zero h0) hk
    rw [if_neg h0]
    by_cases he : k = d.length
    · rw [if_pos he, he, List.take_length, hs, if_pos rfl]
    · have h2 := take_strict hp (lt_of_le_of_ne hk he) le_rfl
      rw [List.take_length, hs] at h2
      rw [if_neg he, if_neg h2.ne, if_neg h1.ne']

/-- **C166** The thresholds have the weights as probabilities of the categories between them. -/
theorem C166_weights {erf ndtri : ℝ → ℝ} (he : IsErf erf) (hi : IsNdtri ndtri) {d : List ℝ} (hp : ∀ c ∈ d, 0 < c) (hs : d.sum = 1) (hd : d ≠ []) {k : ℕ}
    (hk : k < d.length) : ∃ s t, (simTaus ndtri d)[k]? = some s ∧ (simTaus ndtri d)[k + 1]? = some t ∧ cdfE erf t - cdfE erf s = d[k] := by
  have key : ∀ j ≤ d.length, ∃ t, (simTaus ndtri d)[j]? = some t ∧ cdfE erf t = (d.take j).sum := by
    intro j hj
    refine ⟨_, tau_get ndtri hp hs hd hj, ?_⟩
    by_cases h0 : j = 0
    · subst h0
      simp [cdfE]
    · rw [if_neg h0]
      by_cases h1 : j = d.length
      · rw [if_pos h1, h1, List.take_length, hs]
        rfl
      · rw [if_neg h1]
        have a := take_strict hp (Nat.pos_of_ne_zero h0) hj
        have b := take_strict hp (lt_of_le_of_ne hj h1) le_rfl
        rw [List.take_length, hs] at b
        simp only [List.take_zero, List.sum_nil] at a
        exact (he _).trans (hi _ ⟨a, b⟩)
  obtain ⟨s, h1, h2⟩ := key k hk.le
  obtain ⟨t, h3, h4⟩ := key (k + 1) hk
  exact ⟨s, t, h1, h3, by rw [h2, h4, (take_mono hp hk).1]; ring⟩

theorem countP_prefix {α : Type} (p : α → Bool) (l : List α) (n : ℕ) (hn : n ≤ l.length) (h1 : ∀ (i : ℕ) (hi : i < l.length), i < n → p l[i])
    (h2 : ∀ (i : ℕ) (hi : i < l.length), n ≤ i → ¬ p l[i]) : l.countP p = n := by
  rw [← List.take_append_drop n l, List.countP_append]
  have e1 : (l.take n).countP p = (l.take n).length := by
    rw [List.countP_eq_length]
    intro a ha
    obtain ⟨i, hi, rfl⟩ := List.mem_iff_getElem.1 ha
    rw [List.length_take] at hi
    rw [List.getElem_take]
    exact h1 i (by omega) (by omega)
  have e2 : (l.drop n).countP p = 0 := by
    rw [List.countP_eq_zero]
    intro a ha
    obtain ⟨i, hi, rfl⟩ := List.mem_iff_getElem.1 ha
    rw [List.length_drop] at hi
    rw [List.getElem_drop]
    exact h2 _ (by omega) (by omega)
  rw [e1, e2, List.length_take]
  omega

/-- **C166** The simulated categories run from one to the number of weights, and each of them occurs. -/
theorem C166_categories {ndtri : ℝ → ℝ} (hi : IsNdtri ndtri) {d : List ℝ} (hp : ∀ c ∈ d, 0 < c) (hs : d.sum = 1) (hd : d ≠ []) :
    (∀ z, 1 ≤ digitizeE (simTaus ndtri d) z ∧ digitizeE (simTaus ndtri d) z ≤ d.length) ∧
      ∀ k, 1 ≤ k → k ≤ d.length → ∃ z, digitizeE (simTaus ndtri d) z = k := by
  have hlen : (simTaus ndtri d).length = d.length + 1 := by simp [simTaus, quantiles_length]
  have hl : 0 < d.length := List.length_pos_iff.2 hd
  have g := fun k hk => tau_get ndtri hp hs hd (k := k) hk
  have gE : ∀ (k : ℕ) (hk : k < (simTaus ndtri d).length), (simTaus ndtri d)[k] = (if k = 0 then .bot else if k = d.length then .top else .fin (ndtri (d.take k).sum)) := fun k hk => by
    have := g k (by omega)
    rw [List.getElem?_eq_getElem hk] at this
    exact Option.some.inj this
  refine ⟨fun z => ⟨?_, ?_⟩, fun k h1 hk => ?_⟩
  · unfold digitizeE
    rw [Nat.one_le_iff_ne_zero, ← Nat.pos_iff_ne_zero, List.countP_pos_iff]
    refine ⟨_, List.getElem_mem (show 0 < (simTaus ndtri d).length by omega), ?_⟩
    rw [gE]
    simp
  · unfold digitizeE
    have hlt : ∀ p : Ext → Bool, p .top = false → (simTaus ndtri d).countP p < (simTaus ndtri d).length := fun p ht => by
      refine lt_of_le_of_ne List.countP_le_length fun h => ?_
      rw [List.countP_eq_length] at h
      have := h _ (List.getElem_mem (show d.length < (simTaus ndtri d).length by omega))
      rw [gE, if_neg hl.ne', if_pos rfl, ht] at this
      exact absurd this (by simp)
    exact Nat.lt_succ_iff.1 (lt_of_lt_of_eq (hlt _ (by simp)) hlen)
  · have mono : ∀ {i j : ℕ}, 0 < i → i < j → j < d.length → ndtri (d.take i).sum < ndtri (d.take j).sum := by
      intro i j h0 hij hj
      have a := take_strict hp h0 (by omega : i ≤ d.length)
      have b := take_strict hp hij hj.le
      have c := take_strict hp hj le_rfl
      rw [List.take_length, hs] at c
      simp only [List.take_zero, List.sum_nil] at a
      rw [← ndtr0_mono.lt_iff_lt, hi _ ⟨a, by linarith⟩, hi _ ⟨by linarith, c⟩]
      exact b
    -- the lower threshold of the category, or a point below the first one
    have hz : ∃ z, (∀ i, 0 < i → i < k → ndtri (d.take i).sum ≤ z) ∧ ∀ i, k ≤ i → i < d.length → z < ndtri (d.take i).sum := by
      rcases h1.lt_or_eq with h | h
      · refine ⟨ndtri (d.take (k - 1)).sum, fun i h0 hik => ?_, fun i hki hi => mono (by omega) (by omega) hi⟩
        rcases (show i ≤ k - 1 by omega).lt_or_eq with h' | h'
        · exact (mono h0 h' (by omega)).le
        · rw [h']
      · subst h
        refine ⟨ndtri (d.take 1).sum - 1, fun i h0 hik => by omega, fun i hki hi => ?_⟩
        rcases hki.lt_or_eq with h' | h'
        · linarith [mono one_pos h' hi]
        · rw [← h']
          linarith
    obtain ⟨z, hz1, hz2⟩ := hz
    refine ⟨z, ?_⟩
    unfold digitizeE
    refine countP_prefix _ _ _ (by omega) (fun i hi' hik => ?_) fun i hi' hki => ?_
    · rw [gE]
      by_cases h0 : i = 0
      · simp [h0]
      · rw [if_neg h0, if_neg (by omega)]
        simpa using hz1 i (Nat.pos_of_ne_zero h0) hik
    · rw [gE, if_neg (by omega)]
      by_cases he : i = d.length
      · simp [he]
      · rw [if_neg he]
        simpa using hz2 i hki (by omega)

/-- **C166 (violated)** `random_thresholds(ncat=c)` draws `c - 2` weights, so the simulated variable has `c - 2` categories and not `c`;
`cat_sizes` counts the thresholds, `c - 1`. -/
theorem C166_ncat_violated {ndtri : ℝ → ℝ} (hi : IsNdtri ndtri) {c : ℕ} (hc : 3 ≤ c) {d : List ℝ} (hl : d.length = nWeights c) (hp : ∀ c ∈ d, 0 < c)
    (hs : d.sum = 1) : (∀ z, digitizeE (simTaus ndtri d) z + 2 ≤ c) ∧ catSize (simTaus ndtri d) = c - 1 := by
  unfold nWeights at hl
  have hd : d ≠ [] := List.length_pos_iff.1 (by omega)
  refine ⟨fun z => ?_, ?_⟩
  · have := ((C166_categories hi hp hs hd).1 z).2
    omega
  · simp only [catSize, simTaus, List.length_map, quantiles_length]
    omega

/-- **C166** With bounds, the number of categories lies between the lower bound and the upper one. -/
theorem C166_bounds {a b c : ℕ} (h : c ∈ ncatChoices a b) : a ≤ nWeights c ∧ nWeights c < b := by
  unfold ncatChoices at h
  obtain ⟨i, hi, rfl⟩ := List.mem_iff_getElem.1 h
  simp only [List.length_drop, List.length_range] at hi
  simp only [List.getElem_drop, List.getElem_range, nWeights]
  omega

/-- **C166 (violated)** The upper bound itself is never drawn. -/
theorem C166_max_violated (a b : ℕ) : ∀ c ∈ ncatChoices a b, nWeights c ≠ b := fun _ h => (C166_bounds h).2.ne

/-- **C166** An integer number `n` of bins of `LVCorrSim` is read as `n` inner cut points, so there are `n + 1` categories. -/
theorem C166_bins (n : ℕ) : (binsInt n).length = n ∧ ∀ q ∈ binsInt n, 0 < q ∧ q < 1 := by
  refine ⟨by simp [binsInt], fun q hq => ?_⟩
  unfold binsInt at hq
  rw [List.range_succ_eq_map, List.map_cons, List.tail_cons] at hq
  simp only [List.map_map, List.mem_map, List.mem_range, Function.comp_apply] at hq
  obtain ⟨k, hk, rfl⟩ := hq
  have : (0 : ℚ) < ((n + 1 : ℕ) : ℚ) := by positivity
  refine ⟨by positivity, ?_⟩
  rw [div_lt_one this]
  exact_mod_cast Nat.succ_lt_succ hk

example : ∃ d : List ℝ, d.length = nWeights 5 ∧ (∀ c ∈ d, 0 < c) ∧ d.sum = 1 :=
  ⟨[1 / 2, 1 / 4, 1 / 4], rfl, by simp, by norm_num⟩

end Verif.Lv
