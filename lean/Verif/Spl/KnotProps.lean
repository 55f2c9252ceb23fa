import Verif.Spl.CyclicProps
/-!
# C120: placing the knots
-/
namespace Verif.Spl
open Finset

variable {xs : List ℝ}

theorem getD_lt (hs : xs.SortedLT) {i j : ℕ} (hij : i < j) (hj : j < xs.length) : xs.getD i 0 < xs.getD j 0 := by
  rw [List.getD_eq_getElem _ _ (by omega), List.getD_eq_getElem _ _ hj]
  exact hs.getElem_lt_getElem_of_lt hij

theorem getD_le (hs : xs.SortedLT) {i j : ℕ} (hij : i ≤ j) (hj : j < xs.length) : xs.getD i 0 ≤ xs.getD j 0 := by
  rcases hij.lt_or_eq with h | h
  · exact (getD_lt hs h hj).le
  · rw [h]

/-- The value at position `p`. -/
noncomputable def interp (xs : List ℝ) (p : ℝ) : ℝ :=
  xs.getD ⌊p⌋₊ 0 + (xs.getD (min (⌊p⌋₊ + 1) (xs.length - 1)) 0 - xs.getD ⌊p⌋₊ 0) * (p - ⌊p⌋₊)

theorem interp_nat (i : ℕ) : interp xs i = xs.getD i 0 := by simp [interp]

theorem interp_lt (hs : xs.SortedLT) {p q : ℝ} (h0 : 0 ≤ p) (hpq : p < q) (hq : q ≤ (xs.length : ℝ) - 1) :
    interp xs p < interp xs q := by
  have hp1 := Nat.floor_le h0
  have hp2 := Nat.lt_floor_add_one p
  have hq1 := Nat.floor_le (h0.trans hpq.le)
  have hq2 := Nat.lt_floor_add_one q
  have hle : ⌊p⌋₊ ≤ ⌊q⌋₊ := Nat.floor_le_floor hpq.le
  have hN : ⌊q⌋₊ < xs.length := by
    have : (⌊q⌋₊ : ℝ) < xs.length := by linarith
    exact_mod_cast this
  have hpN : ⌊p⌋₊ + 1 < xs.length := by
    have : (⌊p⌋₊ : ℝ) + 1 < xs.length := by linarith
    exact_mod_cast this
  have hstep := getD_lt hs (Nat.lt_succ_self ⌊p⌋₊) hpN
  unfold interp
  rw [min_eq_left (by omega : ⌊p⌋₊ + 1 ≤ xs.length - 1)]
  rcases hle.lt_or_eq with h | h
  · have h1 : xs.getD ⌊p⌋₊ 0 + (xs.getD (⌊p⌋₊ + 1) 0 - xs.getD ⌊p⌋₊ 0) * (p - ⌊p⌋₊) < xs.getD (⌊p⌋₊ + 1) 0 := by
      have : (xs.getD (⌊p⌋₊ + 1) 0 - xs.getD ⌊p⌋₊ 0) * (p - ⌊p⌋₊) < (xs.getD (⌊p⌋₊ + 1) 0 - xs.getD ⌊p⌋₊ 0) * 1 :=
        mul_lt_mul_of_pos_left (by linarith) (by linarith)
      linarith
    have h2 : xs.getD (⌊p⌋₊ + 1) 0 ≤ xs.getD ⌊q⌋₊ 0 := getD_le hs h hN
    have h3 : 0 ≤ (xs.getD (min (⌊q⌋₊ + 1) (xs.length - 1)) 0 - xs.getD ⌊q⌋₊ 0) * (q - ⌊q⌋₊) :=
      mul_nonneg (sub_nonneg.2 (getD_le hs (by omega) (by omega))) (by linarith)
    linarith
  · rw [← h, min_eq_left (by omega : ⌊p⌋₊ + 1 ≤ xs.length - 1)]
    have : (xs.getD (⌊p⌋₊ + 1) 0 - xs.getD ⌊p⌋₊ 0) * (p - ⌊p⌋₊) < (xs.getD (⌊p⌋₊ + 1) 0 - xs.getD ⌊p⌋₊ 0) * (q - ⌊p⌋₊) :=
      mul_lt_mul_of_pos_left (by linarith) (by linarith)
    linarith

theorem unique_sorted (x : List ℝ) : (unique x).SortedLT := Finset.sortedLT_sort _

theorem crKnots_eq (x : List ℝ) (df i : ℕ) : crKnots x df i = interp (unique x) ((i : ℝ) / ((df : ℝ) - 1) * (((unique x).length : ℝ) - 1)) := rfl

/-- Knots at the quantiles increase exactly when the covariate takes two different values. -/
theorem C120_increasing (x : List ℝ) {df : ℕ} (hdf : 2 ≤ df) : Inc df (crKnots x df) ↔ 2 ≤ (unique x).length := by
  constructor
  · intro h
    by_contra hc
    have h1 := h 0 (by omega)
    have : (unique x).length = 0 ∨ (unique x).length = 1 := by omega
    have e : ∀ i, crKnots x df i = crKnots x df 0 := by
      intro i
      rw [crKnots_eq, crKnots_eq]
      rcases this with h2 | h2
      · rw [List.length_eq_zero_iff.1 h2]; simp [interp]
      · rw [h2]; simp
    rw [e (0 + 1)] at h1
    exact lt_irrefl _ h1
  · intro h i hi
    have h1 : (0 : ℝ) < (df : ℝ) - 1 := by have : (2 : ℝ) ≤ df := by exact_mod_cast hdf
                                           linarith
    have h2 : (0 : ℝ) < ((unique x).length : ℝ) - 1 := by have : (2 : ℝ) ≤ (unique x).length := by exact_mod_cast h
                                                          linarith
    rw [crKnots_eq, crKnots_eq]
    refine interp_lt (unique_sorted x) (by positivity) ?_ ?_
    · refine mul_lt_mul_of_pos_right ?_ h2
      rw [div_lt_div_iff_of_pos_right h1]
      push_cast; linarith
    · have h3 : ((i + 1 : ℕ) : ℝ) / ((df : ℝ) - 1) ≤ 1 := by
        rw [div_le_one h1]
        have : ((i + 1 : ℕ) : ℝ) + 1 ≤ df := by exact_mod_cast hi
        linarith
      nlinarith

/-- The first knot is the smallest value and the last knot the largest. -/
theorem C120_ends (x : List ℝ) (hx : x ≠ []) {df : ℕ} (hdf : 2 ≤ df) : crKnots x df 0 ∈ x ∧ crKnots x df (df - 1) ∈ x ∧
    ∀ y ∈ x, crKnots x df 0 ≤ y ∧ y ≤ crKnots x df (df - 1) := by
  have hl : 0 < (unique x).length := by
    rw [unique, Finset.length_sort, Finset.card_pos]
    exact (List.toFinset_nonempty_iff x).2 hx
  have h1 : (df : ℝ) - 1 ≠ 0 := by
    have : (2 : ℝ) ≤ df := by exact_mod_cast hdf
    intro h; linarith
  have e0 : crKnots x df 0 = (unique x).getD 0 0 := by
    rw [crKnots_eq]; simp [interp]
  have e1 : crKnots x df (df - 1) = (unique x).getD ((unique x).length - 1) 0 := by
    rw [crKnots_eq, Nat.cast_sub (by omega), Nat.cast_one, div_self h1, one_mul, ← interp_nat (xs := unique x), Nat.cast_sub hl, Nat.cast_one]
  have hm : ∀ i < (unique x).length, (unique x).getD i 0 ∈ x := fun i hi => by
    rw [List.getD_eq_getElem _ _ hi]
    exact List.mem_toFinset.1 ((Finset.mem_sort _).1 (List.getElem_mem hi))
  rw [e0, e1]
  refine ⟨hm 0 hl, hm _ (by omega), fun y hy => ?_⟩
  have hy' : y ∈ unique x := by rw [unique, Finset.mem_sort, List.mem_toFinset]; exact hy
  obtain ⟨i, hi, rfl⟩ := List.getElem_of_mem hy'
  rw [← List.getD_eq_getElem _ 0 hi]
  exact ⟨getD_le (unique_sorted x) (Nat.zero_le i) hi, getD_le (unique_sorted x) (by omega) (by omega)⟩

/-- Both ways of placing knots give the same knots (with one distinct value `ccspline_knots` raises). -/
theorem C120_agree (x : List ℝ) (h : 2 ≤ (unique x).length) {nk i : ℕ} (hk : 2 ≤ nk) (hi : i < nk) : ccKnots x nk i = crKnots x nk i := by
  have h1 : (0 : ℝ) < (nk : ℝ) - 1 := by have : (2 : ℝ) ≤ nk := by exact_mod_cast hk
                                         linarith
  have h2 : (0 : ℝ) < ((unique x).length : ℝ) - 1 := by have : (2 : ℝ) ≤ (unique x).length := by exact_mod_cast h
                                                        linarith
  rw [crKnots_eq]
  simp only [ccKnots]
  split_ifs with h3 h4
  · have ep : ((unique x).length - 1 : ℝ) / ((nk : ℝ) - 1) * i = (i : ℝ) / ((nk : ℝ) - 1) * (((unique x).length : ℝ) - 1) := by
      field_simp
    rw [ep]
    generalize hp : (i : ℝ) / ((nk : ℝ) - 1) * (((unique x).length : ℝ) - 1) = p
    have h0 : 0 ≤ p := by rw [← hp]; positivity
    have hlt : p < ((unique x).length : ℝ) - 1 := by
      rw [← hp]
      have h5 : (i : ℝ) / ((nk : ℝ) - 1) < 1 := by
        rw [div_lt_one h1]
        have : i + 1 < nk := by omega
        have : ((i : ℝ) + 1) < nk := by exact_mod_cast this
        linarith
      nlinarith
    have hf : ⌊p⌋₊ + 1 < (unique x).length := by
      have := Nat.floor_le h0
      have : (⌊p⌋₊ : ℝ) + 1 < (unique x).length := by linarith
      exact_mod_cast this
    rw [interp, min_eq_left (by omega), Nat.add_sub_cancel]
    push_cast
    ring
  · subst h4
    simp [interp]
  · have h5 : i = nk - 1 := by omega
    rw [h5, Nat.cast_sub (by omega), Nat.cast_one, div_self h1.ne', one_mul, ← interp_nat (xs := unique x), Nat.cast_sub (by omega), Nat.cast_one]

/-- So both spline bases exist for every covariate with two different values, and no observation lies outside the knots. -/
theorem C120_splines (x : List ℝ) (h : 2 ≤ (unique x).length) {df : ℕ} (hdf : 3 ≤ df) :
    (∃ S F, crPenalty df (crKnots x df) = some (S, F)) ∧ (4 ≤ df → ∃ S F, ccPenalty (df - 1) (ccKnots x df) = some (S, F)) := by
  have hk := (C120_increasing x (by omega : 2 ≤ df)).2 h
  constructor
  · obtain ⟨S, F, h1, _⟩ := C118_solves hdf hk
    exact ⟨S, F, h1⟩
  · intro h4
    have hk' : Inc (df - 1 + 1) (ccKnots x df) := fun i hi => by
      rw [C120_agree x h (by omega) (by omega), C120_agree x h (by omega) (by omega)]
      exact hk i (by omega)
    obtain ⟨S, F, h1, _⟩ := C119_solves_partial (by omega) hk'
    exact ⟨S, F, h1⟩

example : 2 ≤ (unique [3, 1, 3]).length := by
  rw [unique, Finset.length_sort]
  norm_num

end Verif.Spl
