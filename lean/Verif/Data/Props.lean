import Verif.Data.Lemmas
import Mathlib.Tactic.NormNum
import Mathlib.Tactic.Positivity
import Mathlib.Algebra.BigOperators.Field
/-!
# Properties C25, C57 - C62
-/
namespace Verif.Data

/-! ## C25: Welford -/

section welford
variable {α : Type*} [Field α] [CharZero α]

/-- Mean and sum of squared deviations of any stream. -/
theorem C25_welford_variance (xs : List α) :
    (welfordVarianceLoop xs).1 = xs.sum / xs.length ∧
    (welfordVarianceLoop xs).2 = (xs.map fun x => (x - xs.sum / xs.length) ^ 2).sum := by
  obtain ⟨h1, h2, h3⟩ := welford_inv xs
  rcases Nat.eq_zero_or_pos xs.length with h0 | hpos
  · have : xs = [] := List.length_eq_zero_iff.1 h0
    subst this; simp [welfordVarianceLoop]
  · have hn : (xs.length : α) ≠ 0 := by exact_mod_cast hpos.ne'
    have hm : (welfordVarianceLoop xs).1 = xs.sum / xs.length := by
      rw [eq_div_iff hn, mul_comm]; exact h2
    refine ⟨hm, ?_⟩
    rw [sum_sq_dev xs _ (by field_simp), ← hm]
    exact h3

/-- `welford_variance` divides by `n` or `n - 1`. -/
theorem C25_welford_variance_scaled (xs : List α) :
    welfordVariance xs false = (xs.sum / xs.length,
      (xs.map fun x => (x - xs.sum / xs.length) ^ 2).sum / (xs.length : α)) ∧
    welfordVariance xs true = (xs.sum / xs.length,
      (xs.map fun x => (x - xs.sum / xs.length) ^ 2).sum / ((xs.length : α) - 1)) := by
  obtain ⟨h1, h2⟩ := C25_welford_variance xs
  simp [welfordVariance, h1, h2]

/-- Cross products of two streams (`_welford_cov_cross`). -/
theorem C25_welford_cov_cross (xy : List (α × α)) :
    welfordCovCross xy = ((xy.map Prod.fst).sum / xy.length, (xy.map Prod.snd).sum / xy.length,
      (xy.map fun p => (p.1 - (xy.map Prod.fst).sum / xy.length) *
        (p.2 - (xy.map Prod.snd).sum / xy.length)).sum) := by
  obtain ⟨mx, my, P, h1, h2, h3, h4⟩ := cross_inv
    (fun (st : ℕ × α × α × α) p =>
      let i1 : α := ((st.1 + 1 : ℕ) : α)
      let dx := p.1 - st.2.1
      let xm := st.2.1 + dx / i1
      let ym := st.2.2.1 + (p.2 - st.2.2.1) / i1
      let dy := p.2 - ym
      (st.1 + 1, xm, ym, st.2.2.2 + dx * dy))
    (by
      intro n mx my P x y
      have hn : ((n : α) + 1) ≠ 0 := by exact_mod_cast Nat.succ_ne_zero n
      simp only [Nat.cast_add, Nat.cast_one, Prod.mk.injEq, true_and]
      field_simp
      ring) xy
  unfold welfordCovCross
  rw [h1]
  rcases Nat.eq_zero_or_pos xy.length with h0 | hpos
  · have : xy = [] := List.length_eq_zero_iff.1 h0
    subst this; simp at h1 h4; obtain ⟨rfl, rfl, rfl⟩ := h1; simp
  · have hn : (xy.length : α) ≠ 0 := by exact_mod_cast hpos.ne'
    have e1 : mx = (xy.map Prod.fst).sum / xy.length := by rw [eq_div_iff hn, mul_comm, h2]
    have e2 : my = (xy.map Prod.snd).sum / xy.length := by rw [eq_div_iff hn, mul_comm, h3]
    rw [← e1, ← e2, sum_cross_dev xy mx my h2 h3, ← h4]

/-- Cross products of two columns of one array (`_welford_cov`). -/
theorem C25_welford_cov (xy : List (α × α)) :
    welfordCov xy = ((xy.map Prod.fst).sum / xy.length, (xy.map Prod.snd).sum / xy.length,
      (xy.map fun p => (p.1 - (xy.map Prod.fst).sum / xy.length) *
        (p.2 - (xy.map Prod.snd).sum / xy.length)).sum) := by
  obtain ⟨mx, my, P, h1, h2, h3, h4⟩ := cross_inv
    (fun (st : ℕ × α × α × α) p =>
      let i1 : α := ((st.1 + 1 : ℕ) : α)
      let da := p.1 - st.2.1
      let db := p.2 - st.2.2.1
      (st.1 + 1, st.2.1 + da / i1, st.2.2.1 + db / i1,
        st.2.2.2 + da * db * (st.1 : α) / i1))
    (by
      intro n mx my P x y
      simp only [Nat.cast_add, Nat.cast_one]) xy
  unfold welfordCov
  rw [h1]
  rcases Nat.eq_zero_or_pos xy.length with h0 | hpos
  · have : xy = [] := List.length_eq_zero_iff.1 h0
    subst this; simp at h1 h4; obtain ⟨rfl, rfl, rfl⟩ := h1; simp
  · have hn : (xy.length : α) ≠ 0 := by exact_mod_cast hpos.ne'
    have e1 : mx = (xy.map Prod.fst).sum / xy.length := by rw [eq_div_iff hn, mul_comm, h2]
    have e2 : my = (xy.map Prod.snd).sum / xy.length := by rw [eq_div_iff hn, mul_comm, h3]
    rw [← e1, ← e2, sum_cross_dev xy mx my h2 h3, ← h4]

example : welfordVariance ([1, 2, 6] : List ℚ) true = (3, 7) := by
  rw [(C25_welford_variance_scaled ([1, 2, 6] : List ℚ)).2]; norm_num

/-! ## C61: welford_variance along an axis -/

omit [CharZero α] in
/-- Axis 0 and axis 1: output position `t` sees the entries whose index is `t` with the running
index inserted at `axis`, in order. -/
theorem C61_welford_axis_partial (arr : List ℕ → α) (n : ℕ) (t : List ℕ) (axis : ℕ)
    (ha : axis ≤ 1) (ht : axis ≤ t.length) :
    axisStream arr axis n t =
      (List.range n).map fun i => arr (t.take axis ++ i :: t.drop axis) := by
  unfold axisStream
  apply List.map_congr_left
  intro i _
  congr 1
  rcases Nat.le_one_iff_eq_zero_or_eq_one.1 ha with rfl | rfl
  · simp [swapIdx]
  · cases t with
    | nil => simp at ht
    | cons a t => simp [swapIdx]

/-- Axis 2 of a three-dimensional array: the first two indices come out transposed. -/
theorem C61_welford_axis_violated :
    ∃ (arr : List ℕ → ℚ) (n : ℕ) (t : List ℕ),
      (welfordVarianceLoop (axisStream arr 2 n t)).1 ≠
        ((List.range n).map fun i => arr (t.take 2 ++ i :: t.drop 2)).sum / n := by
  refine ⟨fun idx => idx.getD 0 0, 1, [0, 1], ?_⟩
  simp [axisStream, swapIdx, welfordVarianceLoop, welfordUpdate]

omit [CharZero α] in
/-- The mean vector of the two-array form lists the second array's means first. -/
theorem C61_welford_cov_mean_order (m1 m2 : List α) (i : ℕ) (hi : i < m2.length) :
    (welfordCovMean m1 m2)[i]? = m2[i]? := by
  rw [welfordCovMean, List.getElem?_append_left hi]

example : axisStream (fun idx => ((idx.foldl (fun a d => 10 * a + d) 0 : ℕ) : ℚ)) 1 3 [4, 5] =
    [405, 415, 425] := by
  norm_num [axisStream, swapIdx, List.range_succ]

end welford

/-! ## C57: dummy coding -/

/-- With the default categories every row of the full-rank coding has exactly one `1`, in the
column of its value. -/
theorem C57_dummy_rows (x : List ℕ) (r : ℕ) (hr : r < x.length) :
    (∀ c, c < (levels x).length →
      (dummyEntry true x (levels x) r c = 1 ↔ (levels x)[c]? = some x[r])) ∧
    ∑ c ∈ Finset.range (dummyCols true (levels x)), dummyEntry true x (levels x) r c = 1 := by
  have hent : ∀ c, c < (levels x).length →
      dummyEntry true x (levels x) r c = if (levels x)[c]? = some x[r] then 1 else 0 := by
    intro c hc
    unfold dummyEntry
    apply if_congr _ rfl rfl
    simp only [dummyCols, if_true, hc, hr, true_and, List.getElem?_eq_getElem hr]
    exact eq_comm
  refine ⟨fun c hc => by rw [hent c hc]; split_ifs <;> simp_all, ?_⟩
  have hmem : x[r] ∈ levels x := (mem_levels x _).2 (List.getElem_mem hr)
  have hlt := List.idxOf_lt_length_iff.2 hmem
  simp only [dummyCols, if_true]
  rw [Finset.sum_eq_single ((levels x).idxOf x[r])]
  · rw [hent _ hlt, if_pos]
    rw [List.getElem?_eq_getElem hlt, List.getElem_idxOf hlt]
  · intro c hc hne
    have hc := Finset.mem_range.1 hc
    rw [hent c hc, if_neg]
    intro h
    rw [List.getElem?_eq_getElem hc, Option.some.injEq] at h
    exact hne (by rw [← h, List.Nodup.idxOf_getElem (levels_nodup x)])
  · intro h; exact absurd (Finset.mem_range.2 hlt) h

/-- `fullrank=False` only drops the last column. -/
theorem C57_dummy_reduced (x cats : List ℕ) (r c : ℕ) (hc : c < dummyCols false cats) :
    dummyEntry false x cats r c = dummyEntry true x cats r c ∧
    dummyCols false cats = cats.length - 1 := by
  have hc' : c < dummyCols true cats := by
    simp [dummyCols] at hc ⊢; omega
  refine ⟨?_, by simp [dummyCols]⟩
  unfold dummyEntry
  simp [hc, hc']

/-- With the default categories the sparse coding is defined and equals the dense one. -/
theorem C57_dummy_encode (x : List ℕ) :
    ∃ f, dummyEncode x (levels x) = some f ∧
      ∀ r c, r < x.length → c < (levels x).length → f r c = dummyEntry true x (levels x) r c := by
  have hl : (dummyEncodeIdx x (levels x)).length = x.length := by
    rw [dummyIdx_length _ _ (levels_nodup x), List.filter_eq_self.2, ]
    intro a ha
    simpa using (mem_levels x a).2 ha
  refine ⟨_, by rw [dummyEncode, if_pos hl], fun r c hr hc => ?_⟩
  rw [count_dummyIdx x _ r c hr hc]
  unfold dummyEntry
  simp [dummyCols, hr, hc]

/-- If a value is missing from the categories, the data and index lengths differ: an error. -/
theorem C57_dummy_encode_missing (x cats : List ℕ) (hc : cats.Nodup) (v : ℕ) (hv : v ∈ x)
    (hvc : v ∉ cats) : dummyEncode x cats = none := by
  rw [dummyEncode, if_neg]
  rw [dummyIdx_length _ _ hc]
  intro h
  have := List.length_filter_eq_length_iff.1 h v hv
  simp at this
  exact hvc this

example : dummyEncodeIdx [5, 3, 5] (levels [5, 3, 5]) = [(1, 0), (0, 1), (2, 1)] := by decide

/-! ## C58: sign changes -/

/-- If the signs change at all, the result is the last position before the first change. -/
theorem C58_sign_change (x b y : ℤ) (pre post : List ℤ)
    (hpre : ∀ z ∈ pre, sgn z b = sgn x b) (hy : sgn y b ≠ sgn x b) :
    signChange (x :: (pre ++ y :: post)) b = some pre.length := by
  have hne : pre ++ y :: post ≠ [] := by simp
  obtain ⟨w, ws, hw⟩ := List.exists_cons_of_ne_nil hne
  rw [hw, signChange, ← hw]
  · rw [signLoop_found _ _ _ _ _ hpre hy]; simp
  · simp

/-- If they do not, the result is the last position but one (indistinguishable from a change
before the last element). -/
theorem C58_sign_change_none (x b : ℤ) (l : List ℤ) (hl : l ≠ [])
    (h : ∀ z ∈ l, sgn z b = sgn x b) : signChange (x :: l) b = some (l.length - 1) := by
  obtain ⟨w, ws, rfl⟩ := List.exists_cons_of_ne_nil hl
  rw [signChange]
  · rw [signLoop_none _ _ _ h, List.length_cons, Option.some.injEq]; omega
  · simp

/-- `_kth_sign_change_1d` with `k = 1` is the first change (also through `sign_change`). -/
theorem C58_kth_first_partial (x b y : ℤ) (pre post : List ℤ)
    (hpre : ∀ z ∈ pre, sgn z b = sgn x b) (hy : sgn y b ≠ sgn x b) :
    kthSignChange (x :: (pre ++ y :: post)) b 1 = some pre.length := by
  have hne : pre ++ y :: post ≠ [] := by simp
  obtain ⟨w, ws, hw⟩ := List.exists_cons_of_ne_nil hne
  rw [hw, kthSignChange, ← hw]
  · rw [kthLoop_found _ _ _ _ _ _ _ _ _ hy (by omega)]
    · simp
    · have : (pre.filter fun z => decide (sgn z b ≠ sgn x b)) = [] := by
        rw [List.filter_eq_nil_iff]; intro z hz; simpa using hpre z hz
      rw [this]; rfl
  · simp

/-- What the code computes for general `k`: the position before the `k`-th element whose sign
differs from that of the first element. -/
theorem C58_kth_counts_elements (x b y : ℤ) (k : ℕ) (pre post : List ℤ)
    (hk : (pre.filter fun z => decide (sgn z b ≠ sgn x b)).length + 1 = k)
    (hy : sgn y b ≠ sgn x b) :
    kthSignChange (x :: (pre ++ y :: post)) b k = some pre.length := by
  have hne : pre ++ y :: post ≠ [] := by simp
  obtain ⟨w, ws, hw⟩ := List.exists_cons_of_ne_nil hne
  rw [hw, kthSignChange, ← hw]
  · rw [kthLoop_found _ _ _ _ _ _ _ _ (by omega) hy (by omega)]; simp
  · simp

/-- The positions just before each sign change between neighbours. -/
def changes (arr : List ℤ) (b : ℤ) : List ℕ :=
  (List.range (arr.length - 1)).filter fun i =>
    decide (sgn (arr.getD i 0) b ≠ sgn (arr.getD (i + 1) 0) b)

/-- Second sign change of `1, -1, -1, 1`: it is after position 2, the code says 1. -/
theorem C58_kth_violated :
    ∃ arr : List ℤ, (changes arr 0)[1]? = some 2 ∧ kthSignChange arr 0 2 = some 1 :=
  ⟨[1, -1, -1, 1], by decide, by decide⟩

example : signChange [2, 3, -1, 4] 0 = some 1 ∧ changes [2, 3, -1, 4] 0 = [1, 2] := by decide

/-! ## C59: contingency tables -/

/-- Expanding a table whose every level occurs and tabulating again returns the table. -/
theorem C59_crosstab_roundtrip_partial (shape : List ℕ) (table : List ℕ → ℕ)
    (hpos : ∀ d (hd : d < shape.length), ∀ v < shape[d],
      ∃ r ∈ ndindex shape, r[d]? = some v ∧ 0 < table r) :
    (crossTabulate shape.length (expandCrosstab shape table)).1 = shape ∧
    (crossTabulate shape.length (expandCrosstab shape table)).2.2 = shape.map List.range ∧
    ∀ idx ∈ ndindex shape,
      (crossTabulate shape.length (expandCrosstab shape table)).2.1 idx = table idx := by
  have hlev : tabLevels shape.length (expandCrosstab shape table) = shape.map List.range := by
    apply List.ext_getElem
    · simp [tabLevels]
    · intro d h1 h2
      have hd : d < shape.length := by simpa using h2
      simp only [tabLevels, List.getElem_map, List.getElem_range]
      apply levels_eq_range
      intro v
      simp only [column, List.mem_map]
      constructor
      · rintro ⟨r, hr, rfl⟩
        obtain ⟨h3, _⟩ := (mem_expand shape table r).1 hr
        have h4 := (mem_ndindex shape r).1 h3
        have hl := h4.length_eq
        rw [List.getD_eq_getElem _ _ (by omega)]
        exact (List.forall₂_iff_get.1 h4).2 d (by omega) hd
      · intro hv
        obtain ⟨r, hr, h3, h4⟩ := hpos d hd v hv
        refine ⟨r, (mem_expand shape table r).2 ⟨hr, h4⟩, ?_⟩
        rw [List.getD_eq_getElem?_getD, h3]; rfl
  unfold crossTabulate
  simp only [hlev]
  refine ⟨?_, trivial, ?_⟩
  · rw [List.map_map]
    conv_rhs => rw [← List.map_id shape]
    exact List.map_congr_left (fun s _ => by simp)
  · intro idx hidx
    have : (expandCrosstab shape table).map (levelIndex (shape.map List.range)) =
        expandCrosstab shape table := by
      conv_rhs => rw [← List.map_id (expandCrosstab shape table)]
      apply List.map_congr_left
      intro r hr
      exact levelIndex_range shape r ((mem_ndindex shape r).1 ((mem_expand shape table r).1 hr).1)
    rw [this]
    exact count_flatMap_replicate _ (ndindex_nodup shape) table idx hidx

/-- The number of expanded rows is the table total. -/
theorem C59_expand_length (shape : List ℕ) (table : List ℕ → ℕ) :
    (expandCrosstab shape table).length = ((ndindex shape).map table).sum := by
  unfold expandCrosstab
  rw [List.length_flatMap]
  congr 1
  exact List.map_congr_left (fun r _ => by simp)

/-- A table with an empty row does not come back: the row is lost. -/
theorem C59_crosstab_violated :
    ∃ (shape : List ℕ) (table : List ℕ → ℕ),
      (crossTabulate shape.length (expandCrosstab shape table)).1 ≠ shape :=
  ⟨[2, 2], fun r => if r = [0, 0] then 1 else if r = [0, 1] then 2 else 0, by decide⟩

example : ∀ d (hd : d < [2, 2].length), ∀ v < [2, 2][d],
    ∃ r ∈ ndindex [2, 2], r[d]? = some v ∧ 0 < (fun r => if r = [0, 1] then 2 else
      if r = [1, 0] then 3 else 0) r := by decide

/-! ## C60: centring, scaling, correlation -/

section stats
variable (n : ℕ) (X Y : ℕ → ℕ → ℝ)

/-- Centred columns have mean zero. -/
theorem C60_center_mean (hn : 0 < n) (j : ℕ) : colMean n (center n X) j = 0 := by
  have h : (n : ℝ) ≠ 0 := by exact_mod_cast hn.ne'
  unfold colMean center
  rw [Finset.sum_sub_distrib, Finset.sum_const, Finset.card_range, nsmul_eq_mul]
  unfold colMean
  field_simp
  ring

theorem colStd_center (hn : 0 < n) (j : ℕ) : colStd n (center n X) j = colStd n X j := by
  unfold colStd
  rw [C60_center_mean n X hn]
  simp [center]

/-- Both standardisation routes agree: `csd`, `_csd`, and the arrays inside `corr`. -/
theorem C60_csd_eq (hn : 0 < n) (i j : ℕ) :
    csd n X i j = (X i j - colMean n X j) / colStd n X j ∧
    csd' n X i j = (X i j - colMean n X j) / colStd n X j ∧
    standardize n (center n X) i j = (X i j - colMean n X j) / colStd n X j := by
  refine ⟨?_, ?_, ?_⟩
  · have h : (n : ℝ) ≠ 0 := by exact_mod_cast hn.ne'
    simp only [csd, center, standardize, colMean]
    rw [← Finset.sum_div]
    ring
  · simp only [csd', colStd, pow_two]
  · rw [standardize, colStd_center n X hn]; rfl

/-- Standardised columns have mean zero and mean square one, for a column that is not constant. -/
theorem C60_csd_moments (hn : 0 < n) (j : ℕ) (hs : colStd n X j ≠ 0) :
    colMean n (csd n X) j = 0 ∧ (∑ i ∈ Finset.range n, csd n X i j ^ 2) / n = 1 := by
  have h : (n : ℝ) ≠ 0 := by exact_mod_cast hn.ne'
  refine ⟨C60_center_mean n _ hn j, ?_⟩
  have hsq : colStd n X j ^ 2 = (∑ i ∈ Finset.range n, (X i j - colMean n X j) ^ 2) / n := by
    unfold colStd
    rw [Real.sq_sqrt]
    exact div_nonneg (Finset.sum_nonneg (fun i _ => sq_nonneg _)) (Nat.cast_nonneg n)
  simp only [(C60_csd_eq n X hn _ j).1, div_pow]
  rw [← Finset.sum_div, div_div, mul_comm, ← div_div, ← hsq, div_self (pow_ne_zero 2 hs)]

/-- `corr` (and `corr_nb`) is `cov` rescaled by the standard deviations, and has a unit
diagonal. -/
theorem C60_corr_eq (hn : 0 < n) (a b : ℕ) :
    corr n X Y a b = cov n X Y a b / (colStd n X a * colStd n Y b) ∧
    corrNb n X a b = corr n X X a b ∧ covNb n X a b = cov n X X a b := by
  refine ⟨?_, ?_, rfl⟩
  · unfold corr cov
    simp only [(C60_csd_eq n X hn _ a).2.2, (C60_csd_eq n Y hn _ b).2.2, center]
    rw [div_div, mul_comm (n : ℝ), ← div_div]
    congr 1
    rw [Finset.sum_div]
    apply Finset.sum_congr rfl
    intro i _
    rw [div_mul_div_comm]
  · unfold corrNb corr
    simp only [(C60_csd_eq n X hn _ _).1, (C60_csd_eq n X hn _ _).2.2]

/-- Unit diagonal of the correlation matrix. -/
theorem C60_corr_diag (hn : 0 < n) (a : ℕ) (hs : colStd n X a ≠ 0) : corr n X X a a = 1 := by
  have := (C60_csd_moments n X hn a hs).2
  rw [← (C60_corr_eq n X X hn a a).2.1]
  unfold corrNb
  simpa [pow_two] using this

/-- Covariances are symmetric and the covariance of a column with itself is the squared standard
deviation. -/
theorem C60_cov_symm (a b : ℕ) :
    covNb n X a b = covNb n X b a ∧ covNb n X a a = colStd n X a ^ 2 := by
  refine ⟨by unfold covNb; simp only [mul_comm], ?_⟩
  unfold covNb colStd center
  rw [Real.sq_sqrt]
  · simp only [pow_two]
  · exact div_nonneg (Finset.sum_nonneg (fun i _ => sq_nonneg _)) (Nat.cast_nonneg n)

/-- `norm_diag` has a unit diagonal, keeps symmetry, and turns a covariance into a
correlation. -/
theorem C60_norm_diag (A : ℕ → ℕ → ℝ) (i j : ℕ) (hi : 0 < A i i) (hj : 0 < A j j) :
    normDiag A i i = 1 ∧ normDiag A i j = A i j / (Real.sqrt (A i i) * Real.sqrt (A j j)) := by
  have key : ∀ i j, 0 < A i i → 0 < A j j →
      normDiag A i j = A i j / (Real.sqrt (A i i) * Real.sqrt (A j j)) := by
    intro i j hi hj
    have h1 := (Real.sqrt_pos.2 hi).ne'
    have h2 := (Real.sqrt_pos.2 hj).ne'
    unfold normDiag scaleDiag
    dsimp only
    rw [Real.sqrt_div zero_le_one, Real.sqrt_div zero_le_one, Real.sqrt_one]
    field_simp
  refine ⟨?_, key i j hi hj⟩
  rw [key i i hi hi, Real.mul_self_sqrt hi.le, div_self hi.ne']

/-- `corr(X)` is `norm_diag(cov(X))`. -/
theorem C60_corr_norm_diag (hn : 0 < n) (a b : ℕ) (ha : colStd n X a ≠ 0)
    (hb : colStd n X b ≠ 0) : corr n X X a b = normDiag (covNb n X) a b := by
  have h1 : ∀ c, colStd n X c ≠ 0 → 0 < covNb n X c c := by
    intro c hc
    rw [(C60_cov_symm n X c c).2]; positivity
  have h2 : ∀ c, Real.sqrt (covNb n X c c) = colStd n X c := by
    intro c
    rw [(C60_cov_symm n X c c).2, Real.sqrt_sq (by unfold colStd; exact Real.sqrt_nonneg _)]
  rw [(C60_norm_diag (covNb n X) a b (h1 a ha) (h1 b hb)).2, h2, h2,
    (C60_corr_eq n X X hn a b).1]
  rfl

/-- `normalize_xtrx`: `diag(X' R X) = 1` where the quadratic form is positive. -/
theorem C60_normalize_xtrx (R : ℕ → ℕ → ℝ) (j : ℕ)
    (hw : 0 < ∑ i ∈ Finset.range n, ∑ k ∈ Finset.range n, X i j * R i k * X k j) :
    ∑ i ∈ Finset.range n, ∑ k ∈ Finset.range n,
      normalizeXtrx n X R i j * R i k * normalizeXtrx n X R k j = 1 := by
  unfold normalizeXtrx
  set w := ∑ i ∈ Finset.range n, ∑ k ∈ Finset.range n, X i j * R i k * X k j with hwd
  have h : ∀ i k, X i j / Real.sqrt w * R i k * (X k j / Real.sqrt w) =
      X i j * R i k * X k j / w := by
    intro i k
    rw [show X i j / Real.sqrt w * R i k * (X k j / Real.sqrt w) =
      X i j * R i k * X k j / (Real.sqrt w * Real.sqrt w) by ring, Real.mul_self_sqrt hw.le]
  simp only [h, ← Finset.sum_div, ← hwd]
  exact div_self hw.ne'

/-- `flip_signs`: only signs change, the entry of largest modulus becomes non-negative, and a
second application (same `argmax`) changes nothing. -/
theorem C60_flip_signs (V : ℕ → ℕ → ℝ) (j : ℕ → ℕ) (c : ℕ) (hnz : V (j c) c ≠ 0) :
    (∀ i, |flipSigns V j i c| = |V i c|) ∧ 0 < flipSigns V j (j c) c ∧
    ∀ i, flipSigns (flipSigns V j) j i c = flipSigns V j i c := by
  unfold flipSigns Verif.Func.npSign
  rcases lt_or_gt_of_ne hnz with h | h
  · simp only [h, if_true]
    refine ⟨fun i => by simp, by linarith, fun i => ?_⟩
    rw [if_neg (by linarith), if_neg (by linarith)]; ring
  · simp only [if_neg h.le.not_gt, if_neg h.ne']
    refine ⟨fun i => by simp, by linarith, fun i => ?_⟩
    rw [if_neg (by linarith), if_neg (by linarith)]; ring

example : colStd 2 (fun i _ => (i : ℝ)) 0 ≠ 0 := by
  unfold colStd colMean
  norm_num [Finset.sum_range_succ]

end stats

/-! ## C62: extremal_indices -/

/-- For `1 ≤ n ≤ len` the `n` returned positions are distinct and hold values no smaller than any
other position. -/
theorem C62_extremal_largest_partial {α : Type*} [LE α] (a : ℕ → α) (len n : ℕ) (p : List ℕ)
    (hn : 1 ≤ n) (hl : n ≤ len) (hp : IsArgpartition a len (len - n) p) :
    (extremalIndices p n true).length = n ∧ (extremalIndices p n true).Nodup ∧
    ∀ i < len, i ∉ extremalIndices p n true → ∀ j ∈ extremalIndices p n true, a i ≤ a j := by
  have hlen : p.length = len := by simpa using hp.1.length_eq
  have he : extremalIndices p n true = p.drop (len - n) := by
    simp only [extremalIndices, if_true]
    rw [if_neg (by omega), hlen]
  rw [he]
  refine ⟨by rw [List.length_drop]; omega,
    (hp.1.nodup_iff.2 List.nodup_range).sublist (List.drop_sublist _ _), ?_⟩
  intro i hi hni j hj
  refine hp.2 i ?_ j hj
  have : i ∈ p := hp.1.mem_iff.2 (by simpa using hi)
  rw [← List.take_append_drop (len - n) p, List.mem_append] at this
  exact this.resolve_right hni

/-- Smallest `n`. -/
theorem C62_extremal_smallest {α : Type*} [LE α] (a : ℕ → α) (len n : ℕ) (p : List ℕ)
    (hl : n < len) (hp : IsArgpartition a len n p) :
    (extremalIndices p n false).length = n ∧ (extremalIndices p n false).Nodup ∧
    ∀ i < len, i ∉ extremalIndices p n false → ∀ j ∈ extremalIndices p n false, a j ≤ a i := by
  have hlen : p.length = len := by simpa using hp.1.length_eq
  have he : extremalIndices p n false = p.take n := by simp [extremalIndices]
  rw [he]
  refine ⟨by rw [List.length_take]; omega,
    (hp.1.nodup_iff.2 List.nodup_range).sublist (List.take_sublist _ _), ?_⟩
  intro i hi hni j hj
  refine hp.2 j hj i ?_
  have : i ∈ p := hp.1.mem_iff.2 (by simpa using hi)
  rw [← List.take_append_drop n p, List.mem_append] at this
  exact this.resolve_left hni

/-- The largest zero entries: every position is returned. -/
theorem C62_extremal_zero_violated :
    ∃ (a : ℕ → ℕ) (p : List ℕ), IsArgpartition a 3 3 p ∧ IsArgpartition a 3 0 p ∧
      (extremalIndices p 0 true).length ≠ 0 :=
  ⟨fun i => i, [0, 1, 2], ⟨by decide, by decide⟩, ⟨by decide, by decide⟩, by decide⟩

example : IsArgpartition (fun i => [5, 1, 4].getD i 0) 3 1 [1, 2, 0] := ⟨by decide, by decide⟩

end Verif.Data
