import Verif.Design.Lemmas
import Mathlib.Tactic.NormNum
import Mathlib.Tactic.Positivity
/-!
# Properties of the complex-survey design code: C26, C27, C63
-/
namespace Verif.Design
open Finset

/-! ## Specification: the textbook stratified between-PSU estimator -/

/-- Mean of the PSU totals of a stratum. -/
noncomputable def strMean (keys : List Key) (U : ℕ → ℕ → ℝ) (s : ℤ) (c : ℕ) : ℝ :=
  (∑ k ∈ psus keys s, psuTotal keys U k c) / (psus keys s).card

/-- `(1 - f) n / (n - 1)`, strata with a single PSU contributing nothing. -/
noncomputable def factor (n : ℕ) (f : ℝ) : ℝ := if 1 < n then (1 - f) * n / ((n : ℝ) - 1) else 0

/-- Contribution of one stratum with sampling fraction `f`. -/
noncomputable def strataCov (keys : List Key) (U : ℕ → ℕ → ℝ) (f : ℝ) (s : ℤ) (a b : ℕ) : ℝ :=
  factor (psus keys s).card f *
    ∑ k ∈ psus keys s, (psuTotal keys U k a - strMean keys U s a) *
      (psuTotal keys U k b - strMean keys U s b)

/-! ## C26 -/

/-- C26: on a frame sorted by `(stratum, psu)` the pointer-based in-place loop computes the
stratified between-PSU covariance of the totals. -/
theorem C26_meat_eq (keys : List Key) (hs : keys.Pairwise (· ≤ ·)) (fpc : ℕ → ℝ)
    (U : ℕ → ℕ → ℝ) (a b : ℕ) :
    meat keys fpc U a b =
      ∑ h : Fin (groups (keys.map strOf)).length,
        strataCov keys U (fpc h) (groups (keys.map strOf))[h] a b := by
  have hm : Monotone (buildLayout keys fpc).indStr := fun i j hij => take_sum_mono _ hij
  have hlen : (psuPerStr keys).length = (groups (keys.map strOf)).length := by
    rw [psuPerStr, sizes, List.length_map, strata_eq]
  refine Eq.trans ((covLoop (buildLayout keys fpc) hm _ (buildLayout keys fpc).nStr).2 a b) ?_
  have hn : (buildLayout keys fpc).nStr = (groups (keys.map strOf)).length := hlen
  rw [hn, Finset.sum_range]
  apply Finset.sum_congr rfl
  intro h _
  have hcard := psuPerStr_getD keys h h.2
  have htot : ∀ c, ∑ k' ∈ Ico (sizesToPtr (psuPerStr keys) h)
      (sizesToPtr (psuPerStr keys) (h + 1)),
      (∑ r ∈ Ico (sizesToPtr (obsPerPsu keys) k') (sizesToPtr (obsPerPsu keys) (k' + 1)), U r c) =
      ∑ k ∈ psus keys (groups (keys.map strOf))[h], psuTotal keys U k c := fun c =>
    sum_block keys h h.2 _ (fun k => psuTotal keys U k c) fun k hk => slice_total keys hs U c k hk
  show (∑ k ∈ Ico (sizesToPtr (psuPerStr keys) h) (sizesToPtr (psuPerStr keys) (h + 1)), _) *
    (if 1 < (psuPerStr keys).getD h 0 then (1 - fpc h) * ((psuPerStr keys).getD h 0 : ℕ) /
      ((((psuPerStr keys).getD h 0 : ℕ) : ℝ) - 1) else 0) = _
  rw [hcard, strataCov, mul_comm]
  congr 1
  refine sum_block keys h h.2 _ (fun k =>
    (psuTotal keys U k a - strMean keys U (groups (keys.map strOf))[h] a) *
    (psuTotal keys U k b - strMean keys U (groups (keys.map strOf))[h] b)) ?_
  intro k hk
  show ((∑ r ∈ Ico (sizesToPtr (obsPerPsu keys) k) (sizesToPtr (obsPerPsu keys) (k + 1)), U r a) -
      (∑ k' ∈ Ico (sizesToPtr (psuPerStr keys) h) (sizesToPtr (psuPerStr keys) (h + 1)),
        ∑ r ∈ Ico (sizesToPtr (obsPerPsu keys) k') (sizesToPtr (obsPerPsu keys) (k' + 1)), U r a) /
      (((psuPerStr keys).getD h 0 : ℕ) : ℝ)) *
    ((∑ r ∈ Ico (sizesToPtr (obsPerPsu keys) k) (sizesToPtr (obsPerPsu keys) (k + 1)), U r b) -
      (∑ k' ∈ Ico (sizesToPtr (psuPerStr keys) h) (sizesToPtr (psuPerStr keys) (h + 1)),
        ∑ r ∈ Ico (sizesToPtr (obsPerPsu keys) k') (sizesToPtr (obsPerPsu keys) (k' + 1)), U r b) /
      (((psuPerStr keys).getD h 0 : ℕ) : ℝ)) = _
  rw [htot a, htot b, slice_total keys hs U a k hk, slice_total keys hs U b k hk, hcard]
  rfl

/-- The sorted frame exists for any rows. -/
example : [toLex ((0 : ℤ), (1 : ℤ)), toLex (0, 1), toLex (0, 2), toLex (3, 0), toLex (3, 5)].Pairwise
    (· ≤ ·) := by decide

theorem C26_meat_symm (keys : List Key) (hs : keys.Pairwise (· ≤ ·)) (fpc : ℕ → ℝ)
    (U : ℕ → ℕ → ℝ) (a b : ℕ) : meat keys fpc U a b = meat keys fpc U b a := by
  rw [C26_meat_eq keys hs, C26_meat_eq keys hs]
  apply Finset.sum_congr rfl
  intro h _
  unfold strataCov
  congr 1
  exact Finset.sum_congr rfl fun k _ => mul_comm _ _

theorem factor_nonneg (n : ℕ) (f : ℝ) (hf : f ≤ 1) : 0 ≤ factor n f := by
  unfold factor
  split_ifs with h
  · have h1 : (1 : ℝ) < n := by exact_mod_cast h
    exact div_nonneg (mul_nonneg (by linarith) (by linarith)) (by linarith)
  · exact le_rfl

/-- C26: positive semidefinite when no sampling fraction exceeds one. -/
theorem C26_meat_psd (keys : List Key) (hs : keys.Pairwise (· ≤ ·)) (fpc : ℕ → ℝ)
    (hf : ∀ h, fpc h ≤ 1) (U : ℕ → ℕ → ℝ) (p : ℕ) (x : ℕ → ℝ) :
    0 ≤ ∑ a ∈ range p, ∑ b ∈ range p, x a * meat keys fpc U a b * x b := by
  have h1 : ∑ a ∈ range p, ∑ b ∈ range p, x a * meat keys fpc U a b * x b =
      ∑ h : Fin (groups (keys.map strOf)).length, ∑ a ∈ range p, ∑ b ∈ range p, x a *
        strataCov keys U (fpc h) (groups (keys.map strOf))[h] a b * x b := by
    simp_rw [C26_meat_eq keys hs, Finset.mul_sum, Finset.sum_mul]
    rw [Finset.sum_comm (s := univ)]
    apply Finset.sum_congr rfl
    intro a _
    rw [Finset.sum_comm (s := univ)]
  rw [h1]
  apply Finset.sum_nonneg
  intro h _
  unfold strataCov
  rw [quad (psus keys (groups (keys.map strOf))[h]) (fun k c => psuTotal keys U k c -
    strMean keys U (groups (keys.map strOf))[h] c)]
  exact mul_nonneg (factor_nonneg _ _ (hf h)) (Finset.sum_nonneg fun _ _ => sq_nonneg _)

/-- C26: the group structure really is non-trivial: two strata, one with two PSUs, the meat of
the first being `2 · (1² + 1²)` for totals 1 and 3. -/
example : factor 2 0 = 2 := by norm_num [factor]

/-- C26 (subpopulation): adding rows whose scores are zero (the effect of `subset`, which only
zeroes weights) changes no PSU total. -/
theorem C26_subset_total (keys : List Key) (U : ℕ → ℕ → ℝ) (mask : ℕ → Bool) (k : Key) (c : ℕ) :
    psuTotal keys (fun r c => if mask r then U r c else 0) k c =
      ∑ r ∈ (range keys.length).filter (fun r => keys[r]? = some k ∧ mask r = true), U r c := by
  unfold psuTotal
  rw [Finset.sum_ite, Finset.sum_const_zero, add_zero, Finset.filter_filter]

theorem total_list (rows : List (Key × (ℕ → ℝ))) (k : Key) (c : ℕ) :
    psuTotal (rows.map fun r => r.1) (fun i c => ((rows[i]?).map fun r => r.2 c).getD 0) k c =
      ((rows.filter fun r => r.1 = k).map fun r => r.2 c).sum := by
  unfold psuTotal
  rw [Finset.sum_filter]
  induction rows with
  | nil => simp
  | cons r rows ih =>
    rw [List.map_cons, List.length_cons, Finset.sum_range_succ']
    simp only [List.getElem?_cons_succ, List.getElem?_cons_zero, Option.some.injEq]
    rw [ih, List.filter_cons]
    by_cases h : r.1 = k <;> simp [h, add_comm]

/-- C26: the PSU totals do not depend on the order of the rows: whatever sorted arrangement
`rows'` of the frame `rows` is used, they are the totals over the original rows. -/
theorem C26_row_order (rows rows' : List (Key × (ℕ → ℝ))) (hp : rows'.Perm rows) (k : Key)
    (c : ℕ) :
    psuTotal (rows'.map fun r => r.1) (fun i c => ((rows'[i]?).map fun r => r.2 c).getD 0) k c =
      ((rows.filter fun r => r.1 = k).map fun r => r.2 c).sum := by
  rw [total_list]
  exact ((hp.filter _).map _).sum_eq

/-! ## C27 -/

section agg
variable {υ : Type*}

/-- The row map behind `_aggregate_singletons`. -/
def aggRow (rows : List (ℤ × ℤ × υ)) (r : ℤ × ℤ × υ) : ℤ × ℤ × υ :=
  if r.1 ∈ singletons rows then (maxStr rows + 1, ((singletons rows).idxOf r.1 : ℤ), r.2.2) else r

theorem aggregate_eq_map (rows : List (ℤ × ℤ × υ)) :
    aggregateSingletons rows = rows.map (aggRow rows) := by
  unfold aggregateSingletons
  dsimp only
  split_ifs with h
  · have h0 : singletons rows = [] := List.eq_nil_of_length_eq_zero h
    conv_lhs => rw [← List.map_id rows]
    apply List.map_congr_left
    intro r _
    simp [aggRow, h0]
  · rfl

/-- C27: same number of rows, same payloads (weights, data) in the same order. -/
theorem C27_payload (rows : List (ℤ × ℤ × υ)) :
    (aggregateSingletons rows).map (fun r => r.2.2) = rows.map fun r => r.2.2 := by
  rw [aggregate_eq_map, List.map_map]
  apply List.map_congr_left
  intro r _
  simp only [Function.comp, aggRow]
  split_ifs <;> rfl

/-- C27: rows of strata with two or more PSUs are untouched. -/
theorem C27_others_unchanged (rows : List (ℤ × ℤ × υ)) (i : ℕ) (r : ℤ × ℤ × υ)
    (hi : rows[i]? = some r) (hr : nPsu rows r.1 ≠ 1) :
    (aggregateSingletons rows)[i]? = some r := by
  rw [aggregate_eq_map, List.getElem?_map, hi]
  simp [aggRow, mem_singletons, hr]

/-- C27: rows of single-PSU strata move to one new stratum, different from every old label. -/
theorem C27_moved (rows : List (ℤ × ℤ × υ)) (i : ℕ) (r : ℤ × ℤ × υ)
    (hi : rows[i]? = some r) (hr : nPsu rows r.1 = 1) :
    ∃ q, (aggregateSingletons rows)[i]? = some (maxStr rows + 1, q, r.2.2) ∧
      ∀ r' ∈ rows, r'.1 ≠ maxStr rows + 1 := by
  refine ⟨((singletons rows).idxOf r.1 : ℤ), ?_, fun r' h' => (lt_new rows r' h').ne⟩
  rw [aggregate_eq_map, List.getElem?_map, hi]
  simp [aggRow, mem_singletons, hr]

/-- C27: two rows are in the same PSU afterwards iff they were before: PSUs are neither merged
nor split. -/
theorem C27_psu_partition (rows : List (ℤ × ℤ × υ)) (i j : ℕ) (r r' s s' : ℤ × ℤ × υ)
    (hi : rows[i]? = some r) (hj : rows[j]? = some r')
    (hi' : (aggregateSingletons rows)[i]? = some s)
    (hj' : (aggregateSingletons rows)[j]? = some s') :
    (s.1 = s'.1 ∧ s.2.1 = s'.2.1) ↔ (r.1 = r'.1 ∧ r.2.1 = r'.2.1) := by
  have hrm := List.mem_of_getElem? hi
  have hrm' := List.mem_of_getElem? hj
  rw [aggregate_eq_map, List.getElem?_map, hi] at hi'
  rw [aggregate_eq_map, List.getElem?_map, hj] at hj'
  simp only [Option.map_some, Option.some.injEq] at hi' hj'
  subst hi' hj'
  have hlt := lt_new rows r hrm
  have hlt' := lt_new rows r' hrm'
  unfold aggRow
  split_ifs with h1 h2 h2
  · simp only [true_and, Nat.cast_inj]
    rw [List.idxOf_inj h1]
    constructor
    · intro h
      exact ⟨h, ((nPsu_one rows r.1).1 ((mem_singletons rows r.1).1 h1)).2 r hrm r' hrm' rfl h.symm⟩
    · exact fun h => h.1
  · constructor
    · rintro ⟨h, _⟩; simp only at h; omega
    · rintro ⟨h, _⟩; rw [← h] at h2; exact absurd h1 h2
  · constructor
    · rintro ⟨h, _⟩; simp only at h; omega
    · rintro ⟨h, _⟩; rw [← h] at h2; exact absurd h2 h1
  · rfl

/-- C27: with at least two single-PSU strata, aggregation leaves none. -/
theorem C27_no_singletons (rows : List (ℤ × ℤ × υ)) (h2 : 2 ≤ (singletons rows).length) :
    hasSingletons (aggregateSingletons rows) = false := by
  rw [hasSingletons, List.any_eq_false]
  intro s hs
  simp only [decide_eq_true_eq]
  intro h1
  obtain ⟨⟨q, hq, hqs⟩, hall⟩ := (nPsu_one _ s).1 h1
  rw [aggregate_eq_map] at hq hall
  obtain ⟨r, hr, rfl⟩ := List.mem_map.1 hq
  by_cases hsing : r.1 ∈ singletons rows
  · -- the new stratum holds at least two PSUs
    have hnew : s = maxStr rows + 1 := by rw [← hqs, aggRow, if_pos hsing]
    have g : ∀ i (hi : i < (singletons rows).length), ∃ q ∈ rows.map (aggRow rows),
        q.1 = s ∧ q.2.1 = (i : ℤ) := by
      intro i hi
      have hm := List.getElem_mem hi
      obtain ⟨⟨t, ht, hts⟩, _⟩ := (nPsu_one rows _).1 ((mem_singletons rows _).1 hm)
      refine ⟨aggRow rows t, List.mem_map_of_mem ht, ?_⟩
      have : t.1 ∈ singletons rows := by rw [hts]; exact hm
      rw [aggRow, if_pos this]
      refine ⟨hnew.symm, ?_⟩
      simp only
      rw [hts, (singletons_nodup rows).idxOf_getElem]
    obtain ⟨q0, hq0, a0, b0⟩ := g 0 (by omega)
    obtain ⟨q1, hq1, a1, b1⟩ := g 1 (by omega)
    have := hall q0 hq0 q1 hq1 a0 a1
    rw [b0, b1] at this
    simp at this
  · have hrs : r.1 = s := by rw [← hqs, aggRow, if_neg hsing]
    apply hsing
    rw [mem_singletons, nPsu_one]
    refine ⟨⟨r, hr, rfl⟩, ?_⟩
    intro t ht t' ht' e e'
    have k1 : aggRow rows t = t := by rw [aggRow, if_neg (by rw [e]; exact hsing)]
    have k2 : aggRow rows t' = t' := by rw [aggRow, if_neg (by rw [e']; exact hsing)]
    have := hall (aggRow rows t) (List.mem_map_of_mem ht) (aggRow rows t')
      (List.mem_map_of_mem ht') (by rw [k1, e, hrs]) (by rw [k2, e', hrs])
    rwa [k1, k2] at this

end agg

example : singletons [((1 : ℤ), (4 : ℤ), 'a'), (2, 4, 'b'), (2, 4, 'c'), (3, 0, 'd'), (3, 1, 'e')] =
    [1, 2] := by decide

example : aggregateSingletons [((1 : ℤ), (4 : ℤ), 'a'), (2, 4, 'b'), (2, 4, 'c'), (3, 0, 'd'),
    (3, 1, 'e')] = [(4, 0, 'a'), (4, 1, 'b'), (4, 1, 'c'), (3, 0, 'd'), (3, 1, 'e')] := by decide

/-- C27: the guard is needed: a lone single-PSU stratum is renamed but stays single, so the
"aggregate" policy leaves a singleton behind (its variance contribution is then zeroed). -/
theorem C27_single_remains_violated :
    hasSingletons (aggregateSingletons [((1 : ℤ), (4 : ℤ), 'a'), (3, 0, 'd'), (3, 1, 'e')]) =
      true := by decide

/-! ## C63: weighted least squares scores and the sandwich -/

section wls
open Matrix
variable {n p : Type*} [Fintype n] [Fintype p] [DecidableEq p]

/-- C63: at the WLS solution the score contributions sum to zero (the normal equations). -/
theorem C63_scores_sum_zero (X : Matrix n p ℝ) (w y : n → ℝ)
    (hdet : IsUnit (X.transpose * Matrix.of fun i j => X i j * w i).det) (j : p) :
    ∑ i, wlsScore X w y i j = 0 := by
  set W : Matrix n p ℝ := Matrix.of fun i j => X i j * w i with hW
  have h1 : (Xᵀ * W)ᵀ = Wᵀ * X := by rw [Matrix.transpose_mul, Matrix.transpose_transpose]
  have hsym : Wᵀ * X = Xᵀ * W := by
    ext a b
    simp only [Matrix.mul_apply, Matrix.transpose_apply, hW, Matrix.of_apply]
    exact Finset.sum_congr rfl fun i _ => by ring
  have h2 : (Wᵀ * X).mulVec (wlsBeta X w y) = Wᵀ.mulVec y := by
    unfold wlsBeta wlsBread
    rw [hsym, Matrix.mulVec_mulVec, Matrix.mul_nonsing_inv _ hdet, Matrix.one_mulVec]
  have h3 : ∑ i, wlsScore X w y i j =
      Wᵀ.mulVec y j - Wᵀ.mulVec (X.mulVec (wlsBeta X w y)) j := by
    simp only [wlsScore, Matrix.mulVec, dotProduct, Matrix.of_apply, Matrix.transpose_apply, hW]
    rw [← Finset.sum_sub_distrib]
    exact Finset.sum_congr rfl fun i _ => by ring
  rw [h3, Matrix.mulVec_mulVec, h2, sub_self]

example : IsUnit ((1 : Matrix (Fin 2) (Fin 2) ℝ).transpose * Matrix.of fun i j =>
    (1 : Matrix (Fin 2) (Fin 2) ℝ) i j * (1 : ℝ)).det := by
  have : (Matrix.of fun i j => (1 : Matrix (Fin 2) (Fin 2) ℝ) i j * (1 : ℝ)) = 1 := by
    ext i j; simp
  rw [this]; simp

/-- C63: the bread is symmetric. -/
theorem C63_bread_symm (X : Matrix n p ℝ) (w : n → ℝ) :
    (wlsBread X w).transpose = wlsBread X w := by
  unfold wlsBread
  rw [Matrix.transpose_nonsing_inv]
  congr 1
  ext a b
  simp only [Matrix.mul_apply, Matrix.transpose_apply, Matrix.of_apply]
  exact Finset.sum_congr rfl fun i _ => by ring

/-- C63: with a symmetric bread, the sandwich of a symmetric positive semidefinite meat is
symmetric positive semidefinite. -/
theorem C63_sandwich_psd (A M : Matrix p p ℝ) (hA : A.transpose = A) (hM : M.transpose = M)
    (hp : ∀ x : p → ℝ, 0 ≤ x ⬝ᵥ M.mulVec x) :
    (sandwich A M).transpose = sandwich A M ∧ ∀ x, 0 ≤ x ⬝ᵥ (sandwich A M).mulVec x := by
  constructor
  · unfold sandwich
    rw [Matrix.transpose_mul, Matrix.transpose_mul, hA, hM, Matrix.mul_assoc]
  · intro x
    unfold sandwich
    rw [← Matrix.mulVec_mulVec, ← Matrix.mulVec_mulVec, Matrix.dotProduct_mulVec,
      ← Matrix.mulVec_transpose, hA]
    exact hp _

end wls

end Verif.Design
