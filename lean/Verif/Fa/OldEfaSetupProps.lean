import Verif.Fa.OldEfaSetup
import Mathlib.LinearAlgebra.Matrix.Notation
import Mathlib.Analysis.Matrix.Order
/-! # C191: setup and presentation of `pyfa/efa.py` and `pyfa/factor_analysis.py` -/
namespace Verif.Fa.Old
open Matrix

variable {p m : ℕ}

/-- C191: data alone, or covariances with a sample size, are accepted. -/
theorem C191_inputs_partial : processData true false false = some .fromData ∧ processData true false true = some .fromData ∧
    processData false true true = some .fromCov := by decide

/-- C191: data together with covariances raise for an unbound name, like covariances without a sample size. -/
theorem C191_inputs_violated : processData true true true = none ∧ processData true true false = none ∧ processData false true false = none := by decide

/-! ## Number of factors -/

theorem filter_range (n k : ℕ) (P : ℕ → Bool) (hk : k ≤ n) (h1 : ∀ i < k, P i = true) (h2 : ∀ i, k ≤ i → i < n → P i = false) :
    ((List.range n).filter P).length = k := by
  obtain ⟨d, rfl⟩ := Nat.exists_eq_add_of_le hk
  rw [List.range_add, List.filter_append, List.filter_eq_self.2 fun a ha => h1 a (List.mem_range.1 ha), List.length_append, List.length_range,
    List.filter_eq_nil_iff.2, List.length_nil, Nat.add_zero]
  intro a ha
  obtain ⟨b, hb, rfl⟩ := List.mem_map.1 ha
  rw [h2 _ (Nat.le_add_right _ _) (Nat.add_lt_add_left (List.mem_range.1 hb) _)]
  exact Bool.false_ne_true

theorem take_sum_mono {u : List ℝ} (hu : ∀ x ∈ u, 0 ≤ x) {a b : ℕ} (h : a ≤ b) : (u.take a).sum ≤ (u.take b).sum := by
  obtain ⟨d, rfl⟩ := Nat.exists_eq_add_of_le h
  rw [List.take_add, List.sum_append]
  have : 0 ≤ ((u.drop a).take d).sum := List.sum_nonneg fun x hx => hu x (List.mem_of_mem_drop (List.mem_of_mem_take hx))
  linarith

/-- C191: `'proportion'` gives the least number of factors that reach the share. -/
theorem C191_proportion {u : List ℝ} (hu : ∀ x ∈ u, 0 ≤ x) (hs : 0 < u.sum) {c : ℝ} (h0 : 0 < c) (h1 : c ≤ 1) :
    let k := nFactorsProp u c
    1 ≤ k ∧ k ≤ u.length ∧ c ≤ (u.take k).sum / u.sum ∧ ∀ l < k, (u.take l).sum / u.sum < c := by
  classical
  have hex : ∃ k, c ≤ (u.take k).sum / u.sum := ⟨u.length, by rw [List.take_length, div_self hs.ne']; exact h1⟩
  have hk := Nat.find_spec hex
  have hmin : ∀ l < Nat.find hex, (u.take l).sum / u.sum < c := fun l hl => not_le.1 (Nat.find_min hex hl)
  have hpos : 1 ≤ Nat.find hex := by
    rcases Nat.eq_zero_or_pos (Nat.find hex) with h | h
    · rw [h] at hk; simp at hk; linarith
    · exact h
  have hle : Nat.find hex ≤ u.length := Nat.find_min' hex (by rw [List.take_length, div_self hs.ne']; exact h1)
  have e : nFactorsProp u c = Nat.find hex := by
    rw [nFactorsProp, filter_range u.length (Nat.find hex - 1) _ (by omega)]
    · omega
    · intro i hi
      exact decide_eq_true ⟨hmin (i + 1) (by omega), hs.ne'⟩
    · intro i hi _
      refine decide_eq_false fun h => absurd h.1 (not_lt.2 (hk.trans ?_))
      exact div_le_div_of_nonneg_right (take_sum_mono hu (by omega)) hs.le
  intro k
  simp only [k, e]
  exact ⟨hpos, hle, hk, hmin⟩

/-- C191: `'eigmin'` gives the leading eigenvalues above the bound. -/
theorem C191_eigmin (u : List ℝ) (hu : u.Pairwise (· ≥ ·)) (c : ℝ) :
    (∀ x ∈ u.take (nFactorsEig u c), c < x) ∧ ∀ x ∈ u.drop (nFactorsEig u c), x ≤ c := by
  induction u with
  | nil => simp
  | cons a u ih =>
    obtain ⟨h1, h2⟩ := List.pairwise_cons.1 hu
    obtain ⟨i1, i2⟩ := ih h2
    by_cases ha : a > c
    · have e : nFactorsEig (a :: u) c = nFactorsEig u c + 1 := by simp [nFactorsEig, ha]
      rw [e, List.take_succ_cons, List.drop_succ_cons]
      exact ⟨fun x hx => (List.mem_cons.1 hx).elim (fun h => h ▸ ha) (i1 x), i2⟩
    · have hall : ∀ x ∈ a :: u, x ≤ c := fun x hx => (List.mem_cons.1 hx).elim (fun h => h ▸ not_lt.1 ha) fun h => (h1 x h).trans (not_lt.1 ha)
      have e : nFactorsEig (a :: u) c = 0 := by
        rw [nFactorsEig, List.filter_eq_nil_iff.2, List.length_nil]
        intro x hx; simpa using hall x hx
      rw [e]
      exact ⟨by simp, by simpa using hall⟩

/-! ## Starting values -/

/-- C191: the starting residual variances of a correlation matrix lie in `[0, 1]`. -/
theorem C191_start_partial (S : Mat p p) (h1 : ∀ i, S i i = 1) (W : Mat p p) (hW : W * Wᵀ = 1) (e : Fin m → Fin p) (he : Function.Injective e) (i : Fin p) :
    0 ≤ psiInit S (of fun a j => W a (e j)) i ∧ psiInit S (of fun a j => W a (e j)) i ≤ 1 := by
  have h2 := congrFun (congrFun hW i) i
  rw [Matrix.mul_apply, Matrix.one_apply_eq] at h2
  simp only [transpose_apply] at h2
  rw [psiInit, Matrix.sub_apply, h1, Matrix.mul_apply]
  simp only [transpose_apply, of_apply]
  have h3 : ∑ j, W i (e j) * W i (e j) ≤ ∑ j, W i j * W i j := by
    rw [← Finset.sum_image (s := Finset.univ) (g := e) (f := fun j => W i j * W i j) fun _ _ _ _ h => he h]
    exact Finset.sum_le_sum_of_subset_of_nonneg (Finset.subset_univ _) fun j _ _ => mul_self_nonneg _
  have h4 : 0 ≤ ∑ j, W i (e j) * W i (e j) := Finset.sum_nonneg fun j _ => mul_self_nonneg _
  constructor <;> linarith

/-- C191: the eigenvectors are not scaled by their eigenvalues, so the starting values of a covariance matrix sum to
`tr(S) - m`: one is negative, and its logarithm `nan`, whenever the variances sum to less than the number of factors. -/
theorem C191_start_violated (S : Mat p p) (V : Mat p m) (hV : Vᵀ * V = 1) (ht : S.trace < m) : ∃ i, psiInit S V i < 0 := by
  have h : ∑ i, psiInit S V i = S.trace - m := by
    have : ∑ i, psiInit S V i = (S - V * Vᵀ).trace := rfl
    rw [this, trace_sub, trace_mul_comm V, hV, trace_one, Fintype.card_fin]
  by_contra hn
  push Not at hn
  have := Finset.sum_nonneg fun i (_ : i ∈ Finset.univ) => hn i
  rw [h] at this
  linarith

example : ∃ (S V : Mat 1 1), Matrix.PosDef S ∧ Vᵀ * V = 1 ∧ S.trace < (1 : ℕ) := by
  refine ⟨diagonal fun _ => 1 / 2, 1, PosDef.diagonal fun _ => by norm_num, by simp, ?_⟩
  simp [Matrix.trace]; norm_num

/-! ## Order and signs -/

theorem npSign_sq {x : ℝ} (h : x ≠ 0) : npSign x * npSign x = 1 := by
  rw [npSign]
  split_ifs with h1 h2
  · norm_num
  · norm_num
  · exact absurd (le_antisymm (not_lt.1 h2) (not_lt.1 h1)) h

theorem npSign_mul (x : ℝ) : npSign x * x = |x| := by
  rw [npSign]
  split_ifs with h1 h2
  · rw [abs_of_neg h1]; ring
  · rw [abs_of_pos h2]; ring
  · rw [le_antisymm (not_lt.1 h2) (not_lt.1 h1)]; simp

/-- C191: `order_loadings` keeps the common covariance and the relation `Phi = TᵀT` when no column of the loadings sums to zero. -/
theorem C191_order_partial (order : Fin m ≃ Fin m) (L : Mat p m) (T Phi : Mat m m) (h0 : ∀ j, ∑ i, L i j ≠ 0) (hP : Phi = Tᵀ * T) :
    orderL order L * orderPhi order L Phi * (orderL order L)ᵀ = L * Phi * Lᵀ ∧ (orderT order L T)ᵀ * orderT order L T = orderPhi order L Phi := by
  have hPt : ∀ a b, Phi a b = Phi b a := fun a b => by
    have : Phiᵀ = Phi := by rw [hP, transpose_mul, transpose_transpose]
    exact congrFun (congrFun this b) a
  constructor
  · ext a b
    simp only [Matrix.mul_apply, transpose_apply, orderL, orderPhi, of_apply, Finset.sum_mul]
    have hs := fun j => npSign_sq (h0 j)
    set sg := fun j => npSign (∑ i, L i j) with hsg
    have e : ∀ i j, L a (order i) * npSign (∑ c, L c i) * (npSign (∑ c, L c i) * Phi (order j) (order i) * npSign (∑ c, L c j)) *
        (L b (order j) * npSign (∑ c, L c j)) = L a (order i) * Phi (order i) (order j) * L b (order j) := fun i j => by
      rw [hPt (order j) (order i)]
      calc _ = (npSign (∑ c, L c i) * npSign (∑ c, L c i)) * (npSign (∑ c, L c j) * npSign (∑ c, L c j)) *
            (L a (order i) * Phi (order i) (order j) * L b (order j)) := by ring
        _ = _ := by rw [hs, hs]; ring
    simp only [e]
    rw [Equiv.sum_comp order fun j => ∑ i, L a (order i) * Phi (order i) j * L b j]
    exact Finset.sum_congr rfl fun j _ => Equiv.sum_comp order fun i => L a i * Phi i j * L b j
  · ext a b
    rw [Matrix.mul_apply]
    simp only [transpose_apply, orderT, orderPhi, of_apply]
    rw [hPt (order b) (order a), hP, Matrix.mul_apply, Finset.mul_sum, Finset.sum_mul]
    exact Finset.sum_congr rfl fun k _ => by rw [transpose_apply]; ring

/-- C191: the matrix `perm_mat` performs the intended change: its loadings are the reordered ones, each column with a
nonnegative sum. -/
theorem C191_perm (order : Fin m ≃ Fin m) (L : Mat p m) (j : Fin m) :
    (∀ i, (L * orderPerm order L) i j = npSign (∑ i, L i (order j)) * L i (order j)) ∧ 0 ≤ ∑ i, (L * orderPerm order L) i j := by
  have h : ∀ i, (L * orderPerm order L) i j = npSign (∑ i, L i (order j)) * L i (order j) := fun i => by
    rw [Matrix.mul_apply, Finset.sum_eq_single (order j)]
    · rw [orderPerm, of_apply, diagonal_apply_eq]; ring
    · intro k _ hk; rw [orderPerm, of_apply, diagonal_apply_ne _ hk, mul_zero]
    · exact fun h => absurd (Finset.mem_univ _) h
  refine ⟨h, ?_⟩
  simp only [h, ← Finset.mul_sum, npSign_mul]
  exact abs_nonneg _

/-- C191: the loadings themselves get the signs of the columns in their old places: with one variable and the loadings
`(2, -1)`, which the increasing order exchanges, both columns come out negative, and not as `L @ perm_mat`. -/
theorem C191_signs_violated : ∃ (L : Mat 1 2) (order : Fin 2 ≃ Fin 2), (∀ i j, i ≤ j → ∑ a, L a (order i) ^ 2 ≤ ∑ a, L a (order j) ^ 2) ∧
    (∀ j, ∑ a, orderL order L a j < 0) ∧ orderL order L ≠ L * orderPerm order L := by
  set L : Mat 1 2 := of fun _ j => if j = 0 then 2 else -1 with hL
  have e0 : ∑ i, L i 0 = 2 := by simp [hL]
  have e1 : ∑ i, L i 1 = -1 := by simp [hL]
  have s0 : npSign (2 : ℝ) = 1 := by rw [npSign, if_neg (by norm_num), if_pos (by norm_num)]
  have s1 : npSign (-1 : ℝ) = -1 := by rw [npSign, if_pos (by norm_num)]
  have v0 : orderL (Equiv.swap 0 1) L 0 0 = -1 := by
    simp only [orderL, of_apply, e0, s0, Equiv.swap_apply_left]; simp [hL]
  have v1 : orderL (Equiv.swap 0 1) L 0 1 = -2 := by
    simp only [orderL, of_apply, e1, s1, Equiv.swap_apply_right]; simp [hL]
  refine ⟨L, Equiv.swap 0 1, fun i j hij => ?_, fun j => ?_, fun h => ?_⟩
  · fin_cases i <;> fin_cases j <;> simp [hL] at hij ⊢
  · rw [Fin.sum_univ_one]
    fin_cases j
    · show orderL (Equiv.swap 0 1) L 0 0 < 0; rw [v0]; norm_num
    · show orderL (Equiv.swap 0 1) L 0 1 < 0; rw [v1]; norm_num
  · have h1 := (C191_perm (Equiv.swap 0 1) L 0).2
    rw [← h, Fin.sum_univ_one, v0] at h1
    norm_num at h1

/-- C191: a column that sums to zero is wiped out, and the covariance it carries is lost. -/
theorem C191_contrast_violated : ∃ L : Mat 2 1, orderL (Equiv.refl _) L * orderPhi (Equiv.refl _) L 1 * (orderL (Equiv.refl _) L)ᵀ = 0 ∧ L * (1 : Mat 1 1) * Lᵀ ≠ 0 := by
  set L : Mat 2 1 := of fun i _ => if i = 0 then 1 else -1 with hL
  have h0 : ∑ i, L i 0 = 0 := by rw [Fin.sum_univ_two]; simp [hL]
  have hz : orderL (Equiv.refl _) L = 0 := by
    ext i j
    have := Subsingleton.elim j 0; subst this
    simp only [orderL, of_apply, h0]; simp [npSign]
  refine ⟨L, by rw [hz, Matrix.zero_mul, Matrix.zero_mul], fun h => ?_⟩
  have := congrFun (congrFun h 0) 0
  rw [Matrix.mul_one, Matrix.mul_apply, Fin.sum_univ_one] at this
  simp [hL] at this

/-- C191: `_reorder_factors` keeps `L = A T` when no sign changes. -/
theorem C191_reorder_partial (order : Fin m ≃ Fin m) (top : Fin m → Fin p) (A : Mat p m) (T : Mat m m)
    (h : ∀ j, 0 < (A * T) (top j) (order j)) : reorderL order top (A * T) = A * reorderT order top (A * T) T := by
  have hs : ∀ j, npSign ((A * T) (top j) (order j)) = 1 := fun j => by rw [npSign, if_neg (not_lt.2 (h j).le), if_pos (h j)]
  ext i j
  simp only [reorderL, reorderT, of_apply, hs, one_mul, mul_one]
  simp only [Matrix.mul_apply, of_apply]

/-- C191: a change of sign goes to a row of `T` instead of a column, so the loadings and the rotation no longer belong together. -/
theorem C191_reorder_violated : ∃ (A T : Mat 2 2) (top : Fin 2 → Fin 2), Tᵀ * T = 1 ∧ (∀ i j, |(A * T) i j| ≤ |(A * T) (top j) j|) ∧
    reorderL (Equiv.refl _) top (A * T) ≠ A * reorderT (Equiv.refl _) top (A * T) T := by
  refine ⟨1, !![3/5, 4/5; -4/5, 3/5], ![1, 0], ?_, fun i j => ?_, fun h => ?_⟩
  · ext i j; fin_cases i <;> fin_cases j <;> simp [Matrix.mul_apply, Fin.sum_univ_two] <;> norm_num
  · fin_cases i <;> fin_cases j <;> simp [abs_div] <;> norm_num
  · have := congrFun (congrFun h 0) 1
    simp [reorderL, reorderT, npSign] at this
    norm_num at this

/-! ## Labels -/

/-- C191: the labels of the correlations are those of the stacked values up to three factors. -/
theorem C191_labels_partial : ∀ m ≤ 3, phiLabels m = veclPos m := by decide

theorem range4 (n : ℕ) : List.range (n + 4) = [0, 1, 2, 3] ++ (List.range n).map (4 + ·) := by
  rw [Nat.add_comm, List.range_add]; rfl

/-- C191: for four or more the third label is `Phi[2][1]`, its value that of `Phi[3][0]`. -/
theorem C191_labels_violated (n : ℕ) : (phiLabels (n + 4))[2]? = some (2, 1) ∧ (veclPos (n + 4))[2]? = some (3, 0) := by
  constructor
  · rw [phiLabels, range4, List.flatMap_append]; rfl
  · rw [veclPos, range4, List.flatMap_append]
    simp

example : phiLabels 4 ≠ veclPos 4 := by decide

end Verif.Fa.Old
