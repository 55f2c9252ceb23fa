import Verif.Indep.Lemmas
import Mathlib.Tactic.FinCases
import Mathlib.Tactic.LinearCombination
import Mathlib.Logic.Equiv.Fin.Basic

/-! # Claim C192: distance correlation -/

namespace Verif.Indep

open Matrix

variable {n m k : ℕ}

/-- `_u_center_biased` is defined for every nonempty matrix; rows and columns of the result sum to zero. -/
theorem C192_center_biased (A : Sq n) (hn : 0 < n) :
    ∃ B, centerBiased A = some B ∧ (∀ i, ∑ j, B i j = 0) ∧ (∀ j, ∑ i, B i j = 0) :=
  ⟨dc A, centerBiased_eq A hn, dc_row A hn, dc_col A hn⟩

/-- `_u_center_unbiased` of a distance matrix of at least three points: symmetric, zero diagonal, rows and columns sum to zero. -/
theorem C192_center_unbiased (X : Fin n → Fin m → ℝ) (hn : 3 ≤ n) :
    ∃ B, centerUnbiased (euclid X) = some B ∧ (∀ i, B i i = 0) ∧ (∀ i j, B i j = B j i) ∧
      (∀ i, ∑ j, B i j = 0) ∧ (∀ j, ∑ i, B i j = 0) :=
  ⟨uc (euclid X), centerUnbiased_eq _ hn, fun i => by simp [uc], uc_symm (euclid_comm X),
    uc_row hn (euclid_comm X) (euclid_self X), uc_col hn (euclid_comm X) (euclid_self X)⟩

/-- The loops of `euclidean_distance` fill the matrix with the Euclidean distances. -/
theorem C192_distance (X : Fin n → Fin m → ℝ) (i j : Fin n) : euclid X i j = Real.sqrt (∑ l, (X i l - X j l) ^ 2) := by
  rw [euclid_eq]; rfl

/-- The inner product of U-centred matrices in terms of the matrices: Székely and Rizzo's formula. -/
theorem C192_inner_product {A B : Sq n} (hn : 3 ≤ n) (hA : ∀ i j, A i j = A j i) (hA0 : ∀ i, A i i = 0)
    (hB : ∀ i j, B i j = B j i) (hB0 : ∀ i, B i i = 0) :
    fro (uc A) (uc B) = fro A B - 2 / (n - 2) * (∑ i, rowSum A i * rowSum B i)
      + (∑ i, rowSum A i) * (∑ i, rowSum B i) / ((n - 1) * (n - 2)) := by
  have h3 : (3:ℝ) ≤ n := by exact_mod_cast hn
  have n1 : (n:ℝ) - 1 ≠ 0 := by linarith
  have n2 : (n:ℝ) - 2 ≠ 0 := by linarith
  have hr : ∀ i, colSum A i = rowSum A i := fun i => Finset.sum_congr rfl fun l _ => hA l i
  have hrB : ∀ i, colSum B i = rowSum B i := fun i => Finset.sum_congr rfl fun l _ => hB l i
  have e1 : fro (uc A) (uc B) = fro A (uc B) := by
    have : ∀ i j, uc A i j * uc B i j = A i j * uc B i j - rowSum A i / (n - 2) * uc B i j - uc B i j * (colSum A j / (n - 2))
        + (∑ l, colSum A l) / ((n - 1) * (n - 2)) * uc B i j := by
      intro i j
      by_cases h : i = j
      · simp [uc, h]
      · have : uc A i j = A i j - rowSum A i / (n - 2) - colSum A j / (n - 2) + (∑ l, colSum A l) / ((n - 1) * (n - 2)) := if_neg h
        rw [this]; ring
    simp only [fro, this, Finset.sum_add_distrib, Finset.sum_sub_distrib, ← Finset.mul_sum, uc_row hn hB hB0, mul_zero,
      Finset.sum_const_zero, sub_zero, add_zero]
    rw [Finset.sum_comm (f := fun i j => uc B i j * (colSum A j / (n - 2)))]
    simp only [← Finset.sum_mul, uc_col hn hB hB0, zero_mul, Finset.sum_const_zero, sub_zero]
  rw [e1]
  have e2 : ∀ i j, A i j * uc B i j = A i j * B i j - A i j * (rowSum B i / (n - 2)) - A i j * (colSum B j / (n - 2))
      + A i j * ((∑ l, colSum B l) / ((n - 1) * (n - 2))) := by
    intro i j
    by_cases h : i = j
    · subst h; simp [hA0]
    · have : uc B i j = B i j - rowSum B i / (n - 2) - colSum B j / (n - 2) + (∑ l, colSum B l) / ((n - 1) * (n - 2)) := if_neg h
      rw [this]; ring
  simp only [fro, e2, Finset.sum_add_distrib, Finset.sum_sub_distrib, ← Finset.sum_mul]
  rw [Finset.sum_comm (f := fun i j => A i j * (colSum B j / (n - 2)))]
  simp only [← Finset.sum_mul]
  have f1 : ∑ i, (∑ j, A i j) * (rowSum B i / (n - 2)) = (∑ i, rowSum A i * rowSum B i) / (n - 2) := by
    rw [Finset.sum_div]; exact Finset.sum_congr rfl fun i _ => by rw [mul_div_assoc]; rfl
  have f2 : ∑ j, (∑ i, A i j) * (colSum B j / (n - 2)) = (∑ i, rowSum A i * rowSum B i) / (n - 2) := by
    rw [Finset.sum_div]; exact Finset.sum_congr rfl fun i _ => by rw [hrB, mul_div_assoc, ← hr]; rfl
  rw [f1, f2]
  simp only [hrB]
  have f3 : ∑ i, ∑ j, A i j = ∑ i, rowSum A i := rfl
  rw [f3]
  field_simp
  ring

/-- The result lies between minus one and one. -/
theorem C192_range (X : Fin n → Fin m → ℝ) (Y : Fin n → Fin k → ℝ) (u : Bool) {r : ℝ} (h : dcorr X Y u = some r) : |r| ≤ 1 := by
  rcases dcorr_none_or X Y u with h0 | h0
  · rw [h0] at h; exact absurd h (by simp)
  · rw [h0] at h
    obtain ⟨h1, h2, h3⟩ := ratio_some h
    have hp : 0 < fro (cen u (euclid X)) (cen u (euclid X)) * fro (cen u (euclid Y)) (cen u (euclid Y)) := mul_pos h1 h2
    rw [h3, abs_div, abs_of_pos (Real.sqrt_pos.2 hp), div_le_one (Real.sqrt_pos.2 hp)]
    exact Real.abs_le_sqrt (fro_cs _ _)

/-- A sample has correlation one with itself (when there is a value). -/
theorem C192_self (X : Fin n → Fin m → ℝ) (u : Bool) {r : ℝ} (h : dcorr X X u = some r) : r = 1 := by
  rcases dcorr_none_or X X u with h0 | h0
  · rw [h0] at h; exact absurd h (by simp)
  · rw [h0] at h
    obtain ⟨h1, h2, h3⟩ := ratio_some h
    rw [h3, Real.sqrt_mul_self h1.le, div_self h1.ne']

/-- The samples can be exchanged. -/
theorem C192_symmetric (X : Fin n → Fin m → ℝ) (Y : Fin n → Fin k → ℝ) (u : Bool) : dcorr X Y u = dcorr Y X u := by
  by_cases hn : if u then 3 ≤ n else 0 < n
  · rw [dcorr_eq X Y u hn, dcorr_eq Y X u hn, ratio_comm]
  · rw [dcorr_small X Y u hn, dcorr_small Y X u hn]

/-- Any change of a sample that multiplies all distances by one positive factor leaves the result unchanged. -/
theorem C192_similarity {m' : ℕ} (X : Fin n → Fin m → ℝ) (X' : Fin n → Fin m' → ℝ) (Y : Fin n → Fin k → ℝ) (u : Bool) {a : ℝ}
    (ha : 0 < a) (h : ∀ i j, sq X' i j = a ^ 2 * sq X i j) : dcorr X' Y u = dcorr X Y u := by
  by_cases hn : if u then 3 ≤ n else 0 < n
  · rw [dcorr_eq X' Y u hn, dcorr_eq X Y u hn]
    have : euclid X' = a • euclid X := by
      ext i j
      rw [Matrix.smul_apply, euclid_eq, euclid_eq]
      simp only [smul_eq_mul, h, Real.sqrt_mul (sq_nonneg a), Real.sqrt_sq ha.le]
    rw [this, cen_smul, ratio_smul _ _ ha]
  · rw [dcorr_small X' Y u hn, dcorr_small X Y u hn]

/-- Shifts, changes of unit and rotations of a sample. -/
theorem C192_invariance (X : Fin n → Fin m → ℝ) (Y : Fin n → Fin k → ℝ) (u : Bool) (t : Fin m → ℝ) {a : ℝ} (ha : a ≠ 0)
    (U : Matrix (Fin m) (Fin m) ℝ) (hU : U * Uᵀ = 1) :
    dcorr (fun i l => a * (∑ s, X i s * U s l) + t l) Y u = dcorr X Y u := by
  refine C192_similarity X _ Y u (abs_pos.2 ha) fun i j => ?_
  rw [sq_abs]
  have h1 : ∀ l, (a * (∑ s, X i s * U s l) + t l) - (a * (∑ s, X j s * U s l) + t l) = a * ∑ s, (X i s - X j s) * U s l := by
    intro l
    simp only [sub_mul, Finset.sum_sub_distrib]; ring
  have h2 : ∀ d : Fin m → ℝ, ∑ l, (∑ s, d s * U s l) ^ 2 = ∑ s, d s ^ 2 := by
    intro d
    have e : ∑ l, (∑ s, d s * U s l) ^ 2 = (d ᵥ* U) ⬝ᵥ (d ᵥ* U) := by
      simp only [dotProduct, vecMul, pow_two]
    rw [e]
    have : (d ᵥ* U) ⬝ᵥ (d ᵥ* U) = d ⬝ᵥ (U * Uᵀ) *ᵥ d := by
      rw [← Matrix.mulVec_mulVec, Matrix.dotProduct_mulVec, Matrix.mulVec_transpose]
    rw [this, hU, Matrix.one_mulVec]
    simp only [dotProduct, pow_two]
  simp only [sq, h1, mul_pow, ← Finset.mul_sum]
  rw [h2]

/-- The order of the observations does not matter. -/
theorem C192_relabel (X : Fin n → Fin m → ℝ) (Y : Fin n → Fin k → ℝ) (u : Bool) (σ : Equiv.Perm (Fin n)) :
    dcorr (fun i => X (σ i)) (fun i => Y (σ i)) u = dcorr X Y u := by
  by_cases hn : if u then 3 ≤ n else 0 < n
  · rw [dcorr_eq _ _ u hn, dcorr_eq X Y u hn, euclid_perm, euclid_perm, cen_perm, cen_perm]
    simp only [ratio, fro_perm]
  · rw [dcorr_small _ _ u hn, dcorr_small X Y u hn]

/-- The statistic without bias correction is never negative: the Euclidean distance is of negative type. -/
theorem C192_biased_nonneg (X : Fin n → Fin m → ℝ) (Y : Fin n → Fin k → ℝ) {r : ℝ} (h : dcorr X Y false = some r) : 0 ≤ r := by
  rcases dcorr_none_or X Y false with h0 | h0
  · rw [h0] at h; exact absurd h (by simp)
  · rw [h0] at h
    obtain ⟨-, -, h3⟩ := ratio_some h
    rw [h3]
    refine div_nonneg ?_ (Real.sqrt_nonneg _)
    simp only [cen, Bool.false_eq_true, if_false]
    rw [← fro_neg]
    exact fro_nonneg_of_psd (neg_dc_euclid X) (neg_dc_euclid Y)

private theorem dc_fro_zero (X : Fin n → Fin m → ℝ) : fro (dc (euclid X)) (dc (euclid X)) = 0 ↔ ∀ i j, X i = X j := by
  constructor
  · intro h i j
    have h1 := dc_zero (euclid_comm X) (euclid_self X) (fro_self_zero h)
    have h2 := congrFun (congrFun h1 i) j
    rw [euclid_eq] at h2
    simp only [Matrix.zero_apply] at h2
    exact (sq_eq_zero X i j).1 ((Real.sqrt_eq_zero (sq_nonneg' X i j)).1 h2)
  · intro h
    have : euclid X = 0 := by
      ext i j
      rw [euclid_eq]
      simp [(sq_eq_zero X i j).2 (h i j)]
    simp [this, fro, dc, rowSum, colSum]

/-- Without bias correction there is a value exactly when neither sample is constant. -/
theorem C192_biased_defined (X : Fin n → Fin m → ℝ) (Y : Fin n → Fin k → ℝ) :
    (dcorr X Y false).isSome ↔ (∃ i j, X i ≠ X j) ∧ ∃ i j, Y i ≠ Y j := by
  rcases Nat.eq_zero_or_pos n with hn | hn
  · subst hn
    rw [dcorr_small X Y false (by simp)]
    simp
  · rw [dcorr_biased X Y hn, ratio]
    simp only [dc_fro_zero]
    split_ifs with h
    · simp only [Option.isSome_none, Bool.false_eq_true, false_iff]
      rintro ⟨⟨i, j, h1⟩, i', j', h2⟩
      rcases h with h | h
      · exact h1 (h i j)
      · exact h2 (h i' j')
    · push Not at h
      simpa using h

private theorem uc_three (X : Fin 3 → Fin m → ℝ) : uc (euclid X) = 0 := by
  have h := euclid_comm X
  have h0 := euclid_self X
  have a : euclid X 1 0 = euclid X 0 1 := h 1 0
  have b : euclid X 2 0 = euclid X 0 2 := h 2 0
  have c : euclid X 2 1 = euclid X 1 2 := h 2 1
  ext i j
  by_cases hij : i = j
  · simp [uc, hij]
  · simp only [uc, if_neg hij, rowSum, colSum, Fin.sum_univ_three, h0, a, b, c, Matrix.zero_apply]
    fin_cases i <;> fin_cases j <;> first | exact absurd rfl hij | (simp [h0, a, b, c]; ring)

/-- With bias correction there is never a value for fewer than four observations. -/
theorem C192_unbiased_small (X : Fin n → Fin m → ℝ) (Y : Fin n → Fin k → ℝ) (hn : n < 4) : dcorr X Y true = none := by
  by_cases h : n = 3
  · subst h
    rw [dcorr_unbiased X Y le_rfl, uc_three]
    simp [ratio, fro]
  · exact dcorr_small X Y true (by simp; omega)

/-- Nor for equidistant observations, such as the indicators of distinct categories, whatever their number. -/
theorem C192_unbiased_equidistant_violated (X : Fin n → Fin m → ℝ) (Y : Fin n → Fin k → ℝ) {d : ℝ} (h : ∀ i j, i ≠ j → sq X i j = d) :
    dcorr X Y true = none := by
  rcases Nat.lt_or_ge n 4 with hn | hn
  · exact C192_unbiased_small X Y hn
  · have h4 : (4:ℝ) ≤ n := by exact_mod_cast hn
    have hz : uc (euclid X) = 0 := by
      have e : ∀ i j, euclid X i j = Real.sqrt d - if i = j then Real.sqrt d else 0 := by
        intro i j
        rw [euclid_eq]
        by_cases hij : i = j
        · subst hij; simp [sq_self]
        · simp [h i j hij, hij]
      have hr : ∀ i, rowSum (euclid X) i = (n - 1) * Real.sqrt d := by
        intro i; simp [rowSum, e, Finset.sum_sub_distrib]; ring
      have hc : ∀ i, colSum (euclid X) i = (n - 1) * Real.sqrt d := by
        intro i; simp [colSum, e, Finset.sum_sub_distrib]; ring
      ext i j
      by_cases hij : i = j
      · simp [uc, hij]
      · simp only [uc, if_neg hij, hr, hc, e, Finset.sum_const, Finset.card_univ, Fintype.card_fin, nsmul_eq_mul, Matrix.zero_apply]
        have n1 : (n:ℝ) - 1 ≠ 0 := by linarith
        have n2 : (n:ℝ) - 2 ≠ 0 := by linarith
        field_simp
        ring
    rw [dcorr_unbiased X Y (by omega), hz]
    simp [ratio, fro]

example : ∀ i j : Fin 4, i ≠ j → sq (fun a b : Fin 4 => if a = b then (1:ℝ) else 0) i j = 2 := by
  intro i j h
  fin_cases i <;> fin_cases j <;> first | exact absurd rfl h | (simp [sq, Fin.sum_univ_four]; norm_num)

/-- The permuted correlations are defined together with the correlation and have its denominator. -/
theorem dcorr_permuted (X : Fin n → Fin m → ℝ) (Y : Fin n → Fin k → ℝ) (u : Bool) (hn : if u then 3 ≤ n else 0 < n) (σ : Equiv.Perm (Fin n)) :
    dcorr X (fun i => Y (σ i)) u =
      if fro (cen u (euclid X)) (cen u (euclid X)) = 0 ∨ fro (cen u (euclid Y)) (cen u (euclid Y)) = 0 then none
      else some (fro (cen u (euclid X)) ((cen u (euclid Y)).submatrix σ σ) /
        Real.sqrt (fro (cen u (euclid X)) (cen u (euclid X)) * fro (cen u (euclid Y)) (cen u (euclid Y)))) := by
  rw [dcorr_eq _ _ u hn, euclid_perm, cen_perm]
  simp only [ratio, fro_perm]

private theorem sum_perm_zero {B : Sq n} (h0 : ∀ i, B i i = 0) (hr : ∀ i, ∑ j, B i j = 0) (i j : Fin n) :
    ∑ σ : Equiv.Perm (Fin n), B (σ i) (σ j) = 0 := by
  by_cases hij : i = j
  · subst hij; simp [h0]
  · have hc : ∀ l, l ≠ i → ∑ σ : Equiv.Perm (Fin n), B (σ i) (σ l) = ∑ σ : Equiv.Perm (Fin n), B (σ i) (σ j) := by
      intro l hl
      rw [← Equiv.sum_comp (Equiv.mulRight (Equiv.swap l j)) fun σ : Equiv.Perm (Fin n) => B (σ i) (σ j)]
      refine Finset.sum_congr rfl fun σ _ => ?_
      simp [Equiv.swap_apply_of_ne_of_ne (Ne.symm hl) hij]
    have h1 : ∑ l, ∑ σ : Equiv.Perm (Fin n), B (σ i) (σ l) = 0 := by
      rw [Finset.sum_comm]
      refine Finset.sum_eq_zero fun σ _ => ?_
      rw [Equiv.sum_comp σ fun l => B (σ i) l, hr]
    rw [← Finset.add_sum_erase _ _ (Finset.mem_univ i)] at h1
    simp only [h0, Finset.sum_const_zero, zero_add] at h1
    rw [Finset.sum_congr rfl fun l hl => hc l (Finset.ne_of_mem_erase hl)] at h1
    simp only [Finset.sum_const, nsmul_eq_mul, Finset.card_erase_of_mem (Finset.mem_univ i), Finset.card_univ, Fintype.card_fin] at h1
    rcases mul_eq_zero.1 h1 with h | h
    · exfalso
      have h2 : n - 1 = 0 := by exact_mod_cast h
      have : n ≤ 1 := by omega
      exact hij (Fin.ext (by omega))
    · exact h

/-- The bias correction is exact under permutation: over all permutations of the second sample the corrected correlations
average to zero. -/
theorem C192_permutation_mean (X : Fin n → Fin m → ℝ) (Y : Fin n → Fin k → ℝ) {r : ℝ} (h : dcorr X Y true = some r) :
    ∃ f : Equiv.Perm (Fin n) → ℝ, (∀ σ, dcorr X (fun i => Y (σ i)) true = some (f σ)) ∧ ∑ σ, f σ = 0 := by
  have hn : 3 ≤ n := by
    by_contra hc
    rw [dcorr_small X Y true (by simpa using hc)] at h
    exact absurd h (by simp)
  have hn' : if true then 3 ≤ n else 0 < n := by simpa using hn
  rw [dcorr_eq X Y true hn'] at h
  obtain ⟨h1, h2, -⟩ := ratio_some h
  refine ⟨fun σ => fro (cen true (euclid X)) ((cen true (euclid Y)).submatrix σ σ) /
        Real.sqrt (fro (cen true (euclid X)) (cen true (euclid X)) * fro (cen true (euclid Y)) (cen true (euclid Y))), fun σ => ?_, ?_⟩
  · rw [dcorr_permuted X Y true hn', if_neg]
    push Not
    exact ⟨h1.ne', h2.ne'⟩
  · rw [← Finset.sum_div]
    have : ∑ σ : Equiv.Perm (Fin n), fro (cen true (euclid X)) ((cen true (euclid Y)).submatrix σ σ) = 0 := by
      simp only [fro, Matrix.submatrix_apply]
      rw [Finset.sum_comm]
      refine Finset.sum_eq_zero fun i _ => ?_
      rw [Finset.sum_comm]
      refine Finset.sum_eq_zero fun j _ => ?_
      rw [← Finset.mul_sum, sum_perm_zero, mul_zero]
      · intro i; simp [cen, uc]
      · exact uc_row hn (euclid_comm Y) (euclid_self Y)
    rw [this, zero_div]

private theorem permuted_length (X : Fin n → Fin m → ℝ) (Y : Fin n → Fin k → ℝ) (u : Bool) : ∀ (σs : List (Equiv.Perm (Fin n))) {l : List ℝ},
    permuted X Y u σs = some l → l.length = σs.length := by
  intro σs
  induction σs with
  | nil => intro l h; simp [permuted] at h; subst h; rfl
  | cons σ σs ih =>
    intro l h
    simp only [permuted, List.mapM_cons, Option.bind_eq_bind, Option.bind_eq_some_iff] at h
    obtain ⟨a, -, b, hb, hc⟩ := h
    simp at hc
    subst hc
    simp [ih hb]

/-- The p-value of the version returning samples is the proportion of permutations with a larger absolute correlation. -/
theorem C192_pvalue_samples (X : Fin n → Fin m → ℝ) (Y : Fin n → Fin k → ℝ) (u : Bool) (σs : List (Equiv.Perm (Fin n))) {r p : ℝ} {l : List ℝ}
    (h : permTestSamples X Y u σs = some (r, l, p)) :
    dcorr X Y u = some r ∧ permuted X Y u σs = some l ∧ l.length = σs.length ∧
      p = ((l.countP fun v => decide (|r| < |v|)) : ℝ) / σs.length ∧ 0 ≤ p ∧ p ≤ 1 := by
  simp only [permTestSamples, Option.bind_eq_bind, Option.bind_eq_some_iff] at h
  obtain ⟨r', h1, l', h2, h3⟩ := h
  split_ifs at h3 with hl
  simp only [Option.some.injEq, Prod.mk.injEq] at h3
  obtain ⟨rfl, rfl, h4⟩ := h3
  have hlen := permuted_length X Y u σs h2
  have e : p = ((l'.countP fun v => decide (|r'| < |v|)) : ℝ) / σs.length := by
    rw [← h4, ← hlen]
  refine ⟨h1, h2, hlen, e, ?_, ?_⟩
  · rw [e]; positivity
  · rw [e]
    refine div_le_one_of_le₀ ?_ (by positivity)
    rw [← hlen]
    exact_mod_cast List.countP_le_length

/-- The compiled version divides the same count by the number of observations, so that its result is the proportion only when as many
permutations as observations are drawn. -/
theorem C192_pvalue_partial (X : Fin n → Fin m → ℝ) (Y : Fin n → Fin k → ℝ) (u : Bool) (σs : List (Equiv.Perm (Fin n))) {r p r' p' : ℝ} {l : List ℝ}
    (h : permTest X Y u σs = some (r, p)) (h' : permTestSamples X Y u σs = some (r', l, p')) :
    r = r' ∧ p * n = p' * σs.length ∧ (σs.length = n → p = p') := by
  obtain ⟨g1, g2, g3, g4, -, -⟩ := C192_pvalue_samples X Y u σs h'
  simp only [permTest, Option.bind_eq_bind, Option.bind_eq_some_iff] at h
  obtain ⟨r1, h1, l1, h2, h3⟩ := h
  rw [g1] at h1
  rw [g2] at h2
  obtain rfl := Option.some.inj h1
  obtain rfl := Option.some.inj h2
  simp only [Option.some.injEq, Prod.mk.injEq] at h3
  obtain ⟨rfl, h4⟩ := h3
  have hn : 0 < n := by
    by_contra hc
    rcases dcorr_none_or X Y u with e | e
    · rw [e] at g1; exact absurd g1 (by simp)
    · have : n = 0 := by omega
      subst this
      rw [e] at g1
      have := (ratio_some g1).1
      simp [fro] at this
  have hs : σs ≠ [] := by
    intro hc
    subst hc
    have : l = [] := List.length_eq_zero_iff.1 (by simpa using g3)
    simp [permTestSamples, g1, g2, this] at h'
  have hs' : (σs.length : ℝ) ≠ 0 := by
    simpa using hs
  have hn' : (n:ℝ) ≠ 0 := by positivity
  have key : p * n = p' * σs.length := by
    rw [← h4, g4]
    field_simp
  refine ⟨rfl, key, fun hh => ?_⟩
  rw [hh] at key
  exact mul_right_cancel₀ hn' key

/-- Witness data: three observations. -/
def wX : Fin 3 → Fin 1 → ℝ := ![![0], ![1], ![3]]

private theorem wX_dist : euclid wX = !![0, 1, 3; 1, 0, 2; 3, 2, 0] := by
  ext i j
  rw [euclid_eq]
  fin_cases i <;> fin_cases j <;> simp [wX, sq] <;>
    first
    | (rw [Real.sqrt_eq_iff_mul_self_eq] <;> norm_num)
    | norm_num

private theorem wX_dc : dc (euclid wX) = !![-(4/3), 0, 4/3; 0, -(2/3), 2/3; 4/3, 2/3, -2] := by
  rw [wX_dist]
  ext i j
  fin_cases i <;> fin_cases j <;> simp [dc, rowSum, colSum, Fin.sum_univ_three] <;> norm_num

/-- It can therefore exceed one: three observations, four permutations. -/
theorem C192_pvalue_violated :
    ∃ (X Y : Fin 3 → Fin 1 → ℝ) (σs : List (Equiv.Perm (Fin 3))) (r p : ℝ), permTest X Y false σs = some (r, p) ∧ p = 4 / 3 := by
  let σ : Equiv.Perm (Fin 3) := Equiv.swap 0 1
  have hn : if false then 3 ≤ 3 else 0 < 3 := by simp
  have hc : cen false (euclid wX) = dc (euclid wX) := by simp [cen]
  have hv : fro (dc (euclid wX)) (dc (euclid wX)) = 32 / 3 := by
    rw [wX_dc]; simp [fro, Fin.sum_univ_three]; norm_num
  have hs : fro (dc (euclid wX)) ((dc (euclid wX)).submatrix σ σ) = 28 / 3 := by
    have e0 : σ 0 = 1 := Equiv.swap_apply_left 0 1
    have e1 : σ 1 = 0 := Equiv.swap_apply_right 0 1
    have e2 : σ 2 = 2 := Equiv.swap_apply_of_ne_of_ne (by decide) (by decide)
    rw [wX_dc]; simp only [fro, Fin.sum_univ_three, Matrix.submatrix_apply, e0, e1, e2]; simp; norm_num
  have hr : Real.sqrt ((32 / 3 : ℝ) * (32 / 3)) = 32 / 3 := Real.sqrt_mul_self (by norm_num)
  have h1 : dcorr wX (fun i => wX (σ i)) false = some (7 / 8) := by
    rw [dcorr_permuted wX wX false hn, hc, hv, hs, if_neg (by norm_num), hr]; norm_num
  have h2 : dcorr wX (fun i => wX (σ (σ i))) false = some 1 := by
    have : ∀ i, σ (σ i) = i := by intro i; simp [σ]
    simp only [this]
    have h3 := dcorr_permuted wX wX false hn 1
    simp only [Equiv.Perm.one_apply] at h3
    rw [h3, hc]
    have : (dc (euclid wX)).submatrix (1 : Equiv.Perm (Fin 3)) (1 : Equiv.Perm (Fin 3)) = dc (euclid wX) := by ext i j; simp
    rw [this, hv, if_neg (by norm_num), hr]; norm_num
  refine ⟨wX, fun i => wX (σ i), [σ, σ, σ, σ], 7 / 8, 4 / 3, ?_, rfl⟩
  have h4 : permuted wX (fun i => wX (σ i)) false [σ, σ, σ, σ] = some [1, 1, 1, 1] := by
    simp [permuted, h2]
  simp only [permTest, h1, h4, Option.bind_eq_bind, Option.bind_some]
  have : |(7 / 8 : ℝ)| < |1| := by norm_num
  simp [List.countP_cons]
  norm_num

end Verif.Indep
