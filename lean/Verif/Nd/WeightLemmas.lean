import Verif.Nd.Model
import Mathlib.LinearAlgebra.Lagrange
/-!
# The recurrences of the weights
-/
namespace Verif.Nd
open Polynomial Finset

variable {R : Type*} [Field R]

/-- The `k`th derivative at a point. -/
noncomputable def dAt (x0 : R) (k : ℕ) (P : R[X]) : R := eval x0 (derivative^[k] P)

theorem dAt_zero (x0 : R) (P : R[X]) : dAt x0 0 P = eval x0 P := rfl

theorem dAt_C_mul (x0 : R) (k : ℕ) (a : R) (P : R[X]) : dAt x0 k (C a * P) = a * dAt x0 k P := by
  simp [dAt, iterate_derivative_C_mul]

theorem dAt_sum {ι : Type*} (x0 : R) (k : ℕ) (s : Finset ι) (f : ι → R[X]) :
    dAt x0 k (∑ b ∈ s, f b) = ∑ b ∈ s, dAt x0 k (f b) := by
  simp [dAt, iterate_derivative_sum, eval_finset_sum]

theorem iterate_X_sub_C (a : R) (P : R[X]) (k : ℕ) :
    derivative^[k + 1] ((X - C a) * P) = (X - C a) * derivative^[k + 1] P + ((k + 1 : ℕ) : R[X]) * derivative^[k] P := by
  induction k with
  | zero => simp [derivative_mul]; ring
  | succ k ih =>
    rw [Function.iterate_succ_apply', ih]
    simp only [derivative_add, derivative_mul, derivative_sub, derivative_X, derivative_C, derivative_natCast,
      ← Function.iterate_succ_apply']
    push_cast
    ring

theorem dAt_X_sub_C (x0 a : R) (P : R[X]) (k : ℕ) :
    dAt x0 (k + 1) ((X - C a) * P) = (x0 - a) * dAt x0 (k + 1) P + (k + 1 : ℕ) * dAt x0 k P := by
  rw [dAt, iterate_X_sub_C]
  simp only [eval_add, eval_mul, eval_sub, eval_X, eval_C, eval_natCast, dAt]

theorem dAt_X_sub_C_zero (x0 a : R) (P : R[X]) : dAt x0 0 ((X - C a) * P) = (x0 - a) * dAt x0 0 P := by
  simp [dAt_zero]

/-- The Lagrange basis on the first `i + 1` nodes. -/
noncomputable def lag (x : ℕ → R) (i j : ℕ) : R[X] := Lagrange.basis (range (i + 1)) x j

theorem lag_zero (x : ℕ → R) : lag x 0 0 = 1 := by
  simp [lag, Lagrange.basis]

theorem lag_succ (x : ℕ → R) {i j : ℕ} (hj : j ≤ i) :
    lag x (i + 1) j = C (x j - x (i + 1))⁻¹ * ((X - C (x (i + 1))) * lag x i j) := by
  have e1 : (range (i + 1 + 1)).erase j = insert (i + 1) ((range (i + 1)).erase j) := by
    ext a; simp only [mem_erase, mem_range, mem_insert]; omega
  rw [lag, Lagrange.basis, e1, prod_insert (by simp [mem_erase, mem_range]), lag, Lagrange.basis, Lagrange.basisDivisor]
  ring

/-- `∏_{m < i} (x_i - x_m)`. -/
def cprod (x : ℕ → R) (i : ℕ) : R := ∏ m ∈ range i, (x i - x m)

theorem lag_self (x : ℕ → R) (i : ℕ) : C (cprod x i) * lag x i i = ∏ m ∈ range i, C (x i - x m) *
    (Lagrange.basisDivisor (x i) (x m)) := by
  have e1 : (range (i + 1)).erase i = range i := by
    ext a; simp only [mem_erase, mem_range]; omega
  rw [lag, Lagrange.basis, e1, prod_mul_distrib, cprod, map_prod]

theorem cdiv {a b : R} (h : a ≠ b) : C (a - b) * Lagrange.basisDivisor a b = X - C b := by
  rw [Lagrange.basisDivisor, ← mul_assoc, ← C_mul, mul_inv_cancel₀ (sub_ne_zero.2 h), C_1, one_mul]

theorem lag_self' (x : ℕ → R) {i : ℕ} (h : ∀ m < i, x i ≠ x m) :
    C (cprod x i) * lag x i i = ∏ m ∈ range i, (X - C (x m)) := by
  rw [lag_self]
  exact prod_congr rfl fun m hm => cdiv (h m (mem_range.1 hm))

theorem cprod_ne (x : ℕ → R) {i : ℕ} (h : ∀ m < i, x i ≠ x m) : cprod x i ≠ 0 :=
  prod_ne_zero_iff.2 fun m hm => sub_ne_zero.2 (h m (mem_range.1 hm))

theorem lag_diag (x : ℕ → R) {i : ℕ} (h : ∀ m < i + 1, x (i + 1) ≠ x m) (h' : ∀ m < i, x i ≠ x m) :
    lag x (i + 1) (i + 1) = C (cprod x i / cprod x (i + 1)) * ((X - C (x i)) * lag x i i) := by
  have h1 := lag_self' x h
  have h2 := lag_self' x h'
  rw [prod_range_succ, ← h2] at h1
  have hn := cprod_ne x h
  have : C (cprod x (i + 1))⁻¹ * (C (cprod x (i + 1)) * lag x (i + 1) (i + 1)) = lag x (i + 1) (i + 1) := by
    rw [← mul_assoc, ← C_mul, inv_mul_cancel₀ hn, C_1, one_mul]
  rw [← this, h1, div_eq_mul_inv, C_mul]
  ring

theorem lag_high (x : ℕ → R) (x0 : R) {i j k : ℕ} (hj : j ≤ i) (hk : i < k) : dAt x0 k (lag x i j) = 0 := by
  have hd : (lag x i j).natDegree ≤ i := by
    refine (natDegree_prod_le ((range (i + 1)).erase j) fun m => Lagrange.basisDivisor (x j) (x m)).trans ?_
    refine (sum_le_card_nsmul _ _ 1 fun m _ => ?_).trans ?_
    · rw [Lagrange.basisDivisor]
      exact (natDegree_C_mul_le _ _).trans (natDegree_X_sub_C_le _)
    · rw [card_erase_of_mem (mem_range.2 (by omega))]; simp
  rw [dAt, iterate_derivative_eq_zero (by omega), eval_zero]

/-! ## The loops -/

theorem mem_down {r k : ℕ} : k ∈ down r ↔ 1 ≤ k ∧ k ≤ r := by
  induction r with
  | zero => simp [down]; omega
  | succ r ih => simp only [down, List.mem_cons, ih]; omega

theorem set2_same (W : ℕ → ℕ → R) (j k : ℕ) (v : R) : set2 W j k v j k = v := by simp [set2]
theorem set2_row (W : ℕ → ℕ → R) {j k a : ℕ} (v : R) (h : a ≠ j) (b : ℕ) : set2 W j k v a b = W a b := by
  simp [set2, Function.update_of_ne h]
theorem set2_col (W : ℕ → ℕ → R) {j k b : ℕ} (v : R) (h : b ≠ k) (a : ℕ) : set2 W j k v a b = W a b := by
  by_cases ha : a = j
  · subst ha; simp [set2, Function.update_of_ne h]
  · exact set2_row W v ha b

/-- The loop which overwrites a row from another row. -/
theorem fill_row (F : ℕ → R → R → R) (i i' : ℕ) (hi : i ≠ i') (r : ℕ) (W : ℕ → ℕ → R) (a b : ℕ) :
    (down r).foldl (fun W k => set2 W i k (F k (W i' (k - 1)) (W i' k))) W a b =
      if a = i ∧ 1 ≤ b ∧ b ≤ r then F b (W i' (b - 1)) (W i' b) else W a b := by
  induction r generalizing W with
  | zero => simp [down]; omega
  | succ r ih =>
    rw [down, List.foldl_cons, ih]
    simp only [set2_row W _ hi.symm]
    by_cases ha : a = i
    · subst ha
      by_cases hb : b = r + 1
      · subst hb; simp [set2_same]
      · rw [set2_col W _ hb]
        by_cases h : 1 ≤ b ∧ b ≤ r
        · rw [if_pos ⟨rfl, h⟩, if_pos ⟨rfl, h.1, by omega⟩]
        · rw [if_neg (fun h' => h h'.2), if_neg (by rintro ⟨_, h1, h2⟩; exact h ⟨h1, by omega⟩)]
    · rw [set2_row W _ ha, if_neg (fun h => ha h.1), if_neg (fun h => ha h.1)]

/-- The loop which overwrites a row from itself, downwards: the entries read are those before the loop. -/
theorem self_row (F : ℕ → R → R → R) (j : ℕ) (r : ℕ) (W : ℕ → ℕ → R) (a b : ℕ) :
    (down r).foldl (fun W k => set2 W j k (F k (W j (k - 1)) (W j k))) W a b =
      if a = j ∧ 1 ≤ b ∧ b ≤ r then F b (W j (b - 1)) (W j b) else W a b := by
  induction r generalizing W with
  | zero => simp [down]; omega
  | succ r ih =>
    rw [down, List.foldl_cons, ih]
    by_cases ha : a = j
    · subst ha
      by_cases hb : b = r + 1
      · subst hb; simp [set2_same]
      · rw [set2_col W _ hb]
        by_cases h : 1 ≤ b ∧ b ≤ r
        · rw [if_pos ⟨rfl, h⟩, if_pos ⟨rfl, h.1, by omega⟩, set2_col W _ (by omega)]
        · rw [if_neg (fun h' => h h'.2), if_neg (by rintro ⟨_, h1, h2⟩; exact h ⟨h1, by omega⟩)]
    · rw [set2_row W _ ha, if_neg (fun h => ha h.1), if_neg (fun h => ha h.1)]

/-- The rows of `W` hold the derivatives of the Lagrange basis of the first `i + 1` nodes. -/
def WOk (x : ℕ → R) (x0 : R) (n i : ℕ) (W : ℕ → ℕ → R) : Prop :=
  ∀ a b, W a b = if a ≤ i ∧ b ≤ n then dAt x0 b (lag x i a) else 0

/-- Rows below `j` are those of the next basis, row `i + 1` is filled once `j` has passed `i`. -/
def WMid (x : ℕ → R) (x0 : R) (n i j : ℕ) (W : ℕ → ℕ → R) : Prop :=
  ∀ a b, W a b = if a ≤ i + 1 ∧ b ≤ n then
    (if a < j then dAt x0 b (lag x (i + 1) a)
     else if a ≤ i then dAt x0 b (lag x i a)
     else if j = i + 1 then dAt x0 b (lag x (i + 1) a) else 0) else 0

theorem inner_step (x : ℕ → R) (x0 : R) (n i : ℕ) (h : ∀ m < i + 1, x (i + 1) ≠ x m) (h' : ∀ m < i, x i ≠ x m)
    {j : ℕ} (hj : j ≤ i) (c : (ℕ → ℕ → R) × R) (hW : WMid x x0 n i j c.1)
    (hc : c.2 = ∏ m ∈ range j, (x (i + 1) - x m)) :
    WMid x x0 n i (j + 1) (fdInner x (cprod x i) (x (i + 1) - x0) (x i - x0) (min (i + 1) n) (i + 1) c j).1 ∧
    (fdInner x (cprod x i) (x (i + 1) - x0) (x i - x0) (min (i + 1) n) (i + 1) c j).2 =
      ∏ m ∈ range (j + 1), (x (i + 1) - x m) := by
  have hc2 : c.2 * (x (i + 1) - x j) = ∏ m ∈ range (j + 1), (x (i + 1) - x m) := by rw [prod_range_succ, hc]
  refine ⟨?_, by simp only [fdInner]; exact hc2⟩
  have hne : x (i + 1) - x j ≠ 0 := sub_ne_zero.2 (h j (by omega))
  -- the update of row `j`
  have upd : ∀ W : ℕ → ℕ → R, (∀ b, W j b = if b ≤ n then dAt x0 b (lag x i j) else 0) → ∀ a b,
      (set2 ((down (min (i + 1) n)).foldl (fun W k => set2 W j k (((x (i + 1) - x0) * W j k - k * W j (k - 1)) /
          (x (i + 1) - x j))) W) j 0 ((x (i + 1) - x0) * ((down (min (i + 1) n)).foldl (fun W k => set2 W j k
          (((x (i + 1) - x0) * W j k - k * W j (k - 1)) / (x (i + 1) - x j))) W) j 0 / (x (i + 1) - x j))) a b =
        if a = j then (if b ≤ n then dAt x0 b (lag x (i + 1) j) else 0) else W a b := by
    intro W hWj a b
    have hs := self_row (fun k p q => ((x (i + 1) - x0) * q - k * p) / (x (i + 1) - x j)) j (min (i + 1) n) W
    have hinv : (x j - x (i + 1))⁻¹ = -(x (i + 1) - x j)⁻¹ := by rw [← inv_neg, neg_sub]
    by_cases ha : a = j
    · subst ha
      rw [if_pos rfl]
      by_cases hb : b = 0
      · subst hb
        rw [set2_same, hs, if_neg (by omega), hWj, if_pos (Nat.zero_le _), if_pos (Nat.zero_le _), lag_succ x hj,
          dAt_C_mul, dAt_X_sub_C_zero, hinv]
        ring
      · rw [set2_col _ _ hb, hs]
        by_cases hbr : b ≤ min (i + 1) n
        · rw [if_pos ⟨rfl, by omega, hbr⟩, hWj, hWj, if_pos (by omega), if_pos (by omega), if_pos (by omega)]
          obtain ⟨b, rfl⟩ := Nat.exists_eq_succ_of_ne_zero hb
          rw [lag_succ x hj, dAt_C_mul, Nat.succ_eq_add_one, dAt_X_sub_C, hinv, Nat.add_sub_cancel]
          ring
        · rw [if_neg (by omega), hWj]
          by_cases hbn : b ≤ n
          · rw [if_pos hbn, if_pos hbn, lag_high x x0 hj (by omega), lag_high x x0 (by omega : a ≤ i + 1) (by omega)]
          · rw [if_neg hbn, if_neg hbn]
    · rw [set2_row _ _ ha, hs, if_neg (fun h => ha h.1), if_neg ha]
  by_cases hji : j = i
  · subst hji
    -- the fill of row `i + 1`
    have hcp : c.2 * (x (j + 1) - x j) = cprod x (j + 1) := hc2
    have hf := fill_row (fun k p q => cprod x j * (k * p - (x j - x0) * q) / cprod x (j + 1)) (j + 1) j
      (by omega) (min (j + 1) n) c.1
    intro a b
    simp only [fdInner, Nat.add_sub_cancel, if_true, hcp]
    have hrow : ∀ b, c.1 j b = if b ≤ n then dAt x0 b (lag x j j) else 0 := by
      intro b; rw [hW]
      by_cases hb : b ≤ n
      · rw [if_pos ⟨by omega, hb⟩, if_neg (by omega), if_pos le_rfl, if_pos hb]
      · rw [if_neg (fun h => hb h.2), if_neg hb]
    rw [upd _ (fun b => by rw [set2_row _ _ (by omega), hf, if_neg (by omega), hrow])]
    by_cases ha : a = j
    · subst ha
      rw [if_pos rfl]
      by_cases hb : b ≤ n
      · rw [if_pos hb, if_pos ⟨by omega, hb⟩, if_pos (by omega)]
      · rw [if_neg hb, if_neg (fun h => hb h.2)]
    · rw [if_neg ha]
      by_cases ha1 : a = j + 1
      · subst ha1
        simp only [le_refl, true_and, lt_irrefl, if_false, show ¬ j + 1 ≤ j by omega]
        by_cases hb : b = 0
        · subst hb
          rw [set2_same, hf, if_neg (by omega), hrow, if_pos (Nat.zero_le _), if_pos (Nat.zero_le _), lag_diag x h h', dAt_C_mul,
            dAt_X_sub_C_zero]
          ring
        · rw [set2_col _ _ hb, hf]
          by_cases hbr : b ≤ min (j + 1) n
          · rw [if_pos ⟨rfl, by omega, hbr⟩, hrow, hrow, if_pos (by omega), if_pos (by omega), if_pos (by omega)]
            obtain ⟨b, rfl⟩ := Nat.exists_eq_succ_of_ne_zero hb
            rw [lag_diag x h h', dAt_C_mul, Nat.succ_eq_add_one, dAt_X_sub_C, Nat.add_sub_cancel]
            ring
          · rw [if_neg (by omega), hW, if_neg (by omega : ¬ j + 1 < j), if_neg (by omega : ¬ j + 1 ≤ j),
              if_neg (by omega : ¬ j = j + 1), ite_self]
            by_cases hbn : b ≤ n
            · rw [if_pos hbn, lag_high x x0 le_rfl (by omega)]
            · rw [if_neg hbn]
      · rw [set2_row _ _ ha1, hf, if_neg (fun h => ha1 h.1), hW]
        by_cases hab : a ≤ j + 1 ∧ b ≤ n
        · rw [if_pos hab, if_pos hab, if_pos (by omega), if_pos (by omega)]
        · rw [if_neg hab, if_neg hab]
  · intro a b
    simp only [fdInner, Nat.add_sub_cancel, if_neg hji]
    rw [upd _ (fun b => by
      rw [hW]
      by_cases hb : b ≤ n
      · rw [if_pos ⟨by omega, hb⟩, if_neg (by omega), if_pos hj, if_pos hb]
      · rw [if_neg (fun h => hb h.2), if_neg hb])]
    by_cases ha : a = j
    · subst ha
      rw [if_pos rfl]
      by_cases hb : b ≤ n
      · rw [if_pos hb, if_pos ⟨by omega, hb⟩, if_pos (by omega)]
      · rw [if_neg hb, if_neg (fun h => hb h.2)]
    · rw [if_neg ha, hW]
      by_cases hab : a ≤ i + 1 ∧ b ≤ n
      · rw [if_pos hab, if_pos hab]
        by_cases h1 : a < j
        · rw [if_pos h1, if_pos (by omega)]
        · rw [if_neg h1, if_neg (by omega : ¬ a < j + 1)]
          rw [if_neg (by omega : ¬ j = i + 1), if_neg (by omega : ¬ j + 1 = i + 1)]
      · rw [if_neg hab, if_neg hab]

theorem outer_step (x : ℕ → R) (x0 : R) (n i : ℕ) (h : ∀ m < i + 1, x (i + 1) ≠ x m) (h' : ∀ m < i, x i ≠ x m)
    (s : (ℕ → ℕ → R) × R × R) (hs : WOk x x0 n i s.1 ∧ s.2.1 = cprod x i ∧ s.2.2 = x i - x0) :
    WOk x x0 n (i + 1) (fdOuter x x0 n s (i + 1)).1 ∧ (fdOuter x x0 n s (i + 1)).2.1 = cprod x (i + 1) ∧
      (fdOuter x x0 n s (i + 1)).2.2 = x (i + 1) - x0 := by
  obtain ⟨hW, h1, h2⟩ := hs
  have key : ∀ j ≤ i + 1, WMid x x0 n i j
      ((List.range j).foldl (fdInner x (cprod x i) (x (i + 1) - x0) (x i - x0) (min (i + 1) n) (i + 1)) (s.1, 1)).1 ∧
      ((List.range j).foldl (fdInner x (cprod x i) (x (i + 1) - x0) (x i - x0) (min (i + 1) n) (i + 1)) (s.1, 1)).2 =
        ∏ m ∈ range j, (x (i + 1) - x m) := by
    intro j
    induction j with
    | zero =>
      intro _
      refine ⟨fun a b => ?_, by simp⟩
      simp only [List.range_zero, List.foldl_nil, not_lt_zero, if_false, show ¬ 0 = i + 1 by omega]
      rw [hW]
      by_cases ha : a ≤ i
      · by_cases hb : b ≤ n
        · rw [if_pos ⟨ha, hb⟩, if_pos ⟨by omega, hb⟩, if_pos ha]
        · rw [if_neg (fun h => hb h.2), if_neg (fun h => hb h.2)]
      · rw [if_neg (fun h => ha h.1), if_neg ha, ite_self]
    | succ j ih =>
      intro hj
      rw [List.range_succ, List.foldl_append, List.foldl_cons, List.foldl_nil]
      exact inner_step x x0 n i h h' (by omega) _ (ih (by omega)).1 (ih (by omega)).2
  obtain ⟨k1, k2⟩ := key (i + 1) le_rfl
  simp only [fdOuter, h1, h2]
  refine ⟨fun a b => ?_, k2, trivial⟩
  rw [k1]
  by_cases hab : a ≤ i + 1 ∧ b ≤ n
  · rw [if_pos hab, if_pos hab]
    by_cases ha : a < i + 1
    · rw [if_pos ha]
    · rw [if_neg ha, if_neg (by omega : ¬ a ≤ i), if_pos rfl]
  · rw [if_neg hab, if_neg hab]

/-- The weights are the derivatives of the Lagrange basis. -/
theorem fdCoefs_lag (m : ℕ) (hm : 0 < m) (x : ℕ → R) (x0 : R) (n : ℕ) (hx : ∀ i < m, ∀ j < m, x i = x j → i = j) :
    ∃ W, fdCoefs m x x0 n = some W ∧
      ∀ j k, W j k = if j < m ∧ k ≤ n then dAt x0 k (Lagrange.basis (range m) x j) else 0 := by
  refine ⟨_, if_neg (by omega), ?_⟩
  have key : ∀ i < m,
      WOk x x0 n i ((List.range' 1 i).foldl (fdOuter x x0 n) (set2 (fun _ _ => 0) 0 0 1, 1, x 0 - x0)).1 ∧
      ((List.range' 1 i).foldl (fdOuter x x0 n) (set2 (fun _ _ => 0) 0 0 1, 1, x 0 - x0)).2.1 = cprod x i ∧
      ((List.range' 1 i).foldl (fdOuter x x0 n) (set2 (fun _ _ => 0) 0 0 1, 1, x 0 - x0)).2.2 = x i - x0 := by
    intro i
    induction i with
    | zero =>
      intro _
      refine ⟨fun a b => ?_, by simp [cprod], rfl⟩
      simp only [List.range'_zero, List.foldl_nil]
      by_cases ha : a = 0
      · subst ha
        by_cases hb : b = 0
        · subst hb
          rw [set2_same, if_pos ⟨le_rfl, Nat.zero_le _⟩, lag_zero, dAt_zero, eval_one]
        · rw [set2_col _ _ hb, lag_high x x0 le_rfl (by omega), ite_self]
      · rw [set2_row _ _ ha, if_neg (by omega)]
    | succ i ih =>
      intro hi
      have e1 : List.range' 1 (i + 1) = List.range' 1 i ++ [i + 1] := by
        rw [List.range'_concat]; simp [Nat.add_comm]
      rw [e1, List.foldl_append, List.foldl_cons, List.foldl_nil]
      refine outer_step x x0 n i ?_ ?_ _ (ih (by omega))
      · intro a ha hxa; have := hx _ hi _ (by omega) hxa; omega
      · intro a ha hxa; have := hx _ (by omega) _ (by omega) hxa; omega
  intro j k
  rw [(key (m - 1) (by omega)).1]
  have e1 : m - 1 + 1 = m := by omega
  rw [lag, e1]
  by_cases h : j < m ∧ k ≤ n
  · rw [if_pos h, if_pos ⟨by omega, h.2⟩]
  · rw [if_neg h, if_neg (by omega)]

/-- The quadrature rule of the weights. -/
theorem weights_exact (m : ℕ) (x : ℕ → R) (x0 : R) (hx : ∀ i < m, ∀ j < m, x i = x j → i = j)
    (P : R[X]) (hP : P.degree < m) (k : ℕ) :
    ∑ j ∈ range m, dAt x0 k (Lagrange.basis (range m) x j) * P.eval (x j) = dAt x0 k P := by
  have hinj : Set.InjOn x (range m : Finset ℕ) := by
    intro a ha b hb hab
    exact hx a (by simpa using ha) b (by simpa using hb) hab
  have h := Lagrange.eq_interpolate hinj (f := P) (by rw [card_range]; exact hP)
  conv_rhs => rw [h, Lagrange.interpolate_apply, dAt_sum]
  exact sum_congr rfl fun j _ => by rw [dAt_C_mul, mul_comm]

end Verif.Nd
