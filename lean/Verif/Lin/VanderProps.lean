import Verif.Lin.Vander
import Mathlib.Algebra.BigOperators.Group.Finset.Basic
import Mathlib.Algebra.BigOperators.Ring.Finset
import Mathlib.Algebra.BigOperators.Field
import Mathlib.Algebra.BigOperators.Fin
import Mathlib.LinearAlgebra.FiniteDimensional.Lemmas
import Mathlib.LinearAlgebra.Matrix.NonsingularInverse
import Mathlib.Algebra.BigOperators.Intervals
import Mathlib.Tactic.Ring
import Mathlib.Tactic.IntervalCases
import Mathlib.Tactic.NormNum
import Mathlib.Tactic.FieldSimp
import Mathlib.Tactic.LinearCombination
/-!
# Vandermonde systems (C49)
-/
namespace Verif.Lin
open Finset

variable {K : Type*} [Field K]

/-- Newton basis polynomial at `t`. -/
def newton (a : ℕ → K) (i : ℕ) (t : K) : K := ∏ l ∈ range i, (t - a l)

/-- After `k` forward passes. -/
theorem fwd_closed (n : ℕ) (a z x : ℕ → K) (m : ℕ)
    (hx : ∀ i, i < n → x i = ∑ j ∈ range m, z j * a j ^ i) (k : ℕ) :
    ∀ i, i < n → (List.range k).foldl (vanderFwd n a) x i =
      ∑ j ∈ range m, z j * (newton a (min i k) (a j) * a j ^ (i - k)) := by
  induction k with
  | zero => intro i hi; simp [hx i hi, newton]
  | succ k ih =>
    intro i hi
    rw [List.range_succ, List.foldl_append, List.foldl_cons, List.foldl_nil, vanderFwd]
    by_cases h : k + 1 ≤ i
    · rw [if_pos ⟨h, hi⟩, ih i hi, ih (i - 1) (by omega), mul_sum, ← sum_sub_distrib]
      apply sum_congr rfl
      intro j _
      rw [show min i k = k by omega, show min (i - 1) k = k by omega,
        show min i (k + 1) = k + 1 by omega, newton, newton, prod_range_succ,
        show i - k = (i - 1 - k) + 1 by omega, show i - (k + 1) = i - 1 - k by omega]
      ring
    · rw [if_neg (by omega), ih i hi]
      apply sum_congr rfl
      intro j _
      rw [show min i k = min i (k + 1) by omega, show i - k = i - (k + 1) by omega]

/-- Coefficient functions before backward pass `k` (`k ≥ 1`), and after the last one (`k = 0`). -/
def coef (a : ℕ → K) (k i j : ℕ) : K :=
  if k = 0 then (if i = j then 1 else 0)
  else if i < k then newton a i (a j)
  else if i ≤ j then (a i - a (i - k)) * ∏ l ∈ range (k - 1), (a j - a (i - 1 - l)) else 0

theorem newton_zero (a : ℕ → K) (i j : ℕ) (h : j < i) : newton a i (a j) = 0 :=
  prod_eq_zero (mem_range.2 h) (sub_self _)

/-- Product used at pass `k+1`, split off at either end. -/
theorem prod_ends (a : ℕ → K) (i k : ℕ) (t : K) (hk : k + 1 ≤ i) :
    ((∏ l ∈ range (k + 1), (t - a (i - 1 - l))) =
      (t - a (i - 1)) * ∏ l ∈ range k, (t - a (i - 1 - 1 - l))) ∧
    ((∏ l ∈ range (k + 1), (t - a (i - 1 - l))) =
      (∏ l ∈ range k, (t - a (i - 1 - l))) * (t - a (i - 1 - k))) := by
  constructor
  · rw [prod_range_succ', mul_comm]
    congr 1
    apply prod_congr rfl
    intro l _
    rw [show i - 1 - (l + 1) = i - 1 - 1 - l by omega]
  · rw [prod_range_succ]

theorem back_coef (n : ℕ) (a : ℕ → K) (ha : ∀ i j, i < n → j < n → a i = a j → i = j) (k : ℕ)
    (hk : k + 1 ≤ n - 1) (i j : ℕ) (hi : i < n) (hj : j < n) :
    (vanderBack n a (fun i => coef a (k + 1) i j) (k + 1)) i = coef a k i j := by
  have hne : ∀ i, k + 1 ≤ i → i < n → a i - a (i - (k + 1)) ≠ 0 := by
    intro i h1 h2 h
    have := ha i (i - (k + 1)) h2 (by omega) (sub_eq_zero.1 h)
    omega
  -- the divided array
  let P : ℕ → K := fun i => if i ≤ j then ∏ l ∈ range k, (a j - a (i - 1 - l)) else 0
  have hy : ∀ i, k + 1 ≤ i → i < n → coef a (k + 1) i j / (a i - a (i - (k + 1))) = P i := by
    intro i h1 h2
    simp only [coef, P]
    rw [if_neg (by omega), if_neg (by omega)]
    split_ifs
    · rw [mul_div_cancel_left₀ _ (hne i h1 h2), Nat.add_sub_cancel]
    · rw [zero_div]
  have hyl : ∀ i, i < k + 1 → coef a (k + 1) i j = newton a i (a j) := by
    intro i h
    simp only [coef]; rw [if_neg (by omega), if_pos h]
  -- newton in terms of the reversed product
  have hrev : ∀ i, newton a i (a j) = ∏ l ∈ range i, (a j - a (i - 1 - l)) := by
    intro i; rw [newton, ← prod_range_reflect]
  -- difference of consecutive values of P
  have hd : ∀ i, k ≤ i → i < n → P i - (if i + 1 < n then P (i + 1) else 0) =
      if k = 0 then (if i = j then 1 else 0)
      else if i ≤ j then (a i - a (i - k)) * ∏ l ∈ range (k - 1), (a j - a (i - 1 - l)) else 0 := by
    intro i hki hin
    rcases Nat.eq_zero_or_pos k with h0 | h0
    · subst h0
      simp only [P, range_zero, prod_empty, if_true]
      split_ifs <;> first | omega | simp
    · rw [if_neg (show ¬ k = 0 by omega)]
      obtain ⟨q, rfl⟩ : ∃ q, k = q + 1 := ⟨k - 1, by omega⟩
      rcases Nat.lt_trichotomy i j with h | h | h
      · -- i + 1 ≤ j
        rw [if_pos (show i + 1 < n by omega), if_pos (show i ≤ j by omega)]
        simp only [P]
        rw [if_pos (show i ≤ j by omega), if_pos (show i + 1 ≤ j by omega)]
        have e1 := (prod_ends a i q (a j) hki).2
        have e2 := (prod_ends a (i + 1) q (a j) (by omega)).1
        rw [e1, e2]
        simp only [Nat.add_sub_cancel]
        rw [show i - 1 - q = i - (q + 1) by omega]
        ring
      · subst h
        rw [if_pos le_rfl]
        simp only [P]
        rw [if_pos le_rfl, if_neg (show ¬ i + 1 ≤ i by omega), ite_self, sub_zero,
          Nat.add_sub_cancel, (prod_ends a i q (a i) hki).2,
          show i - 1 - q = i - (q + 1) by omega]
        ring
      · rw [if_neg (show ¬ i ≤ j by omega)]
        simp only [P]
        rw [if_neg (show ¬ i ≤ j by omega), if_neg (show ¬ i + 1 ≤ j by omega), ite_self,
          sub_zero]
  simp only [vanderBack]
  rw [show k + 1 - 1 = k by omega]
  have hcoef : k ≤ i → coef a k i j = if k = 0 then (if i = j then 1 else 0)
      else if i ≤ j then (a i - a (i - k)) * ∏ l ∈ range (k - 1), (a j - a (i - 1 - l)) else 0 := by
    intro h
    simp only [coef]
    rw [if_neg (show ¬ i < k by omega)]
  by_cases hlt : i < k
  · rw [if_neg (by omega), if_neg (by omega), hyl i (by omega)]
    simp only [coef]
    rw [if_neg (by omega), if_pos hlt]
  rw [hcoef (by omega), ← hd i (by omega) hi]
  have hi0 : (if k + 1 ≤ i ∧ i < n then coef a (k + 1) i j / (a i - a (i - (k + 1)))
      else coef a (k + 1) i j) = P i := by
    by_cases h : k + 1 ≤ i
    · rw [if_pos ⟨h, hi⟩, hy i h hi]
    · have : i = k := by omega
      subst this
      rw [if_neg (by omega), hyl i (by omega), hrev]
      simp only [P]
      split_ifs with h'
      · rfl
      · rw [← hrev, newton_zero a i j (by omega)]
  by_cases h : i < n - 1
  · rw [if_pos ⟨by omega, h⟩, hi0, if_pos (by omega), if_pos (show i + 1 < n by omega),
      hy (i + 1) (by omega) (by omega)]
  · rw [if_neg (by omega), hi0, if_neg (by omega), sub_zero]

/-- A backward pass is linear. -/
theorem back_lin (n : ℕ) (a : ℕ → K) (k m : ℕ) (hk : 1 ≤ k) (z x : ℕ → K) (F : ℕ → ℕ → K)
    (hx : ∀ i, i < n → x i = ∑ j ∈ range m, z j * F i j) (i : ℕ) (hi : i < n) :
    vanderBack n a x k i = ∑ j ∈ range m, z j * vanderBack n a (fun i => F i j) k i := by
  have hy : ∀ i, i < n → (if k ≤ i ∧ i < n then x i / (a i - a (i - k)) else x i) =
      ∑ j ∈ range m, z j * (if k ≤ i ∧ i < n then F i j / (a i - a (i - k)) else F i j) := by
    intro i hi
    split_ifs
    · rw [hx i hi, sum_div]
      exact sum_congr rfl fun j _ => mul_div_assoc _ _ _
    · exact hx i hi
  simp only [vanderBack]
  by_cases h : k - 1 ≤ i ∧ i < n - 1
  · simp only [if_pos h]
    rw [hy i hi, hy (i + 1) (by omega), ← sum_sub_distrib]
    exact sum_congr rfl fun j _ => (mul_sub _ _ _).symm
  · simp only [if_neg h]
    exact hy i hi

theorem back_closed (n : ℕ) (a z : ℕ → K) (ha : ∀ i j, i < n → j < n → a i = a j → i = j)
    (k : ℕ) (hk : k ≤ n - 1) (x : ℕ → K)
    (hx : ∀ i, i < n → x i = ∑ j ∈ range n, z j * coef a k i j) :
    ∀ i, i < n → (List.range' 1 k).reverse.foldl (vanderBack n a) x i = z i := by
  induction k generalizing x with
  | zero =>
    intro i hi
    simp only [List.range'_zero, List.reverse_nil, List.foldl_nil]
    rw [hx i hi]
    simp [coef, hi]
  | succ k ih =>
    intro i hi
    rw [List.range'_concat, List.reverse_append]
    simp only [List.reverse_cons, List.reverse_nil, List.nil_append, List.cons_append,
      List.foldl_cons, Nat.one_mul]
    apply ih (by omega) _ _ i hi
    intro i hi
    rw [show 1 + k = k + 1 by omega, back_lin n a (k + 1) n (by omega) z x _ hx i hi]
    apply sum_congr rfl
    intro j hj
    rw [back_coef n a ha k hk i j hi (mem_range.1 hj)]

/-- C49: `solve_vander(a, b)` returns the solution of `Σ_j z_j a_j^i = b_i`, for distinct nodes:
any solution `z` is what is computed. -/
theorem C49_solve (n : ℕ) (a z b : ℕ → K) (ha : ∀ i j, i < n → j < n → a i = a j → i = j)
    (hb : ∀ i, i < n → b i = ∑ j ∈ range n, z j * a j ^ i) :
    ∀ i, i < n → solveVander n a b i = z i := by
  apply back_closed n a z ha (n - 1) le_rfl
  intro i hi
  rw [fwd_closed n a z b n hb (n - 1) i hi]
  apply sum_congr rfl
  intro j hj
  rw [mem_range] at hj
  rw [show min i (n - 1) = i by omega, show i - (n - 1) = 0 by omega, pow_zero, mul_one]
  congr 1
  simp only [coef]
  by_cases h1 : n - 1 = 0
  · have e1 : i = 0 := by omega
    have e2 : j = 0 := by omega
    subst e1 e2
    simp [h1, newton]
  rw [if_neg h1]
  by_cases h2 : i < n - 1
  · rw [if_pos h2]
  · rw [if_neg h2]
    have e : i = n - 1 := by omega
    by_cases h3 : i ≤ j
    · have e' : j = i := by omega
      rw [if_pos h3, e', show i - (n - 1) = 0 by omega, newton]
      obtain ⟨q, hq⟩ : ∃ q, i = q + 1 := ⟨i - 1, by omega⟩
      rw [show n - 1 - 1 = q by omega, hq, prod_range_succ', Nat.add_sub_cancel, mul_comm]
      congr 1
      rw [← prod_range_reflect]
      apply prod_congr rfl
      intro l hl
      rw [mem_range] at hl
      rw [show q - 1 - l + 1 = q - l by omega]
    · rw [if_neg h3, newton_zero a i j (by omega)]

/-- The Vandermonde map as a linear map. -/
def vanderMap (n : ℕ) (a : ℕ → K) : (Fin n → K) →ₗ[K] (Fin n → K) where
  toFun z := fun i => ∑ j : Fin n, z j * a j ^ (i : ℕ)
  map_add' z w := by
    funext i; simp only [Pi.add_apply, add_mul, sum_add_distrib]
  map_smul' c z := by
    funext i
    simp only [Pi.smul_apply, smul_eq_mul, mul_assoc, mul_sum, RingHom.id_apply]

/-- Extension by zero. -/
def ext {n : ℕ} (z : Fin n → K) (i : ℕ) : K := if h : i < n then z ⟨i, h⟩ else 0

theorem ext_fin {n : ℕ} (z : Fin n → K) (i : Fin n) : ext z i = z i := by
  simp [ext]

theorem vanderMap_inj (n : ℕ) (a : ℕ → K) (ha : ∀ i j, i < n → j < n → a i = a j → i = j) :
    Function.Injective (vanderMap n a) := by
  have key : ∀ z : Fin n → K, ∀ i : Fin n,
      solveVander n a (ext (vanderMap n a z)) i = z i := by
    intro z i
    rw [← ext_fin z i]
    apply C49_solve n a (ext z) _ ha _ i i.2
    intro r hr
    rw [← Fin.sum_univ_eq_sum_range (fun j => ext z j * a j ^ r) n]
    simp only [ext_fin]
    exact ext_fin (vanderMap n a z) ⟨r, hr⟩
  intro z w h
  funext i
  rw [← key z i, ← key w i, h]

/-- C49: for distinct nodes the result of `solve_vander` does satisfy the system. -/
theorem C49_solve_correct (n : ℕ) (a b : ℕ → K)
    (ha : ∀ i j, i < n → j < n → a i = a j → i = j) :
    ∀ i, i < n → ∑ j ∈ range n, solveVander n a b j * a j ^ i = b i := by
  obtain ⟨z, hz⟩ := LinearMap.injective_iff_surjective.1 (vanderMap_inj n a ha)
    (fun i : Fin n => b i)
  have hb : ∀ i, i < n → b i = ∑ j ∈ range n, ext z j * a j ^ i := by
    intro i hi
    have := congrFun hz ⟨i, hi⟩
    simp only [vanderMap, LinearMap.coe_mk, AddHom.coe_mk] at this
    rw [← this, ← Fin.sum_univ_eq_sum_range (fun j => ext z j * a j ^ i) n]
    simp only [ext_fin]
  have hs := C49_solve n a (ext z) b ha hb
  intro i hi
  rw [hb i hi]
  apply sum_congr rfl
  intro j hj
  rw [hs j (mem_range.1 hj)]

/-- Spec: `np.vander(a)`, powers decreasing along a row. -/
def npVander (n : ℕ) (a : ℕ → K) : Matrix (Fin n) (Fin n) K := fun j c => a j ^ (n - 1 - (c : ℕ))

/-- C49: `_inv_vander(a)` is the inverse of `np.vander(a)`, on either side. -/
theorem C49_inv (n : ℕ) (a : ℕ → K) (ha : ∀ i j, i < n → j < n → a i = a j → i = j) :
    (Matrix.of fun i j : Fin n => invVander n a i j) * npVander n a = 1 ∧
      npVander n a * (Matrix.of fun i j : Fin n => invVander n a i j) = 1 := by
  have h : (Matrix.of fun i j : Fin n => invVander n a i j) * npVander n a = 1 := by
    ext i c
    rw [Matrix.mul_apply]
    simp only [Matrix.of_apply, npVander, invVander]
    rw [Fin.sum_univ_eq_sum_range (fun j => solveVander n a
      (fun j => if j = n - (i : ℕ) - 1 then 1 else 0) j * a j ^ (n - 1 - (c : ℕ))) n,
      C49_solve_correct n a _ ha _ (by omega), Matrix.one_apply]
    by_cases hic : i = c
    · rw [if_pos hic, if_pos (by rw [hic]; omega)]
    · rw [if_neg hic, if_neg]
      intro h
      exact hic (Fin.ext (by omega))
  exact ⟨h, mul_eq_one_comm.1 h⟩

example : ∀ i j, i < 2 → j < 2 → (![1, 3] : Fin 2 → ℚ) (Fin.ofNat 2 i) =
    (![1, 3] : Fin 2 → ℚ) (Fin.ofNat 2 j) → i = j := by
  intro i j hi hj
  interval_cases i <;> interval_cases j <;> simp [Fin.ofNat]

/-- With a repeated node the division is by zero and the result is not a solution. -/
theorem C49_distinct_needed : ∃ a b : ℕ → ℚ,
    ¬ ∀ i, i < 2 → ∑ j ∈ range 2, solveVander 2 a b j * a j ^ i = b i := by
  refine ⟨fun _ => 1, fun i => i, fun h => ?_⟩
  have := h 0 (by norm_num)
  have h' := h 1 (by norm_num)
  simp [sum_range_succ, solveVander, vanderFwd, vanderBack] at this h'

end Verif.Lin
