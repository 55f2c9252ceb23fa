import Verif.Nd.WeightLemmas
import Mathlib.LinearAlgebra.Vandermonde
import Mathlib.Tactic.FieldSimp
import Mathlib.Algebra.BigOperators.Field
/-!
# C115: the finite difference weights
-/
namespace Verif.Nd
open Polynomial Finset

variable {R : Type*} [Field R]

/-- Column `k` of the array built by `_fd_coefs` differentiates `k` times, exactly on every polynomial of degree below the
number of points. -/
theorem C115_weights (m n : ℕ) (hm : 0 < m) (x : ℕ → R) (x0 : R) (hx : ∀ i < m, ∀ j < m, x i = x j → i = j) :
    ∃ W, fdCoefs m x x0 n = some W ∧ ∀ P : R[X], P.degree < m → ∀ k ≤ n,
      ∑ j ∈ range m, W j k * P.eval (x j) = eval x0 (derivative^[k] P) := by
  obtain ⟨W, h1, h2⟩ := fdCoefs_lag m hm x x0 n hx
  refine ⟨W, h1, fun P hP k hk => ?_⟩
  have h := weights_exact m x x0 hx P hP k
  rw [dAt] at h
  rw [← h]
  exact sum_congr rfl fun j hj => by rw [h2, if_pos ⟨mem_range.1 hj, hk⟩]

/-- The hypotheses hold for the points 0, 1, 2: the weights of the first derivative at 0 are -3/2, 2, -1/2. -/
example : (fdCoefs (R := ℚ) 3 (fun i => i) 0 1).map (fun W => [W 0 1, W 1 1, W 2 1]) = some [-3/2, 2, -1/2] := by
  decide +kernel

theorem dAt_affine (P : R[X]) (x h : R) (k : ℕ) :
    dAt 0 k (P.comp (C x + C h * X)) = h ^ k * eval x (derivative^[k] P) := by
  have key : ∀ k, derivative^[k] (P.comp (C x + C h * X)) = C (h ^ k) * (derivative^[k] P).comp (C x + C h * X) := by
    intro k
    induction k with
    | zero => simp
    | succ k ih =>
      rw [Function.iterate_succ_apply', ih, derivative_C_mul, derivative_comp, Function.iterate_succ_apply']
      simp only [derivative_add, derivative_C, derivative_C_mul, derivative_X, zero_add, mul_one, pow_succ, C_mul]
      ring
  rw [dAt, key]
  simp [eval_comp]

theorem affine_degree (P : R[X]) (x h : R) {m : ℕ} (hm : 0 < m) (hP : P.degree < m) :
    (P.comp (C x + C h * X)).degree < m := by
  have h1 : P.natDegree < m := by
    by_cases h0 : P = 0
    · rw [h0, natDegree_zero]; exact hm
    · exact (natDegree_lt_iff_degree_lt h0).2 hP
  have h2 : (C x + C h * X : R[X]).natDegree ≤ 1 := by
    refine (natDegree_add_le _ _).trans (max_le ?_ ?_)
    · simp
    · exact (natDegree_C_mul_le _ _).trans natDegree_X_le
  refine lt_of_le_of_lt degree_le_natDegree ?_
  rw [natDegree_comp]
  have h3 : P.natDegree * (C x + C h * X : R[X]).natDegree ≤ P.natDegree := by
    calc _ ≤ P.natDegree * 1 := Nat.mul_le_mul le_rfl h2
      _ = _ := mul_one _
  exact_mod_cast lt_of_le_of_lt h3 h1

theorem linsp_inj [CharZero R] (n N : ℕ) (hn : 0 < n) : ∀ i < N, ∀ j < N,
    linsp (-(n : R)) n N i = linsp (-(n : R)) n N j → i = j := by
  intro i hi j hj h
  by_cases hN : N = 1
  · omega
  have h1 : ((N - 1 : ℕ) : R) ≠ 0 := by exact_mod_cast (by omega : N - 1 ≠ 0)
  have h2 : (n : R) ≠ 0 := by exact_mod_cast hn.ne'
  have h3 : ((n : R) - -(n : R)) / ((N - 1 : ℕ) : R) ≠ 0 := by
    refine div_ne_zero ?_ h1
    rw [sub_neg_eq_add, ← two_mul]
    exact mul_ne_zero two_ne_zero h2
  simp only [linsp, add_right_inj] at h
  exact_mod_cast mul_right_cancel₀ h3 h

theorem foldl_add {ι : Type*} (l : List ι) (g : ι → R) (a : R) : l.foldl (fun d i => d + g i) a = a + (l.map g).sum := by
  induction l generalizing a with
  | nil => simp
  | cons b l ih => rw [List.foldl_cons, ih, List.map_cons, List.sum_cons, add_assoc]

/-- `finite_diff` is exact on polynomials of degree at most `2m + 2·order`. -/
theorem C115_finite_diff [CharZero R] (P : R[X]) (x : R) (order m n : ℕ) (hn : 0 < n)
    (hP : P.degree < (2 * m + 2 * order + 1 : ℕ)) :
    finiteDiff (fun t => P.eval t) x order m n = some (eval x (derivative^[order] P)) := by
  obtain ⟨N, hN⟩ : ∃ N, N = 2 * m + 2 * order + 1 := ⟨_, rfl⟩
  rw [← hN] at hP
  have hN0 : 0 < N := by omega
  obtain ⟨W, h1, h2⟩ := C115_weights N order hN0 (linsp (-(n : R)) n N) 0 (linsp_inj n N hn)
  have hh : (1 / (n : R)) ≠ 0 := one_div_ne_zero (by exact_mod_cast hn.ne')
  have h3 := h2 (P.comp (C x + C (1 / (n : R)) * X)) (affine_degree P x _ hN0 hP) order le_rfl
  have h4 := dAt_affine P x (1 / (n : R)) order
  rw [dAt] at h4
  rw [h4] at h3
  simp only [finiteDiff, ← hN, h1, Option.map_some, foldl_add, zero_add]
  have e1 : ∀ g : ℕ → R, ((List.range N).map g).sum = ∑ i ∈ range N, g i := fun g => rfl
  rw [e1, ← Finset.sum_div]
  simp only [eval_comp, eval_add, eval_C, eval_mul, eval_X] at h3
  rw [h3, mul_div_cancel_left₀ _ (pow_ne_zero _ hh)]

/-- With the default settings: fifteen points for the first derivative. -/
example (x : ℚ) : finiteDiff (fun t => (X ^ 10 : ℚ[X]).eval t) x 1 6 16 = some (eval x (derivative^[1] (X ^ 10 : ℚ[X]))) :=
  C115_finite_diff _ x 1 6 16 (by norm_num) (by rw [degree_X_pow]; norm_num)

theorem dAt_coeff (P : R[X]) (k : ℕ) : dAt 0 k P = k.factorial * P.coeff k := by
  rw [dAt, ← coeff_zero_eq_eval_zero, coeff_iterate_derivative, zero_add, Nat.descFactorial_self, nsmul_eq_mul]

/-- `fd_coefficients` needs distinct points and an order below their number. -/
theorem C115_coefficients_raises {m : ℕ} (pts : Fin m → R) (order : ℕ) :
    (fdCoefficients pts order).isSome ↔ order < m ∧ Function.Injective pts := by
  have hA : (Matrix.of fun i j : Fin m => pts j ^ (i : ℕ)) = (Matrix.vandermonde pts).transpose := by
    ext i j; simp [Matrix.vandermonde_apply]
  have h : IsUnit (Matrix.of fun i j : Fin m => pts j ^ (i : ℕ)).det ↔ Function.Injective pts := by
    rw [hA, Matrix.det_transpose, isUnit_iff_ne_zero, Matrix.det_vandermonde_ne_zero_iff]
  rw [fdCoefficients, ← h]
  by_cases hc : order < m ∧ IsUnit (Matrix.of fun i j : Fin m => pts j ^ (i : ℕ)).det
  · simp only [if_pos hc, Option.isSome_some, true_iff]; exact hc
  · simp only [if_neg hc, Option.isSome_none, Bool.false_eq_true, false_iff]; exact hc

theorem fdCoefficients_moment {m : ℕ} {pts : Fin m → R} {order : ℕ} {c : Fin m → R}
    (h : fdCoefficients pts order = some c) (i : Fin m) :
    ∑ j, c j * pts j ^ (i : ℕ) = if (i : ℕ) = order then (order.factorial : R) else 0 := by
  rw [fdCoefficients] at h
  by_cases hc : order < m ∧ IsUnit (Matrix.of fun i j : Fin m => pts j ^ (i : ℕ)).det
  · simp only [if_pos hc] at h
    have h := Option.some.inj h
    have h2 := congrFun (congrArg (Matrix.mulVec (Matrix.of fun i j : Fin m => pts j ^ (i : ℕ))) h) i
    rw [Matrix.mulVec_mulVec, Matrix.mul_nonsing_inv _ hc.2, Matrix.one_mulVec] at h2
    rw [h2]
    simp only [Matrix.mulVec, dotProduct, Matrix.of_apply]
    exact sum_congr rfl fun j _ => mul_comm _ _
  · simp only [if_neg hc] at h; cases h

/-- The weights of `fd_coefficients` differentiate polynomials of degree below the number of points exactly. -/
theorem C115_coefficients {m : ℕ} {pts : Fin m → R} {order : ℕ} {c : Fin m → R}
    (h : fdCoefficients pts order = some c) (P : R[X]) (hP : P.degree < m) :
    ∑ j, c j * P.eval (pts j) = eval 0 (derivative^[order] P) := by
  have hs : (fdCoefficients pts order).isSome := by rw [h]; rfl
  have ho := ((C115_coefficients_raises pts order).1 hs).1
  have h1 : P.natDegree < m := by
    by_cases h0 : P = 0
    · rw [h0, natDegree_zero]; omega
    · exact (natDegree_lt_iff_degree_lt h0).2 hP
  have hd := dAt_coeff P order
  rw [dAt] at hd
  rw [hd]
  calc ∑ j, c j * P.eval (pts j) = ∑ j, ∑ i : Fin m, P.coeff i * (c j * pts j ^ (i : ℕ)) := by
        refine sum_congr rfl fun j _ => ?_
        rw [eval_eq_sum_range' h1, Finset.sum_range fun i => P.coeff i * pts j ^ i, mul_sum]
        exact sum_congr rfl fun i _ => by ring
    _ = ∑ i : Fin m, P.coeff i * ∑ j, c j * pts j ^ (i : ℕ) := by
        rw [sum_comm]; exact sum_congr rfl fun i _ => by rw [mul_sum]
    _ = ∑ i : Fin m, if i = ⟨order, ho⟩ then P.coeff i * order.factorial else 0 := by
        refine sum_congr rfl fun i _ => ?_
        rw [fdCoefficients_moment h i]
        by_cases hi : i = ⟨order, ho⟩
        · subst hi; simp
        · rw [if_neg hi, if_neg (fun h => hi (Fin.ext h)), mul_zero]
    _ = _ := by rw [sum_ite_eq' univ, if_pos (mem_univ _), mul_comm]

/-- `fd_derivative` is exact on polynomials of degree below the number of points. -/
theorem C115_fd_derivative {m : ℕ} {pts : Fin m → R} {order : ℕ} (x eps : R) (he : eps ≠ 0) (hm : order < m)
    (hp : Function.Injective pts) (P : R[X]) (hP : P.degree < m) :
    fdDerivative (fun t => P.eval t) x eps order pts = some (eval x (derivative^[order] P)) := by
  obtain ⟨c, hc⟩ := Option.isSome_iff_exists.1 ((C115_coefficients_raises pts order).2 ⟨hm, hp⟩)
  have h := C115_coefficients hc (P.comp (C x + C eps * X)) (affine_degree P x eps (by omega) hP)
  have h4 := dAt_affine P x eps order
  rw [dAt] at h4
  rw [h4] at h
  simp only [eval_comp, eval_add, eval_C, eval_mul, eval_X] at h
  rw [fdDerivative, hc, Option.map_some, h, mul_div_cancel_left₀ _ (pow_ne_zero _ he)]

/-- The two ways of computing the weights agree. -/
theorem C115_agree (m : ℕ) (x : ℕ → R) (order : ℕ) (hm : order < m) (hx : ∀ i < m, ∀ j < m, x i = x j → i = j) :
    ∃ W c, fdCoefs m x 0 order = some W ∧ fdCoefficients (fun j : Fin m => x j) order = some c ∧
      ∀ j : Fin m, c j = W j order := by
  obtain ⟨W, h1, h2⟩ := fdCoefs_lag m (by omega) x 0 order hx
  have hp : Function.Injective fun j : Fin m => x j := fun a b h => Fin.ext (hx a a.2 b b.2 h)
  obtain ⟨c, hc⟩ := Option.isSome_iff_exists.1 ((C115_coefficients_raises _ order).2 ⟨hm, hp⟩)
  refine ⟨W, c, h1, hc, fun j => ?_⟩
  have hinj : Set.InjOn x (range m : Finset ℕ) := by
    intro a ha b hb hab
    exact hx a (by simpa using ha) b (by simpa using hb) hab
  have hj : (j : ℕ) ∈ range m := mem_range.2 j.2
  have hdeg : (Lagrange.basis (range m) x j).degree < m := by
    rw [Lagrange.degree_basis hinj hj, card_range]
    exact_mod_cast (by omega : m - 1 < m)
  have h := C115_coefficients hc _ hdeg
  rw [h2, if_pos ⟨j.2, le_rfl⟩, dAt, ← h, sum_eq_single j]
  · rw [Lagrange.eval_basis_self hinj hj, mul_one]
  · intro b _ hb
    rw [Lagrange.eval_basis_of_ne (fun hh => hb (Fin.ext hh.symm)) (mem_range.2 b.2), mul_zero]
  · intro h; exact absurd (mem_univ _) h

end Verif.Nd
