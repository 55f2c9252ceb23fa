import Verif.Nd.DiffProps
import Mathlib.Algebra.Order.Floor.Ring
import Mathlib.Tactic.Positivity
import Mathlib.Algebra.BigOperators.Field
import Mathlib.Data.List.GetD
/-!
# C117: extrapolated differences
-/
namespace Verif.Nd
open Finset

section
variable {R : Type*} [Field R] [LinearOrder R] [IsStrictOrderedRing R]

/-- The factor by which `i` passes multiply the term of order `2m`. -/
def fac (i m : ℕ) : R := ∏ l ∈ range i, ((1 / 4 : R) ^ m * 4 ^ (l + 1) - 1) / (4 ^ (l + 1) - 1)

omit [IsStrictOrderedRing R] in
theorem rich_succ (i : ℕ) (A : ℕ → R) (k : ℕ) : rich (i + 1) A k = richStep (4 ^ (i + 1)) (rich i A) k := by
  rw [rich, rich, List.range_succ, List.foldl_append, List.foldl_cons, List.foldl_nil]

theorem four_pow_ne (l : ℕ) : (4 : R) ^ (l + 1) - 1 ≠ 0 := by
  have : (1 : R) < 4 ^ (l + 1) := one_lt_pow₀ (by norm_num) (by omega)
  exact (sub_pos.2 this).ne'

theorem rich_poly (M : ℕ) (a : ℕ → R) (H : R) (A : ℕ → R) (hA : ∀ k, A k = ∑ m ∈ range M, a m * (H / 4 ^ k) ^ m) (i k : ℕ) :
    rich i A k = ∑ m ∈ range M, a m * fac i m * (H / 4 ^ k) ^ m := by
  induction i generalizing k with
  | zero => simp [rich, hA, fac]
  | succ i ih =>
    rw [rich_succ, richStep, ih, ih, sum_mul, ← sum_sub_distrib, sum_div]
    refine sum_congr rfl fun m _ => ?_
    have e1 : (H / 4 ^ (k + 1)) ^ m = (H / 4 ^ k) ^ m * (1 / 4) ^ m := by rw [← mul_pow]; congr 1; rw [pow_succ]; field_simp
    have e2 : fac (i + 1) m = fac i m * (((1 / 4 : R) ^ m * 4 ^ (i + 1) - 1) / (4 ^ (i + 1) - 1)) := by
      rw [fac, prod_range_succ, fac]
    rw [e1, e2]
    ring

/-- `nr - 1` passes remove all terms but the first. -/
theorem rich_exact (M nr : ℕ) (hM : M ≤ nr) (hM0 : 0 < M) (a : ℕ → R) (H : R) (A : ℕ → R)
    (hA : ∀ k, A k = ∑ m ∈ range M, a m * (H / 4 ^ k) ^ m) : rich (nr - 1) A 0 = a 0 := by
  rw [rich_poly M a H A hA, sum_eq_single 0]
  · rw [pow_zero, mul_one, fac, prod_eq_one, mul_one]
    intro l _
    rw [pow_zero, one_mul, div_self (four_pow_ne l)]
  · intro m hm hm0
    have : fac (nr - 1) m = (0 : R) := by
      refine prod_eq_zero (mem_range.2 (by have := mem_range.1 hm; omega : m - 1 < nr - 1)) ?_
      rw [Nat.sub_add_cancel (by omega), ← mul_pow]
      norm_num
    rw [this]; ring
  · intro h; exact absurd (mem_range.2 hM0) h

theorem odd_sum (c : ℕ → R) (h : R) (M : ℕ) : ∑ a ∈ range (2 * M + 1), c a * h ^ a - ∑ a ∈ range (2 * M + 1), c a * (-h) ^ a =
    2 * h * ∑ m ∈ range M, c (2 * m + 1) * (h ^ 2) ^ m := by
  induction M with
  | zero => simp
  | succ M ih =>
    have e1 : 2 * (M + 1) + 1 = 2 * M + 1 + 1 + 1 := by ring
    rw [e1, sum_range_succ _ (2 * M + 1 + 1), sum_range_succ _ (2 * M + 1), sum_range_succ _ (2 * M + 1 + 1),
      sum_range_succ _ (2 * M + 1), sum_range_succ _ M, mul_add, ← ih]
    have e2 : (-h) ^ (2 * M + 1) = -h ^ (2 * M + 1) := Odd.neg_pow ⟨M, rfl⟩ h
    have e3 : (-h) ^ (2 * M + 1 + 1) = h ^ (2 * M + 1 + 1) := Even.neg_pow ⟨M + 1, by ring⟩ h
    have e4 : h ^ (2 * M + 1) = h * (h ^ 2) ^ M := by rw [← pow_mul, pow_succ, mul_comm]
    rw [e2, e3, e4]
    ring

theorem even_sum (c : ℕ → R) (h : R) (M : ℕ) : ∑ a ∈ range (2 * M + 2), c a * h ^ a + ∑ a ∈ range (2 * M + 2), c a * (-h) ^ a - 2 * c 0 =
    2 * h ^ 2 * ∑ m ∈ range M, c (2 * m + 2) * (h ^ 2) ^ m := by
  induction M with
  | zero => simp [sum_range_succ]; ring
  | succ M ih =>
    have e1 : 2 * (M + 1) + 2 = 2 * M + 2 + 1 + 1 := by ring
    rw [e1, sum_range_succ _ (2 * M + 2 + 1), sum_range_succ _ (2 * M + 2), sum_range_succ _ (2 * M + 2 + 1),
      sum_range_succ _ (2 * M + 2), sum_range_succ _ M, mul_add, ← ih]
    have e2 : (-h) ^ (2 * M + 2 + 1) = -h ^ (2 * M + 2 + 1) := Odd.neg_pow ⟨M + 1, by ring⟩ h
    have e3 : (-h) ^ (2 * M + 2) = h ^ (2 * M + 2) := Even.neg_pow ⟨M + 1, by ring⟩ h
    have e4 : h ^ (2 * M + 2) = h ^ 2 * (h ^ 2) ^ M := by rw [← pow_mul, ← pow_add]; congr 1; ring
    rw [e2, e3, e4]
    ring

theorem step_pos {d eps tol x : R} (hd : 0 < d) (he : 0 < eps) (ht : 0 < tol) : 0 < stepOf d eps tol x := by
  unfold stepOf
  by_cases h : |x| < tol
  · rw [if_pos h, mul_one]; positivity
  · rw [if_neg h, mul_zero, add_zero, abs_mul]
    have : 0 < |x| := lt_of_lt_of_le ht (not_lt.1 h)
    have := abs_pos.2 hd.ne'
    positivity

theorem sq_two (D : R) (k : ℕ) : (D / 2 ^ k) ^ 2 = D ^ 2 / 4 ^ k := by
  rw [div_pow, ← pow_mul, mul_comm k 2, pow_mul]; norm_num

/-- With the ratio 2 the extrapolated gradient is exact on polynomials of degree at most `2 nr`. -/
theorem C117_gradient_partial (f : (ℕ → R) → R) (x : ℕ → R) (eps tol d : R) (hd : 0 < d) (he : 0 < eps) (ht : 0 < tol) (nr : ℕ) (hn : 0 < nr)
    (j : ℕ) (c : ℕ → R) (h : Line f x j (2 * nr + 1) c) : gradApprox f x eps tol d nr 2 j = c 1 := by
  have hs := step_pos (x := x j) hd he ht
  rw [gradApprox]
  generalize stepOf d eps tol (x j) = D at hs
  refine rich_exact nr nr le_rfl hn (fun m => c (2 * m + 1)) (D ^ 2) _ fun k => ?_
  have hk : D / 2 ^ k ≠ 0 := div_ne_zero hs.ne' (by positivity)
  simp only [sub_e, h (D / 2 ^ k), h (-(D / 2 ^ k)), odd_sum, sq_two]
  generalize D / 2 ^ k = u at hk
  field_simp

/-- With another ratio the passes still use powers of four: a cubic is not differentiated exactly by two steps. -/
theorem C117_gradient_violated : gradApprox (fun z : ℕ → ℚ => z 0 ^ 3) (fun _ => 1) (1/10000) (1/100000) (1/10000) 2 3 0 ≠ 3 ∧
    Line (fun z : ℕ → ℚ => z 0 ^ 3) (fun _ => 1) 0 (2 * 2 + 1) (fun a => [1, 3, 3, 1].getD a 0) := by
  refine ⟨by decide +kernel, fun t => ?_⟩
  simp [e, sum_range_succ]
  ring

/-! ## The in-place passes -/

omit [LinearOrder R] [IsStrictOrderedRing R] in
theorem inplace_pass (t : R) (K : ℕ) (A : ℕ → R) (k : ℕ) :
    (List.range K).foldl (fun A k => Function.update A k ((A (k + 1) * t - A k) / (t - 1))) A k =
      if k < K then richStep t A k else A k := by
  induction K generalizing k with
  | zero => simp
  | succ K ih =>
    rw [List.range_succ, List.foldl_append, List.foldl_cons, List.foldl_nil]
    by_cases hk : k = K
    · subst hk
      rw [Function.update_self, ih, ih, if_neg (by omega), if_neg (by omega), if_pos (by omega), richStep]
    · rw [Function.update_of_ne hk, ih]
      by_cases h : k < K
      · rw [if_pos h, if_pos (by omega)]
      · rw [if_neg h, if_neg (by omega)]

omit [IsStrictOrderedRing R] in
theorem inplace_eq (nr : ℕ) (A : ℕ → R) : richInplace nr A 0 = rich (nr - 1) A 0 := by
  have key : ∀ J ≤ nr - 1, ∀ k < nr - J, (List.range J).foldl (fun A j => (List.range (nr - j - 1)).foldl
      (fun A k => Function.update A k ((A (k + 1) * 4 ^ (j + 1) - A k) / (4 ^ (j + 1) - 1))) A) A k = rich J A k := by
    intro J
    induction J with
    | zero => intro _ k _; simp [rich]
    | succ J ih =>
      intro hJ k hk
      rw [List.range_succ, List.foldl_append, List.foldl_cons, List.foldl_nil, inplace_pass, if_pos (by omega), rich_succ,
        richStep, richStep, ih (by omega) k (by omega), ih (by omega) (k + 1) (by omega)]
  by_cases h : nr = 0
  · subst h; simp [richInplace, rich]
  · exact key (nr - 1) le_rfl 0 (by omega)

theorem hessDiag_exact (f : (ℕ → R) → R) (x d : ℕ → R) (nr : ℕ) (hn : 0 < nr) (i : ℕ) (hd : 0 < d i) (c : ℕ → R)
    (h : Line f x i (2 * nr + 2) c) : hessDiag f x d nr 2 i = 2 * c 2 := by
  rw [hessDiag, inplace_eq]
  have h0 : f x = c 0 := by
    have h0 := h 0
    rw [e_zero] at h0
    rw [h0, sum_eq_single 0]
    · simp
    · intro b _ hb; simp [hb]
    · intro hh; simp at hh
  refine rich_exact nr nr le_rfl hn (fun m => 2 * c (2 * m + 2)) (d i ^ 2) _ fun k => ?_
  have hk : d i / 2 ^ k ≠ 0 := div_ne_zero hd.ne' (by positivity)
  have he := even_sum c (d i / 2 ^ k) nr
  simp only [sub_e, h (d i / 2 ^ k), h (-(d i / 2 ^ k)), h0]
  rw [he, ← sq_two]
  generalize d i / 2 ^ k = u at hk
  rw [mul_assoc, mul_sum, mul_sum, sum_div]
  refine sum_congr rfl fun m _ => ?_
  field_simp

theorem hessGrad_exact (f : (ℕ → R) → R) (x d : ℕ → R) (nr : ℕ) (hn : 0 < nr) (i : ℕ) (hd : 0 < d i) (c : ℕ → R)
    (h : Line f x i (2 * nr + 1) c) : hessGrad f x d nr 2 i = c 1 := by
  rw [hessGrad, inplace_eq]
  refine rich_exact nr nr le_rfl hn (fun m => c (2 * m + 1)) (d i ^ 2) _ fun k => ?_
  have hk : d i / 2 ^ k ≠ 0 := div_ne_zero hd.ne' (by positivity)
  simp only [sub_e, h (d i / 2 ^ k), h (-(d i / 2 ^ k)), odd_sum, sq_two]
  generalize d i / 2 ^ k = u at hk
  field_simp

/-- Along coordinates `i`, `j` the function is a polynomial of degree below `N`. -/
def Total (f : (ℕ → R) → R) (x : ℕ → R) (i j N : ℕ) (c : ℕ → ℕ → R) : Prop :=
  ∀ s t, f (x + e i s + e j t) = ∑ k ∈ range N, ∑ p ∈ antidiagonal k, c p.1 p.2 * s ^ p.1 * t ^ p.2

omit [LinearOrder R] [IsStrictOrderedRing R] in
theorem Total.line {f : (ℕ → R) → R} {x : ℕ → R} {i j N : ℕ} {c : ℕ → ℕ → R} (h : Total f x i j N c) :
    Line f x i N fun a => c a 0 := by
  intro s
  have := h s 0
  rw [e_zero] at this
  rw [this]
  refine sum_congr rfl fun k _ => ?_
  rw [sum_eq_single (k, 0)]
  · simp
  · rintro ⟨a, b⟩ hab hne
    have hab := mem_antidiagonal.1 hab
    have hb : b ≠ 0 := by rintro rfl; exact hne (by simp at hab; rw [hab])
    simp [hb]
  · intro hh; simp at hh

omit [LinearOrder R] [IsStrictOrderedRing R] in
theorem Total.line' {f : (ℕ → R) → R} {x : ℕ → R} {i j N : ℕ} {c : ℕ → ℕ → R} (h : Total f x i j N c) :
    Line f x j N fun a => c 0 a := by
  intro s
  have := h 0 s
  rw [e_zero] at this
  rw [this]
  refine sum_congr rfl fun k _ => ?_
  rw [sum_eq_single (0, k)]
  · simp
  · rintro ⟨a, b⟩ hab hne
    have hab := mem_antidiagonal.1 hab
    have ha : a ≠ 0 := by rintro rfl; exact hne (by simp at hab; rw [hab])
    simp [ha]
  · intro hh; simp at hh

theorem hessOff_exact (f : (ℕ → R) → R) (x d : ℕ → R) (nr : ℕ) (hn : 0 < nr) (i j : ℕ) (hi : 0 < d i) (hj : 0 < d j) (c : ℕ → ℕ → R)
    (h : Total f x i j (2 * nr + 2) c) : hessOff f x d nr 2 i j = c 1 1 := by
  have h1 := hessDiag_exact f x d nr hn i hi _ h.line
  have h2 := hessDiag_exact f x d nr hn j hj _ h.line'
  rw [hessOff, inplace_eq]
  simp only [h1, h2]
  obtain ⟨q, hq⟩ : ∃ q : ℕ → R, q = fun k => ∑ p ∈ antidiagonal k, c p.1 p.2 * d i ^ p.1 * d j ^ p.2 := ⟨_, rfl⟩
  have hl : ∀ s, f (x + e i (d i * s) + e j (d j * s)) = ∑ k ∈ range (2 * nr + 2), q k * s ^ k := by
    intro s
    rw [h, hq]
    refine sum_congr rfl fun k _ => ?_
    rw [sum_mul]
    refine sum_congr rfl fun p hp => ?_
    rw [← mem_antidiagonal.1 hp, pow_add]
    ring
  have h0 : f x = q 0 := by
    have h0 := hl 0
    rw [mul_zero, mul_zero, e_zero, e_zero] at h0
    rw [h0, sum_eq_single 0]
    · simp
    · intro b _ hb; simp [hb]
    · intro hh; simp at hh
  have q2 : q 2 = c 0 2 * d j ^ 2 + c 1 1 * d i * d j + c 2 0 * d i ^ 2 := by
    rw [hq]; simp [Finset.Nat.antidiagonal_succ]; ring
  have goal : c 1 1 = (fun m => (if m = 0 then -(2 * c 2 0 * d i ^ 2) - 2 * c 0 2 * d j ^ 2 else 0) / (2 * d i * d j) +
      2 * q (2 * m + 2) / (2 * d i * d j)) 0 := by
    simp only [if_true, mul_zero, zero_add, q2]
    field_simp
    ring
  rw [goal]
  refine rich_exact nr nr le_rfl hn (fun m => (if m = 0 then -(2 * c 2 0 * d i ^ 2) - 2 * c 0 2 * d j ^ 2 else 0) / (2 * d i * d j) +
      2 * q (2 * m + 2) / (2 * d i * d j)) 1 _ fun k => ?_
  have hu : (1 / 2 : R) ^ k ≠ 0 := by positivity
  have hu2 : (1 / 4 ^ k : R) = ((1 / 2 : R) ^ k) ^ 2 := by
    rw [← pow_mul, mul_comm k 2, pow_mul, one_div, ← inv_pow]; norm_num
  have a1 : d i / 2 ^ k = d i * (1 / 2) ^ k := by rw [one_div_pow]; ring
  have a2 : d j / 2 ^ k = d j * (1 / 2) ^ k := by rw [one_div_pow]; ring
  simp only [sub_e, a1, a2, hu2]
  generalize (1 / 2 : R) ^ k = u at hu
  have b1 : f (x + e i (-(d i * u)) + e j (-(d j * u))) = ∑ k ∈ range (2 * nr + 2), q k * (-u) ^ k := by
    rw [← hl (-u), mul_neg, mul_neg]
  rw [hl, b1, h0]
  have he := even_sum q u nr
  have : ∑ a ∈ range (2 * nr + 2), q a * u ^ a - 2 * q 0 + ∑ a ∈ range (2 * nr + 2), q a * (-u) ^ a =
      2 * u ^ 2 * ∑ m ∈ range nr, q (2 * m + 2) * (u ^ 2) ^ m := by rw [← he]; ring
  rw [this]
  simp only [add_mul, sum_add_distrib]
  have s1 : ∑ m ∈ range nr, (if m = 0 then -(2 * c 2 0 * d i ^ 2) - 2 * c 0 2 * d j ^ 2 else 0) / (2 * d i * d j) * (u ^ 2) ^ m =
      (-(2 * c 2 0 * d i ^ 2) - 2 * c 0 2 * d j ^ 2) / (2 * d i * d j) := by
    rw [sum_eq_single 0]
    · simp
    · intro b _ hb; simp [hb]
    · intro hh; exact absurd (mem_range.2 hn) hh
  have s2 : ∑ m ∈ range nr, 2 * q (2 * m + 2) / (2 * d i * d j) * (u ^ 2) ^ m =
      (∑ m ∈ range nr, q (2 * m + 2) * (u ^ 2) ^ m) * 2 / (2 * d i * d j) := by
    rw [sum_mul, sum_div]; exact sum_congr rfl fun m _ => by ring
  rw [s1, s2]
  generalize ∑ m ∈ range nr, q (2 * m + 2) * (u ^ 2) ^ m = S
  have := hi.ne'
  have := hj.ne'
  field_simp
  ring

theorem cols_get {α : Type*} (g : ℕ → ℕ → α) (nx i j : ℕ) (dflt : α) (hi : i < nx) (hj : j ≤ i) :
    ((List.range nx).flatMap fun i => (List.range (i + 1)).map (g i)).getD (((List.range i).map (· + 1)).sum + j) dflt = g i j := by
  have hlen : ∀ n, ((List.range n).flatMap fun i => (List.range (i + 1)).map (g i)).length = ((List.range n).map (· + 1)).sum := by
    intro n; rw [List.length_flatMap]; simp
  induction nx with
  | zero => omega
  | succ nx ih =>
    rw [List.range_succ, List.flatMap_append, List.flatMap_cons, List.flatMap_nil, List.append_nil]
    by_cases hin : i = nx
    · subst hin
      rw [List.getD_append_right _ _ _ _ (by rw [hlen]; omega), hlen, Nat.add_sub_cancel_left]
      rw [List.getD_eq_getElem?_getD, List.getElem?_map, List.getElem?_range (by omega)]
      rfl
    · rw [List.getD_append _ _ _ _ ?_, ih (by omega)]
      rw [hlen]
      have h1 : ((List.range (i + 1)).map (· + 1)).sum ≤ ((List.range nx).map (· + 1)).sum := by
        have : nx = (i + 1) + (nx - (i + 1)) := by omega
        rw [this, List.range_add (n := i + 1), List.map_append, List.sum_append]
        exact Nat.le_add_right _ _
      rw [List.range_succ, List.map_append, List.sum_append, List.map_cons, List.map_nil, List.sum_cons, List.sum_nil] at h1
      omega

/-- With the ratio 2 `hess_approx2` is exact on polynomials of degree at most `2 nr + 1`, and its columns are read in the
order in which they were written. -/
theorem C117_hessian_partial (f : (ℕ → R) → R) (x : ℕ → R) (a r tol : R) (ha : 0 < a) (hr : 0 < r) (ht : 0 < tol) (nx nr : ℕ)
    (hn : 0 < nr) (i j : ℕ) (hi : i < nx) (hj : j ≤ i) :
    (∀ c, i = j → Line f x i (2 * nr + 2) c → hessApprox2 f x a r tol nx nr 2 i j = 2 * c 2) ∧
    (∀ c, j < i → Total f x i j (2 * nr + 2) c →
      hessApprox2 f x a r tol nx nr 2 i j = c 1 1 ∧ hessApprox2 f x a r tol nx nr 2 j i = c 1 1) := by
  have hcol : ∀ i j, i < nx → j ≤ i → (hessCols f x a r tol nx nr 2).getD (((List.range i).map (· + 1)).sum + j) 0 =
      if i = j then hessDiag f x (fun i => stepOf r a tol (x i)) nr 2 i else hessOff f x (fun i => stepOf r a tol (x i)) nr 2 i j := by
    intro i j hi hj
    exact cols_get (fun i j => if i = j then hessDiag f x (fun i => stepOf r a tol (x i)) nr 2 i else
      hessOff f x (fun i => stepOf r a tol (x i)) nr 2 i j) nx i j 0 hi hj
  constructor
  · intro c hij hl
    simp only [hessApprox2, sym, if_pos hj]
    rw [hcol i j hi hj, if_pos hij]
    exact hessDiag_exact f x _ nr hn i (step_pos hr ha ht) c hl
  · intro c hij hp
    have : hessApprox2 f x a r tol nx nr 2 i j = c 1 1 := by
      simp only [hessApprox2, sym, if_pos hj]
      rw [hcol i j hi hj, if_neg hij.ne']
      exact hessOff_exact f x _ nr hn i j (step_pos hr ha ht) (step_pos hr ha ht) c hp
    refine ⟨this, ?_⟩
    rw [← this, hessApprox2, hessApprox2, sym_comm]

/-- The ratio 3 is as wrong for the Hessian. -/
theorem C117_hessian_violated : hessApprox2 (fun z : ℕ → ℚ => z 0 ^ 4) (fun _ => 1) (1/10000) (1/10000) (1/100000) 1 2 3 0 0 ≠ 12 ∧
    hessApprox2 (fun z : ℕ → ℚ => z 0 ^ 4) (fun _ => 1) (1/10000) (1/10000) (1/100000) 1 2 2 0 0 = 12 := by
  refine ⟨by decide +kernel, by decide +kernel⟩

/-! ## `jac_approx` and `hess_approx` -/

/-- Without further arguments and with a float array `jac_approx` is the central difference, exact on quadratics. -/
theorem C117_jacobian [FloorRing R] (F : (ℕ → R) → List R → R) (X : ℕ → R) (eps tol d : R) (hd : 0 < d) (he : 0 < eps)
    (ht : 0 < tol) (j : ℕ) (c : ℕ → R) (h : Line (fun z => F z []) X j 4 c) :
    jacApprox F X eps tol d [] false j = some (some (c 1 + c 3 * stepOf d eps tol (X j) ^ 2)) := by
  have hs := step_pos (x := X j) hd he ht
  have := (C116_first (fun z => F z []) X _ hs.ne' j c h).2
  simp only [foFcCd] at this
  simp only [jacApprox, wrap, Bool.false_eq_true, if_false, Option.bind_eq_bind, Option.bind_some, if_neg hs.ne', this]
  rfl

/-- Arguments are passed on only if `args` holds one tuple: the documented form `args=(a,)` raises. -/
theorem C117_args_violated [FloorRing R] (F : (ℕ → R) → List R → R) (X : ℕ → R) (eps tol d a b : R) (int : Bool) (j : ℕ) :
    jacApprox F X eps tol d [.scalar a] int j = none ∧
    jacApprox F X eps tol d [.scalar a, .scalar b] int j = none := ⟨rfl, rfl⟩

/-- An integer array: the step is rounded to zero, and every entry is the quotient of two zeros, unless the entry of `X` is large. -/
theorem C117_integer_violated [FloorRing R] (F : (ℕ → R) → List R → R) (X : ℕ → R) (eps tol d : R) (hd : 0 < d)
    (he : 0 < eps) (ht : 0 < tol) (j : ℕ) (hs : |d * X j| + eps < 1) : jacApprox F X eps tol d [] true j = some none := by
  have h1 : stepOf d eps tol (X j) < 1 := by
    refine lt_of_le_of_lt ?_ hs
    unfold stepOf
    split_ifs
    · rw [mul_one]
    · rw [mul_zero]; linarith
  have h2 := step_pos (x := X j) hd he ht
  have h3 : ⌊stepOf d eps tol (X j)⌋ = 0 := Int.floor_eq_zero_iff.2 ⟨h2.le, h1⟩
  simp only [jacApprox, wrap, if_true, h3, Int.cast_zero, Option.bind_eq_bind, Option.bind_some]
  rfl

/-- `X = [1, 2]` with the default settings. -/
example : |(1 / 10000 : ℚ) * 2| + 1 / 10000 < 1 := by norm_num

/-- `hess_approx`: the diagonal is exact up to degree five, the other entries up to degree three. -/
theorem C117_hess_approx (F : (ℕ → R) → R) (X : ℕ → R) (eps tol d : R) (hd : 0 < d) (he : 0 < eps) (ht : 0 < tol) (j k : ℕ) :
    (∀ c, Line F X j 6 c → hessApprox F X eps tol d j j = 2 * c 2) ∧
    (∀ c, j ≠ k → Total F X j k 4 c → hessApprox F X eps tol d j k = c 1 1) := by
  have hj := (step_pos (x := X j) hd he ht).ne'
  have hk := (step_pos (x := X k) hd he ht).ne'
  constructor
  · intro c h
    simp only [hessApprox, if_true, two_e, sub_e, one_mul]
    generalize stepOf d eps tol (X j) = u at hj
    have h0 := h 0
    rw [e_zero] at h0
    rw [h (2 * u), h u, h (-u), h (-(2 * u)), h0]
    simp only [sum_range_succ, sum_range_zero]
    field_simp
    ring
  · intro c hjk h
    simp only [hessApprox, if_neg hjk, sub_e]
    generalize stepOf d eps tol (X j) = u at hj
    generalize stepOf d eps tol (X k) = v at hk
    rw [h u v, h (-u) (-v), h u (-v), h (-u) v]
    simp [sum_range_succ, Finset.Nat.antidiagonal_succ]
    field_simp
    ring

end

end Verif.Nd
