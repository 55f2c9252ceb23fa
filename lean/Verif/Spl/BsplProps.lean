import Verif.Spl.Bspl
import Mathlib.Algebra.BigOperators.Intervals
import Mathlib.Algebra.BigOperators.Ring.Finset
import Mathlib.Algebra.Group.ForwardDiff
import Mathlib.LinearAlgebra.Lagrange
import Mathlib.Analysis.Calculus.Deriv.Mul
import Mathlib.Analysis.Calculus.Deriv.Add
import Mathlib.Tactic.FieldSimp
import Mathlib.Tactic.Linarith
import Mathlib.Tactic.NormNum
/-!
# C121: B-splines and difference penalties
-/
namespace Verif.Spl
open Finset

variable {t : ℕ → ℝ} {l : ℕ}

/-- A B-spline is zero outside its support. -/
theorem C121_support (t : ℕ → ℝ) (l p i : ℕ) (x : ℝ) (h : l < i ∨ i + p < l) : bp t l p i x = 0 := by
  induction p generalizing i with
  | zero => rw [bp, if_neg (by omega)]
  | succ p ih => rw [bp, ih i (by omega), ih (i + 1) (by omega)]; ring

theorem gap (ht : StrictMono t) {i j : ℕ} (h : i < j) : t j - t i ≠ 0 := (sub_pos.2 (ht h)).ne'

/-- The functions of the interval sum to one, at every argument. -/
theorem C121_partition (ht : StrictMono t) {p : ℕ} (hl : p ≤ l) (x : ℝ) : ∑ i ∈ range (l + 1), bp t l p i x = 1 := by
  induction p with
  | zero => simp [bp]
  | succ p ih =>
    have e : ∀ i, bp t l (p + 1) i x = (x - t i) / (t (i + p + 1) - t i) * bp t l p i x +
        (1 - (x - t (i + 1)) / (t (i + 1 + p + 1) - t (i + 1))) * bp t l p (i + 1) x := fun i => by
      have h := gap ht (show i + 1 < i + 1 + p + 1 by omega)
      rw [bp, show i + p + 2 = i + 1 + p + 1 by ring]
      congr 2
      field_simp
      ring
    simp only [e, sum_add_distrib]
    have s2 := sum_range_succ' (fun i => (1 - (x - t i) / (t (i + p + 1) - t i)) * bp t l p i x) (l + 1)
    rw [sum_range_succ, C121_support t l p (l + 1) x (by omega), C121_support t l p 0 x (by omega), mul_zero, mul_zero, add_zero, add_zero] at s2
    rw [← s2, ← sum_add_distrib]
    refine Eq.trans (sum_congr rfl fun i _ => ?_) (ih (by omega))
    ring

/-- On the interval itself they are nonnegative. -/
theorem C121_nonneg (ht : StrictMono t) (p i : ℕ) {x : ℝ} (h1 : t l ≤ x) (h2 : x ≤ t (l + 1)) : 0 ≤ bp t l p i x := by
  induction p generalizing i with
  | zero => rw [bp]; split_ifs <;> norm_num
  | succ p ih =>
    have key : ∀ i, (i ≤ l → 0 ≤ (x - t i) / (t (i + p + 1) - t i)) ∧ (l < i + p + 1 → 0 ≤ (t (i + p + 1) - x) / (t (i + p + 1) - t i)) := by
      intro i
      have hg : 0 ≤ t (i + p + 1) - t i := (sub_pos.2 (ht (by omega))).le
      refine ⟨fun h => div_nonneg (sub_nonneg.2 ((ht.monotone h).trans h1)) hg,
        fun h => div_nonneg (sub_nonneg.2 (h2.trans (ht.monotone h))) hg⟩
    rw [bp]
    refine add_nonneg ?_ ?_
    · by_cases h : i ≤ l
      · exact mul_nonneg ((key i).1 h) (ih i)
      · rw [C121_support t l p i x (by omega), mul_zero]
    · by_cases h : l < i + 1 + p + 1
      · have := (key (i + 1)).2 h
        rw [show i + 1 + p + 1 = i + p + 2 by ring] at this
        exact mul_nonneg this (ih (i + 1))
      · rw [C121_support t l p (i + 1) x (by omega), mul_zero]

/-- The derivative is a difference of B-splines of one degree less. -/
theorem C121_derivative (ht : StrictMono t) (l p i : ℕ) (x : ℝ) : HasDerivAt (bp t l (p + 1) i)
    ((p + 1) * (bp t l p i x / (t (i + p + 1) - t i) - bp t l p (i + 1) x / (t (i + p + 2) - t (i + 1)))) x := by
  have hw1 : ∀ i p, HasDerivAt (fun x => (x - t i) / (t (i + p + 1) - t i)) (1 / (t (i + p + 1) - t i)) x := fun i p =>
    ((hasDerivAt_id x).sub_const _).div_const _
  have hw2 : ∀ i p, HasDerivAt (fun x => (t (i + p + 2) - x) / (t (i + p + 2) - t (i + 1))) (-1 / (t (i + p + 2) - t (i + 1))) x := fun i p =>
    ((hasDerivAt_id x).const_sub _).div_const _
  induction p generalizing i with
  | zero =>
    have h := ((hw1 i 0).mul_const (bp t l 0 i x)).add ((hw2 i 0).mul_const (bp t l 0 (i + 1) x))
    refine (h.congr_deriv ?_)
    push_cast
    ring
  | succ p ih =>
    have h := ((hw1 i (p + 1)).mul (ih i)).add ((hw2 i (p + 1)).mul (ih (i + 1)))
    refine (h.congr_deriv ?_)
    have g1 := gap ht (show i < i + p + 1 by omega)
    have g2 := gap ht (show i < i + (p + 1) + 1 by omega)
    have g3 := gap ht (show i + 1 < i + p + 2 by omega)
    have g4 := gap ht (show i + 1 < i + (p + 1) + 2 by omega)
    have g5 := gap ht (show i + 2 < i + p + 3 by omega)
    rw [bp, bp]
    simp only [show i + 1 + p + 1 = i + p + 2 by ring, show i + 1 + p + 2 = i + p + 3 by ring, show i + 1 + 1 = i + 2 by ring,
      show i + (p + 1) + 1 = i + p + 2 by ring, show i + (p + 1) + 2 = i + p + 3 by ring] at g2 g4 ⊢
    generalize bp t l p i x = A
    generalize bp t l p (i + 1) x = B
    generalize bp t l p (i + 2) x = C
    generalize t i = a at *
    generalize t (i + 1) = b at *
    generalize t (i + 2) = c at *
    generalize t (i + p + 1) = d at *
    generalize t (i + p + 2) = e at *
    generalize t (i + p + 3) = f at *
    push_cast
    field_simp
    ring

/-! ## Equally spaced knots -/

/-- On equally spaced knots, coefficients that are linear in the index give a straight line (degree at least one). -/
theorem C121_lines {t0 dx : ℝ} (hd : 0 < dx) {p : ℕ} (hp : 1 ≤ p) (hl : p ≤ l) (x : ℝ) :
    ∑ i ∈ range (l + 1), (i : ℝ) * bp (fun i : ℕ => t0 + i * dx) l p i x = (x - t0) / dx - ((p : ℝ) + 1) / 2 := by
  obtain ⟨t, htt⟩ : ∃ t : ℕ → ℝ, t = fun i : ℕ => t0 + i * dx := ⟨_, rfl⟩
  have ht : StrictMono t := by
    rw [htt]
    intro a b hab
    have : (a : ℝ) < b := by exact_mod_cast hab
    have := mul_lt_mul_of_pos_right this hd
    simpa using this
  rw [← htt]
  have step : ∀ p, p + 1 ≤ l → ∑ i ∈ range (l + 1), (i : ℝ) * bp t l (p + 1) i x =
      (1 - 1 / ((p : ℝ) + 1)) * ∑ i ∈ range (l + 1), (i : ℝ) * bp t l p i x - 1 + (x - t0) / (((p : ℝ) + 1) * dx) := by
    intro p hp
    have hp1 : ((p : ℝ) + 1) ≠ 0 := by positivity
    have e : ∀ i : ℕ, (i : ℝ) * bp t l (p + 1) i x = (i : ℝ) * ((x - t i) / (((p : ℝ) + 1) * dx)) * bp t l p i x +
        (((i + 1 : ℕ) : ℝ) - 1) * (1 - (x - t (i + 1)) / (((p : ℝ) + 1) * dx)) * bp t l p (i + 1) x := fun i => by
      have h1 : t (i + p + 1) - t i = ((p : ℝ) + 1) * dx := by rw [htt]; push_cast; ring
      have h2 : t (i + p + 2) - t (i + 1) = ((p : ℝ) + 1) * dx := by rw [htt]; push_cast; ring
      have h3 : t (i + p + 2) - x = ((p : ℝ) + 1) * dx - (x - t (i + 1)) := by rw [← h2]; ring
      rw [bp, h1, h2, h3, sub_div (((p : ℝ) + 1) * dx), div_self (mul_ne_zero hp1 hd.ne')]
      push_cast
      ring
    simp only [e, sum_add_distrib]
    have s2 := sum_range_succ' (fun i : ℕ => ((i : ℝ) - 1) * (1 - (x - t i) / (((p : ℝ) + 1) * dx)) * bp t l p i x) (l + 1)
    rw [sum_range_succ, C121_support t l p (l + 1) x (by omega), C121_support t l p 0 x (by omega), mul_zero, mul_zero, add_zero, add_zero] at s2
    rw [← s2, ← sum_add_distrib]
    have e2 : ∀ i : ℕ, (i : ℝ) * ((x - t i) / (((p : ℝ) + 1) * dx)) * bp t l p i x + ((i : ℝ) - 1) * (1 - (x - t i) / (((p : ℝ) + 1) * dx)) * bp t l p i x =
        (1 - 1 / ((p : ℝ) + 1)) * ((i : ℝ) * bp t l p i x) + (- 1 + (x - t0) / (((p : ℝ) + 1) * dx)) * bp t l p i x := fun i => by
      rw [htt]
      field_simp
      ring
    simp only [e2, sum_add_distrib, ← mul_sum]
    rw [C121_partition ht (by omega)]
    ring
  induction p with
  | zero => omega
  | succ p ih =>
    rw [step p hl]
    rcases Nat.eq_zero_or_pos p with h0 | h0
    · subst h0
      norm_num
      ring
    · rw [ih h0 (by omega)]
      push_cast
      field_simp
      ring

/-! ## The interval found by `splev` -/

theorem splevIdx_spec (t : ℕ → ℝ) (q : ℕ) (x : ℝ) : ∀ fuel l, l < q → q ≤ l + fuel →
    l ≤ splevIdx t q x fuel l ∧ splevIdx t q x fuel l < q ∧ (splevIdx t q x fuel l = l ∨ t (splevIdx t q x fuel l) ≤ x) ∧
      (splevIdx t q x fuel l + 1 = q ∨ x < t (splevIdx t q x fuel l + 1))
  | 0, l, h1, h2 => by omega
  | fuel + 1, l, h1, h2 => by
    rw [splevIdx]
    split_ifs with h
    · obtain ⟨a, b, c, d⟩ := splevIdx_spec t q x fuel (l + 1) (by omega) (by omega)
      refine ⟨by omega, b, Or.inr ?_, d⟩
      rcases c with c | c
      · rw [c]; exact h.1
      · exact c
    · refine ⟨le_rfl, h1, Or.inl rfl, ?_⟩
      by_cases h3 : l + 1 = q
      · exact Or.inl h3
      · exact Or.inr (not_le.1 fun h4 => h ⟨h4, h3⟩)

/-- The rows of `bspline_basis` sum to one at every argument, with more than `2 degree + 1` knots. -/
theorem C121_basis (ht : StrictMono t) {N p : ℕ} (hN : 2 * p + 1 < N) (x : ℝ) :
    ∑ i ∈ range (bsplineBasis t N p x).2, (bsplineBasis t N p x).1 i = 1 := by
  obtain ⟨a, b, _⟩ := splevIdx_spec t (N - (p + 1)) x (N - (p + 1)) p (by omega) (by omega)
  simp only [bsplineBasis, splev]
  generalize splevIdx t (N - (p + 1)) x (N - (p + 1)) p = l at a b
  rw [← C121_partition ht a x]
  refine (sum_subset (range_subset_range.2 (by omega)) fun i _ hi => ?_).symm
  exact C121_support t l p i x (Or.inl (by simp at hi; omega))

/-- `equispaced_knots`: the knots are equally spaced, there are `ndx + 2 (degree + 1)` of them, and the range of the data is the part between
knot `degree + 1` and knot `degree + 1 + ndx`. -/
theorem C121_equispaced {xl xr : ℝ} (hx : xl < xr) (degree : ℕ) {ndx : ℕ} (hn : 0 < ndx) :
    (equispaced xl xr degree ndx).2 = ndx + 2 * (degree + 1) ∧ StrictMono (equispaced xl xr degree ndx).1 ∧
    (equispaced xl xr degree ndx).1 (degree + 1) = xl ∧ (equispaced xl xr degree ndx).1 (degree + 1 + ndx) = xr := by
  have hn' : (0 : ℝ) < ndx := by exact_mod_cast hn
  have hd : 0 < (xr - xl) / ndx := div_pos (sub_pos.2 hx) hn'
  have e : (xr - xl) / ndx * ndx = xr - xl := by field_simp
  simp only [equispaced]
  generalize (xr - xl) / (ndx : ℝ) = dx at *
  refine ⟨?_, ?_, ?_, ?_⟩
  · have : (xr + ((degree + 1 : ℕ) : ℝ) * dx - (xl - ((degree + 1 : ℕ) : ℝ) * dx)) / dx = ((ndx + 2 * (degree + 1) : ℕ) : ℝ) := by
      rw [div_eq_iff hd.ne']
      push_cast
      linear_combination -e
    rw [this, Nat.ceil_natCast]
  · intro a b hab
    have : (a : ℝ) < b := by exact_mod_cast hab
    have := mul_lt_mul_of_pos_right this hd
    simpa using this
  · push_cast; ring
  · push_cast; linear_combination e

/-- The columns that `_bspline` keeps sum to one over the range of the data: the dropped one is zero there. -/
theorem C121_bspline {xl xr : ℝ} (hx : xl < xr) (degree : ℕ) {ndx : ℕ} (hn : 0 < ndx) {x : ℝ} (h1 : xl ≤ x) (h2 : x ≤ xr) :
    ∃ row, bspline (equispaced xl xr degree ndx).1 (equispaced xl xr degree ndx).2 degree x = some (row, ndx + degree) ∧
      ∑ i ∈ range (ndx + degree), row i = 1 ∧ ∀ i, 0 ≤ row i := by
  obtain ⟨e1, ht, e2, e3⟩ := C121_equispaced hx degree hn
  rw [bspline, if_neg (by omega), e1]
  refine ⟨_, by rw [show ndx + 2 * (degree + 1) - (degree + 1) - 1 = ndx + degree by omega], ?_⟩
  generalize (equispaced xl xr degree ndx).1 = t at *
  simp only [splev]
  rw [show ndx + 2 * (degree + 1) - (degree + 1) = ndx + degree + 1 by omega]
  obtain ⟨a, b, c, d⟩ := splevIdx_spec t (ndx + degree + 1) x (ndx + degree + 1) degree (by omega) (by omega)
  generalize splevIdx t (ndx + degree + 1) x (ndx + degree + 1) degree = l at *
  have hl : degree + 1 ≤ l := by
    by_contra hc
    have : l = degree := by omega
    rw [this] at d
    rcases d with d | d
    · omega
    · rw [e2] at d; linarith
  have hr : t l ≤ x := by
    rcases c with c | c
    · omega
    · exact c
  have hr' : x ≤ t (l + 1) := by
    rcases d with d | d
    · rw [d, show ndx + degree + 1 = degree + 1 + ndx by ring, e3]; exact h2
    · exact d.le
  refine ⟨?_, fun i => C121_nonneg ht _ _ hr hr'⟩
  have := C121_partition ht a x
  rw [sum_range_succ', C121_support t l degree 0 x (by omega), add_zero] at this
  rw [← this]
  refine (sum_subset (range_subset_range.2 (by omega)) fun i _ hi => ?_).symm
  exact C121_support t l degree (i + 1) x (Or.inl (by simp at hi; omega))

/-- `bspline_knots` with positive degree: there are `df` functions, the inner knots number `df - degree + 1`, and all data lie strictly between the
first and the last of them. -/
theorem C121_knots {xmin xmax : ℝ} (hx : xmin < xmax) {df degree : ℕ} (hd : 1 ≤ degree) (hdf : degree < df) {t : ℕ → ℝ} {N a b : ℕ}
    (h : bsplineKnots xmin xmax df degree = (t, N, a, b)) :
    N - (degree + 1) = df ∧ b - a = df - degree + 1 ∧ StrictMono t ∧ t a < xmin ∧ xmax < t (b - 1) := by
  obtain ⟨m, rfl⟩ : ∃ m, df = degree + m := ⟨df - degree, by omega⟩
  have hm : (0 : ℝ) < m := by
    have : 0 < m := by omega
    exact_mod_cast this
  simp only [bsplineKnots, Prod.mk.injEq, if_neg (by omega : degree ≠ 0), show degree + m - degree = m by omega] at h
  obtain ⟨h1, h2, h3, h4⟩ := h
  have hr : 0 < xmax - xmin := sub_pos.2 hx
  generalize hL : xmin - (xmax - xmin) * 0.001 = L at h1
  generalize hU : xmax + (xmax - xmin) * 0.001 = U at h1
  have hLx : L < xmin := by rw [← hL]; norm_num; linarith
  have hUx : xmax < U := by rw [← hU]; norm_num; linarith
  have hd0 : 0 < (U - L) / (m : ℝ) := div_pos (by linarith) hm
  have ed : (U - L) / ((m + 1 : ℕ) - 1 : ℝ) = (U - L) / m := by push_cast; rw [add_sub_cancel_right]
  have e0 : (U - L) / (m : ℝ) * m = U - L := by field_simp
  rw [ed] at h1
  generalize (U - L) / (m : ℝ) = dx at *
  have es : ((U + dx * degree) - (L - dx * degree)) / (((m + 1 + 2 * degree : ℕ) : ℝ) - 1) = dx := by
    have hpos : (((m + 1 + 2 * degree : ℕ) : ℝ) - 1) ≠ 0 := by push_cast; have : (0 : ℝ) ≤ degree := by positivity
                                                               intro hc; linarith
    rw [div_eq_iff hpos]
    push_cast
    linear_combination -e0
  rw [es] at h1
  subst h2 h3 h4
  refine ⟨by omega, by omega, ?_, ?_, ?_⟩
  · rw [← h1]
    intro a b hab
    have : (a : ℝ) < b := by exact_mod_cast hab
    have := mul_lt_mul_of_pos_right this hd0
    simpa using this
  · rw [← h1]
    simp only
    linarith
  · rw [← h1, show m + 1 + 2 * degree - degree - 1 = m + degree by omega]
    simp only
    push_cast
    linarith

/-- With degree zero the slice `[0:-0]` of the inner knots is empty. -/
theorem C121_degree_zero_violated (xmin xmax : ℝ) (df : ℕ) :
    (bsplineKnots xmin xmax df 0).2.2.2 - (bsplineKnots xmin xmax df 0).2.2.1 = 0 ∧ df - 0 + 1 ≠ 0 := by
  simp [bsplineKnots]

/-! ## Difference matrices -/

theorem diffRows_iter (a : ℕ → ℕ → ℝ) (m i j : ℕ) : (diffRows^[m] a) i j = (fwdDiff 1)^[m] (fun i => a i j) i := by
  induction m generalizing a with
  | zero => rfl
  | succ m ih => rw [Function.iterate_succ_apply, Function.iterate_succ_apply, ih]; rfl

/-- Row `i` of the matrix takes the difference of the given order at `i`. -/
theorem C121_difference (k order : ℕ) (b : ℕ → ℝ) {i : ℕ} (hi : i < (differenceMat k order).2) :
    ∑ j ∈ range k, (differenceMat k order).1 i j * b j = (fwdDiff 1)^[order] b i := by
  simp only [differenceMat] at hi ⊢
  simp only [diffRows_iter, fwdDiff_iter_eq_sum_shift, nsmul_eq_mul, mul_one, zsmul_eq_mul, sum_mul]
  rw [sum_comm]
  refine sum_congr rfl fun c hc => ?_
  have hc' : i + c < k := by have := mem_range.1 hc; omega
  simp [hc']

/-- The differences of order `m` vanish exactly for the values of polynomials of degree below `m`: the penalty leaves these alone. -/
theorem C121_difference_null (k m : ℕ) (b : ℕ → ℝ) :
    (∀ i < (differenceMat k m).2, ∑ j ∈ range k, (differenceMat k m).1 i j * b j = 0) ↔
      ∃ P : Polynomial ℝ, P.degree < m ∧ ∀ i < k, b i = P.eval (i : ℝ) := by
  have hP0 : ∀ P : Polynomial ℝ, P.degree < m → ∀ i : ℕ, (fwdDiff 1)^[m] (fun i : ℕ => P.eval (i : ℝ)) i = 0 := by
    intro P hP i
    by_cases h0 : P = 0
    · subst h0
      rw [fwdDiff_iter_eq_sum_shift]; simp
    · have h1 : P.natDegree < m := (Polynomial.natDegree_lt_iff_degree_lt h0).2 hP
      have h2 := congrFun (Polynomial.fwdDiff_iter_eq_zero_of_degree_lt h1) (i : ℝ)
      rw [fwdDiff_iter_eq_sum_shift] at h2 ⊢
      refine Eq.trans (sum_congr rfl fun c _ => ?_) h2
      simp
  have lead : ∀ (f : ℕ → ℝ) (i : ℕ), (fwdDiff 1)^[m] f i = f (i + m) + ∑ c ∈ range m, ((-1 : ℤ) ^ (m - c) * (m.choose c : ℤ)) • f (i + c) := by
    intro f i
    rw [fwdDiff_iter_eq_sum_shift, sum_range_succ, add_comm]
    simp
  constructor
  · intro h
    have h' : ∀ i, i + m < k → (fwdDiff 1)^[m] b i = 0 := fun i hi => by
      have hi' : i < (differenceMat k m).2 := by simp only [differenceMat]; omega
      rw [← C121_difference k m b hi', h i hi']
    have hinj : Set.InjOn (fun i : ℕ => (i : ℝ)) (range m : Finset ℕ) := fun a _ c _ hac => Nat.cast_injective hac
    refine ⟨Lagrange.interpolate (range m) (fun i : ℕ => (i : ℝ)) b, ?_, ?_⟩
    · have := Lagrange.degree_interpolate_lt b hinj
      rwa [card_range] at this
    · have hdeg : (Lagrange.interpolate (range m) (fun i : ℕ => (i : ℝ)) b).degree < m := by
        have := Lagrange.degree_interpolate_lt b hinj
        rwa [card_range] at this
      intro i
      induction i using Nat.strong_induction_on with
      | _ i ih =>
        intro hi
        by_cases him : i < m
        · exact (Lagrange.eval_interpolate_at_node b hinj (mem_range.2 him)).symm
        · obtain ⟨c, rfl⟩ : ∃ c, i = c + m := ⟨i - m, by omega⟩
          have e1 := h' c hi
          have e2 := hP0 _ hdeg c
          rw [lead] at e1 e2
          have e3 : ∑ d ∈ range m, ((-1 : ℤ) ^ (m - d) * (m.choose d : ℤ)) • b (c + d) = ∑ d ∈ range m, ((-1 : ℤ) ^ (m - d) * (m.choose d : ℤ)) •
              (fun i : ℕ => (Lagrange.interpolate (range m) (fun i : ℕ => (i : ℝ)) b).eval (i : ℝ)) (c + d) := by
            refine sum_congr rfl fun d hd => ?_
            have := mem_range.1 hd
            rw [ih (c + d) (by omega) (by omega)]
          rw [e3] at e1
          linarith
  · rintro ⟨P, hP, hb⟩ i hi
    rw [C121_difference k m b hi, ← hP0 P hP i, fwdDiff_iter_eq_sum_shift, fwdDiff_iter_eq_sum_shift]
    simp only [differenceMat] at hi
    refine sum_congr rfl fun c hc => ?_
    have := mem_range.1 hc
    rw [hb (i + c • 1) (by simp; omega)]

/-! ## Calls -/

/-- What it means for a call to bind. -/
theorem C121_binds (s : Sig) (npos : ℕ) (kw : List String) : s.binds npos kw = true ↔ npos ≤ (s.req ++ s.opt).length ∧
    (∀ w ∈ kw, w ∈ s.req ++ s.opt ∧ w ∉ (s.req ++ s.opt).take npos) ∧ ∀ r ∈ s.req, r ∈ (s.req ++ s.opt).take npos ∨ r ∈ kw := by
  simp only [Sig.binds, Bool.and_eq_true, List.all_eq_true, decide_eq_true_eq, Bool.or_eq_true, and_assoc]

/-- Every smooth of kind 'bs' raises: `bspline_penalty` is called without `degree`, and would itself pass `deriv` twice and an unknown keyword. The
calls for 'cr' bind. -/
theorem C121_calls_violated : getBsplinesOk = false ∧ penaltySig.binds 2 [] = false ∧ penaltyBodyOk = false ∧ getCrsplinesOk = true := by decide

example : ∑ i ∈ range (bsplineBasis (fun i => (i : ℝ)) 8 3 1).2, (bsplineBasis (fun i => (i : ℝ)) 8 3 1).1 i = 1 :=
  C121_basis (fun a b h => by exact_mod_cast h) (by norm_num) 1

end Verif.Spl
