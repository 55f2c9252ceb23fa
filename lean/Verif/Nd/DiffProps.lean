import Verif.Nd.Model
import Mathlib.Analysis.Calculus.Deriv.Slope
import Mathlib.Analysis.Asymptotics.Lemmas
import Mathlib.Analysis.Complex.Basic
import Mathlib.Tactic.FieldSimp
import Mathlib.Tactic.LinearCombination
/-!
# C116: finite differences and complex steps
-/
namespace Verif.Nd
open Filter Topology Asymptotics

section
variable {R : Type*} [Field R]

theorem sub_e (x : ℕ → R) (i : ℕ) (t : R) : x - e i t = x + e i (-t) := by
  ext k
  by_cases h : k = i
  · subst h; simp [e, sub_eq_add_neg]
  · simp [e, Function.update_of_ne h]

theorem two_e (i : ℕ) (t : R) : 2 * e i t = e i (2 * t) := by
  ext k
  by_cases h : k = i
  · subst h; simp [e]
  · simp [e, Function.update_of_ne h]

theorem one_e (i : ℕ) (t : R) : 1 * e i t = e i t := one_mul _

theorem e_e (x : ℕ → R) (i : ℕ) (s t : R) : x + e i s + e i t = x + e i (s + t) := by
  ext k
  by_cases h : k = i
  · subst h; simp [e, add_assoc]
  · simp [e, Function.update_of_ne h]

theorem e_zero (x : ℕ → R) (i : ℕ) : x + e i (0 : R) = x := by
  ext k; simp [e]

theorem e_comm (x : ℕ → R) (i j : ℕ) (s t : R) : x + e i s + e j t = x + e j t + e i s := add_right_comm _ _ _

/-- Along coordinate `i` the function is a polynomial with coefficients `c`. -/
def Line (f : (ℕ → R) → R) (x : ℕ → R) (i N : ℕ) (c : ℕ → R) : Prop :=
  ∀ t, f (x + e i t) = ∑ a ∈ Finset.range N, c a * t ^ a

/-- Along coordinates `i`, `j` the function is a polynomial. -/
def Plane (f : (ℕ → R) → R) (x : ℕ → R) (i j N : ℕ) (c : ℕ → ℕ → R) : Prop :=
  ∀ s t, f (x + e i s + e j t) = ∑ a ∈ Finset.range N, ∑ b ∈ Finset.range N, c a b * s ^ a * t ^ b

theorem sym_comm (v : ℕ → ℕ → R) (i j : ℕ) : sym v i j = sym v j i := by
  unfold sym
  by_cases h : j ≤ i
  · by_cases h' : i ≤ j
    · obtain rfl := le_antisymm h h'; rfl
    · rw [if_pos h, if_neg h']
  · rw [if_neg h, if_pos (by omega)]

/-- Every second order routine returns a symmetric matrix, whatever the function. -/
theorem C116_symmetric (f : (ℕ → R) → R) (g : (ℕ → R) → ℕ → R) (x : ℕ → R) (eps : R) (i j : ℕ) :
    soFcFd f x eps i j = soFcFd f x eps j i ∧ soGcFd g x eps i j = soGcFd g x eps j i ∧
    soFcCd f x eps i j = soFcCd f x eps j i ∧ soGcCd g x eps i j = soGcCd g x eps j i :=
  by
  unfold soFcFd soGcFd soFcCd soGcCd
  exact ⟨sym_comm _ _ _, sym_comm _ _ _, sym_comm _ _ _, sym_comm _ _ _⟩

theorem sym_of_comm {v : ℕ → ℕ → R} (h : ∀ i j, v i j = v j i) (i j : ℕ) : sym v i j = v i j := by
  unfold sym; split_ifs
  · rfl
  · exact h j i

variable [CharZero R]

/-- The error of the first differences on a polynomial of degree three. -/
theorem C116_first (f : (ℕ → R) → R) (x : ℕ → R) (eps : R) (he : eps ≠ 0) (i : ℕ) (c : ℕ → R) (h : Line f x i 4 c) :
    foFcFd f x eps i = c 1 + c 2 * eps + c 3 * eps ^ 2 ∧ foFcCd f x eps i = c 1 + c 3 * eps ^ 2 := by
  have h0 := h 0
  rw [e_zero] at h0
  have h1 := h eps
  have h2 := h (-eps)
  simp only [Finset.sum_range_succ, Finset.sum_range_zero] at h0 h1 h2
  constructor
  · rw [foFcFd, h0, h1]; field_simp; ring
  · rw [foFcCd, sub_e, h1, h2]; field_simp; ring

/-- The square in two variables. -/
example : Line (fun z : ℕ → ℚ => z 0 ^ 2 + z 1) (fun _ => 1) 0 4 (fun a => [2, 2, 1].getD a 0) := by
  intro t
  simp [e, Finset.sum_range_succ]
  ring

/-- The diagonal of the second differences on a polynomial of degree five: the central formula is exact. -/
theorem C116_second_diagonal (f : (ℕ → R) → R) (x : ℕ → R) (eps : R) (he : eps ≠ 0) (i : ℕ) (c : ℕ → R)
    (h : Line f x i 6 c) :
    soFcCd f x eps i i = 2 * c 2 ∧
    soFcFd f x eps i i = 2 * c 2 + 6 * c 3 * eps + 14 * c 4 * eps ^ 2 + 30 * c 5 * eps ^ 3 := by
  have h0 := h 0
  rw [e_zero] at h0
  have h1 := h eps
  have h2 := h (-eps)
  have h3 := h (2 * eps)
  have h4 := h (-(2 * eps))
  have h5 := h (eps + eps)
  simp only [Finset.sum_range_succ, Finset.sum_range_zero] at h0 h1 h2 h3 h4 h5
  constructor
  · simp only [soFcCd, sym, le_refl, if_true, two_e, sub_e, h0, h1, h2, h3, h4]
    field_simp; ring
  · simp only [soFcFd, sym, le_refl, if_true, e_e, h0, h1, h5]
    field_simp; ring

/-- Off the diagonal the central formula is exact if no monomial of degree above three occurs (`N = 4` admits them);
the forward formula has an error of first order. -/
theorem C116_second_mixed (f : (ℕ → R) → R) (x : ℕ → R) (eps : R) (he : eps ≠ 0) (i j : ℕ) (hij : i ≠ j)
    (c : ℕ → ℕ → R) (h : Plane f x i j 4 c) :
    soFcCd f x eps i j = c 1 1 + (c 1 3 + c 3 1) * eps ^ 2 + c 3 3 * eps ^ 4 ∧
    soFcFd f x eps i j = c 1 1 + (c 1 2 + c 2 1) * eps + (c 1 3 + c 2 2 + c 3 1) * eps ^ 2 +
      (c 2 3 + c 3 2) * eps ^ 3 + c 3 3 * eps ^ 4 := by
  have hz := h 0 0
  have hpp := h eps eps
  have hpn := h eps (-eps)
  have hnp := h (-eps) eps
  have hnn := h (-eps) (-eps)
  have hp0 := h eps 0
  have h0p := h 0 eps
  rw [e_zero] at hp0 h0p hz
  rw [e_zero] at hz
  simp only [Finset.sum_range_succ, Finset.sum_range_zero] at hpp hpn hnp hnn hp0 h0p hz
  have sw : ∀ s t, f (x + e j s + e i t) = f (x + e i t + e j s) := fun s t => by rw [e_comm]
  constructor
  · have key : ∀ i j : ℕ, i ≠ j → (fun i j =>
        let ei := e i eps
        let ej := e j eps
        if i = j then
          let dn := -f (x + 2 * ei) + 16 * f (x + ei) - 30 * f x + 16 * f (x - ei) - f (x - 2 * ei)
          dn / (12 * eps ^ 2)
        else
          let dn := f (x + ei + ej) - f (x + ei - ej) - f (x - ei + ej) + f (x - ei - ej)
          dn / (4 * eps * eps)) i j = (f (x + e i eps + e j eps) - f (x + e i eps + e j (-eps)) -
            f (x + e i (-eps) + e j eps) + f (x + e i (-eps) + e j (-eps))) / (4 * eps * eps) := by
      intro i j hij
      simp only [if_neg hij, sub_e]
    unfold soFcCd sym
    split_ifs with hji
    · rw [key i j hij, hpp, hpn, hnp, hnn]; field_simp; ring
    · rw [key j i hij.symm, sw, sw, sw, sw, hpp, hpn, hnp, hnn]; field_simp; ring
  · unfold soFcFd sym
    split_ifs with hji
    · simp only [hpp, hp0, h0p, hz]; field_simp; ring
    · simp only [sw, hpp, hp0, h0p, hz]; field_simp; ring

/-- For an affine gradient the gradient based formulas return the symmetric part of its Jacobian. -/
theorem C116_gradient_affine (g : (ℕ → R) → ℕ → R) (x : ℕ → R) (eps : R) (he : eps ≠ 0) (J : ℕ → ℕ → R)
    (h : ∀ i j t, g (x + e i t) j = g x j + J i j * t) (i j : ℕ) :
    soGcFd g x eps i j = (J i j + J j i) / 2 ∧ soGcCd g x eps i j = (J i j + J j i) / 2 := by
  constructor
  · unfold soGcFd sym
    split_ifs <;> · simp only [h]; field_simp; ring
  · unfold soGcCd sym
    split_ifs <;> · simp only [sub_e, h]; field_simp; ring

end

/-! ## Convergence -/

/-- The first differences converge to the partial derivative. -/
theorem C116_first_limit (f : (ℕ → ℝ) → ℝ) (x : ℕ → ℝ) (i : ℕ) (f' : ℝ) (h : HasDerivAt (fun t => f (x + e i t)) f' 0) :
    Tendsto (fun eps => foFcFd f x eps i) (𝓝[≠] 0) (𝓝 f') ∧ Tendsto (fun eps => foFcCd f x eps i) (𝓝[≠] 0) (𝓝 f') := by
  have h1 : Tendsto (fun t => (f (x + e i t) - f x) / t) (𝓝[≠] 0) (𝓝 f') := by
    have := hasDerivAt_iff_tendsto_slope.1 h
    refine this.congr fun t => ?_
    rw [slope_def_field, e_zero, sub_zero]
  refine ⟨h1, ?_⟩
  have hneg : Tendsto (fun t : ℝ => -t) (𝓝[≠] 0) (𝓝[≠] 0) := by
    refine tendsto_nhdsWithin_iff.2 ⟨?_, ?_⟩
    · have : Tendsto (fun t : ℝ => -t) (𝓝 0) (𝓝 0) := by simpa using (continuous_neg (G := ℝ)).tendsto 0
      exact this.mono_left nhdsWithin_le_nhds
    · filter_upwards [self_mem_nhdsWithin] with t ht
      simpa using ht
  have h2 := h1.comp hneg
  have h3 := (h1.add h2).div_const 2
  have e2 : (f' + f') / 2 = f' := by ring
  rw [e2] at h3
  refine h3.congr' ?_
  filter_upwards [self_mem_nhdsWithin] with t ht
  have ht : t ≠ 0 := ht
  simp only [Function.comp, foFcCd, sub_e]
  field_simp
  ring

/-- The gradient based formulas converge to the symmetric part of the Jacobian of the gradient. -/
theorem C116_gradient_limit (g : (ℕ → ℝ) → ℕ → ℝ) (x : ℕ → ℝ) (J : ℕ → ℕ → ℝ)
    (h : ∀ i j, HasDerivAt (fun t => g (x + e i t) j) (J i j) 0) (i j : ℕ) :
    Tendsto (fun eps => soGcFd g x eps i j) (𝓝[≠] 0) (𝓝 ((J i j + J j i) / 2)) ∧
    Tendsto (fun eps => soGcCd g x eps i j) (𝓝[≠] 0) (𝓝 ((J i j + J j i) / 2)) := by
  have h1 := C116_first_limit (fun z => g z j) x i _ (h i j)
  have h2 := C116_first_limit (fun z => g z i) x j _ (h j i)
  constructor
  · refine ((h1.1.add h2.1).div_const 2).congr' ?_
    filter_upwards [self_mem_nhdsWithin] with t ht
    have ht : t ≠ 0 := ht
    unfold soGcFd sym foFcFd
    split_ifs <;> · field_simp; try ring
  · refine ((h1.2.add h2.2).div_const 2).congr' ?_
    filter_upwards [self_mem_nhdsWithin] with t ht
    have ht : t ≠ 0 := ht
    unfold soGcCd sym foFcCd
    split_ifs <;> · field_simp; try ring

/-- The function has a Taylor expansion of second order along coordinate `i`. -/
def Taylor1 (f : (ℕ → ℝ) → ℝ) (x : ℕ → ℝ) (i : ℕ) (b h : ℝ) : Prop :=
  (fun t => f (x + e i t) - (f x + b * t + h / 2 * t ^ 2)) =o[𝓝 0] fun t => t ^ 2

/-- … and along coordinates `i`, `j`; `h` is the mixed derivative. -/
def Taylor2 (f : (ℕ → ℝ) → ℝ) (x : ℕ → ℝ) (i j : ℕ) (b b' h h' h'' : ℝ) : Prop :=
  (fun u : ℝ × ℝ => f (x + e i u.1 + e j u.2) - (f x + b * u.1 + b' * u.2 + h' / 2 * u.1 ^ 2 + h * u.1 * u.2 + h'' / 2 * u.2 ^ 2))
    =o[𝓝 0] fun u => u.1 ^ 2 + u.2 ^ 2

theorem rem_line {r : ℝ → ℝ} (h : r =o[𝓝 0] fun t => t ^ 2) (a : ℝ) (ha : a ≠ 0) :
    Tendsto (fun t => r (a * t) / t ^ 2) (𝓝[≠] 0) (𝓝 0) := by
  have hc : Tendsto (fun t : ℝ => a * t) (𝓝 0) (𝓝 0) := by
    simpa using (continuous_const_mul a).tendsto 0
  have h1 : (fun t => r (a * t)) =o[𝓝 0] fun t : ℝ => (a * t) ^ 2 := h.comp_tendsto hc
  have h2 : (fun t : ℝ => (a * t) ^ 2) =O[𝓝 0] fun t : ℝ => t ^ 2 := by
    refine IsBigO.of_bound (a ^ 2) (Eventually.of_forall fun t => ?_)
    rw [mul_pow, norm_mul, Real.norm_of_nonneg (sq_nonneg a)]
  exact ((h1.trans_isBigO h2).mono nhdsWithin_le_nhds).tendsto_div_nhds_zero

theorem rem_plane {r : ℝ × ℝ → ℝ} (h : r =o[𝓝 0] fun u => u.1 ^ 2 + u.2 ^ 2) (a b : ℝ) :
    Tendsto (fun t => r (a * t, b * t) / t ^ 2) (𝓝[≠] 0) (𝓝 0) := by
  have hc : Tendsto (fun t : ℝ => ((a * t, b * t) : ℝ × ℝ)) (𝓝 0) (𝓝 0) := by
    have : Continuous fun t : ℝ => ((a * t, b * t) : ℝ × ℝ) := by fun_prop
    have := this.tendsto 0
    rwa [mul_zero, mul_zero] at this
  have h1 : (fun t => r (a * t, b * t)) =o[𝓝 0] fun t : ℝ => (a * t) ^ 2 + (b * t) ^ 2 := h.comp_tendsto hc
  have h2 : (fun t : ℝ => (a * t) ^ 2 + (b * t) ^ 2) =O[𝓝 0] fun t : ℝ => t ^ 2 := by
    refine IsBigO.of_bound (a ^ 2 + b ^ 2) (Eventually.of_forall fun t => ?_)
    rw [mul_pow, mul_pow, ← add_mul, norm_mul, Real.norm_of_nonneg (by positivity)]
  exact ((h1.trans_isBigO h2).mono nhdsWithin_le_nhds).tendsto_div_nhds_zero

/-- The diagonal of the second differences converges to the second derivative. -/
theorem C116_second_diagonal_limit (f : (ℕ → ℝ) → ℝ) (x : ℕ → ℝ) (i : ℕ) (b h : ℝ) (ht : Taylor1 f x i b h) :
    Tendsto (fun eps => soFcFd f x eps i i) (𝓝[≠] 0) (𝓝 h) ∧ Tendsto (fun eps => soFcCd f x eps i i) (𝓝[≠] 0) (𝓝 h) := by
  obtain ⟨r, hr⟩ : ∃ r : ℝ → ℝ, r = fun t => f (x + e i t) - (f x + b * t + h / 2 * t ^ 2) := ⟨_, rfl⟩
  have ht : r =o[𝓝 0] fun t => t ^ 2 := by rw [hr]; exact ht
  have hf : ∀ t, f (x + e i t) = r t + (f x + b * t + h / 2 * t ^ 2) := fun t => by rw [hr]; ring
  constructor
  · have key := ((rem_line ht 2 two_ne_zero).sub ((rem_line ht 1 one_ne_zero).const_mul 2)).add_const h
    rw [mul_zero, sub_zero, zero_add] at key
    refine key.congr' ?_
    filter_upwards [self_mem_nhdsWithin] with t ht
    have ht : t ≠ 0 := ht
    simp only [soFcFd, sym, le_refl, if_true, e_e, hf, one_mul, ← two_mul]
    field_simp
    ring
  · have key := ((((rem_line ht 2 two_ne_zero).const_mul (-1 / 12)).add ((rem_line ht 1 one_ne_zero).const_mul (16 / 12))).add
      (((rem_line ht (-1) (by norm_num)).const_mul (16 / 12)).add ((rem_line ht (-2) (by norm_num)).const_mul (-1 / 12)))).add_const h
    simp only [mul_zero, zero_add, add_zero] at key
    refine key.congr' ?_
    filter_upwards [self_mem_nhdsWithin] with t ht
    have ht : t ≠ 0 := ht
    simp only [soFcCd, sym, le_refl, if_true, two_e, sub_e, hf, one_mul, neg_mul]
    field_simp
    ring

/-- The mixed second differences converge to the mixed derivative. -/
theorem C116_second_mixed_limit (f : (ℕ → ℝ) → ℝ) (x : ℕ → ℝ) (i j : ℕ) (hij : j < i) (b b' h h' h'' : ℝ)
    (ht : Taylor2 f x i j b b' h h' h'') :
    Tendsto (fun eps => soFcFd f x eps i j) (𝓝[≠] 0) (𝓝 h) ∧ Tendsto (fun eps => soFcCd f x eps i j) (𝓝[≠] 0) (𝓝 h) := by
  obtain ⟨r, hr⟩ : ∃ r : ℝ × ℝ → ℝ, r = fun u : ℝ × ℝ => f (x + e i u.1 + e j u.2) -
    (f x + b * u.1 + b' * u.2 + h' / 2 * u.1 ^ 2 + h * u.1 * u.2 + h'' / 2 * u.2 ^ 2) := ⟨_, rfl⟩
  have ht : r =o[𝓝 0] fun u => u.1 ^ 2 + u.2 ^ 2 := by rw [hr]; exact ht
  have hf : ∀ s t, f (x + e i s + e j t) = r (s, t) +
      (f x + b * s + b' * t + h' / 2 * s ^ 2 + h * s * t + h'' / 2 * t ^ 2) := fun s t => by rw [hr]; ring
  have hf1 : ∀ s, f (x + e i s) = r (s, 0) + (f x + b * s + h' / 2 * s ^ 2) := fun s => by
    have := hf s 0; rw [e_zero] at this; rw [this]; ring
  have hf2 : ∀ t, f (x + e j t) = r (0, t) + (f x + b' * t + h'' / 2 * t ^ 2) := fun t => by
    have := hf 0 t; rw [e_zero] at this; rw [this]; ring
  constructor
  · have key := (((rem_plane ht 1 1).sub (rem_plane ht 1 0)).sub (rem_plane ht 0 1)).add_const h
    simp only [sub_zero, zero_add, one_mul, zero_mul] at key
    refine key.congr' ?_
    filter_upwards [self_mem_nhdsWithin] with t ht
    have ht : t ≠ 0 := ht
    simp only [soFcFd, sym, if_pos hij.le, hf, hf1, hf2]
    field_simp
    ring
  · have key := ((((rem_plane ht 1 1).sub (rem_plane ht 1 (-1))).sub (rem_plane ht (-1) 1)).add
      (rem_plane ht (-1) (-1))).div_const 4 |>.add_const h
    simp only [sub_zero, zero_add, one_mul, neg_one_mul, zero_div] at key
    refine key.congr' ?_
    filter_upwards [self_mem_nhdsWithin] with t ht
    have ht : t ≠ 0 := ht
    simp only [soFcCd, sym, if_pos hij.le, if_neg hij.ne', sub_e, hf]
    field_simp
    ring

/-- The hypothesis holds for a product. -/
example : Taylor2 (fun z => z 0 * z 1) (fun _ => 1) 1 0 1 1 1 0 0 := by
  refine (isLittleO_zero _ _).congr_left fun u => ?_
  simp [e]
  ring

/-! ## Complex steps -/

/-- The complex step on a polynomial of degree three with real coefficients: exact up to degree two. -/
theorem C116_complex_step (f : (ℕ → ℂ) → ℂ) (x : ℕ → ℝ) (delta : ℝ) (hd : delta ≠ 0) (i : ℕ) (c : ℕ → ℝ)
    (h : Line f (fun k => (x k : ℂ)) i 4 fun a => (c a : ℂ)) : foFcCs f x delta i = c 1 - c 3 * delta ^ 2 := by
  have h1 := h (delta * Complex.I)
  have e1 : (fun j => (e i delta j : ℂ) * Complex.I) = e i ((delta : ℂ) * Complex.I) := by
    ext k
    by_cases hk : k = i
    · subst hk; simp [e]
    · simp [e, Function.update_of_ne hk]
  rw [foFcCs, e1, h1]
  simp only [Finset.sum_range_succ, Finset.sum_range_zero, mul_pow, pow_succ, pow_zero, one_mul, zero_add]
  simp [Complex.mul_re, Complex.mul_im]
  field_simp
  ring

theorem step_e (i : ℕ) (d : ℝ) : (fun k => Complex.I * e i (1 : ℂ) k * (d : ℂ)) = e i (Complex.I * d) := by
  ext k
  by_cases hk : k = i
  · subst hk; simp [e]
  · simp [e, Function.update_of_ne hk]

theorem step_e' (j : ℕ) (d : ℝ) : (fun k => e j (1 : ℂ) k * (d : ℂ)) = e j (d : ℂ) := by
  ext k
  by_cases hk : k = j
  · subst hk; simp [e]
  · simp [e, Function.update_of_ne hk]

theorem dl_pos (x : ℕ → ℝ) (delta : ℝ) (hd : delta ≠ 0) (i : ℕ) : delta * max |x i| 0.1 ≠ 0 :=
  mul_ne_zero hd (lt_of_lt_of_le (by norm_num) (le_max_right _ _)).ne'

/-- The mixed entries of `hess_cs`: exact if no monomial of degree above three occurs. -/
theorem C116_complex_mixed (f : (ℕ → ℂ) → ℂ) (x : ℕ → ℝ) (delta : ℝ) (hd : delta ≠ 0) (i j : ℕ) (hij : j < i)
    (c : ℕ → ℕ → ℝ) (h : Plane f (fun k => (x k : ℂ)) i j 4 fun a b => (c a b : ℂ)) :
    hessCs f x delta i j = c 1 1 - c 3 1 * (delta * max |x i| 0.1) ^ 2 + c 1 3 * (delta * max |x j| 0.1) ^ 2 -
      c 3 3 * (delta * max |x i| 0.1) ^ 2 * (delta * max |x j| 0.1) ^ 2 := by
  have hi := dl_pos x delta hd i
  have hj := dl_pos x delta hd j
  simp only [hessCs, sym, if_pos hij.le, step_e, step_e', sub_e]
  generalize delta * max |x i| 0.1 = a at *
  generalize delta * max |x j| 0.1 = b at *
  have h1 := h (Complex.I * a) b
  have h2 := h (Complex.I * a) (-b)
  rw [h1, h2, ← Finset.sum_sub_distrib]
  simp only [← Finset.sum_sub_distrib, Finset.sum_range_succ, Finset.sum_range_zero]
  simp [pow_succ, Complex.mul_re, Complex.mul_im]
  field_simp
  ring

/-- The diagonal of `hess_cs` is exact up to degree five. -/
theorem C116_complex_diagonal (f : (ℕ → ℂ) → ℂ) (x : ℕ → ℝ) (delta : ℝ) (hd : delta ≠ 0) (i : ℕ)
    (c : ℕ → ℝ) (h : Line f (fun k => (x k : ℂ)) i 6 fun a => (c a : ℂ)) : hessCs f x delta i i = 2 * c 2 := by
  have hi := dl_pos x delta hd i
  simp only [hessCs, sym, le_refl, if_true, step_e, step_e', sub_e, e_e]
  generalize delta * max |x i| 0.1 = a at *
  have h1 := h (Complex.I * a + a)
  have h2 := h (Complex.I * a + -a)
  rw [h1, h2, ← Finset.sum_sub_distrib]
  simp only [Finset.sum_range_succ, Finset.sum_range_zero]
  simp [pow_succ, Complex.mul_re, Complex.mul_im]
  field_simp
  ring

end Verif.Nd
