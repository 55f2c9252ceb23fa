import Verif.Lv.PolychorDeriv
import Verif.Transf.OrderedProps
import Verif.Transf.ComposeProps

namespace Verif.Lv
open Real Set Filter Topology Verif.Glm Verif.Transf

namespace Pair
variable {P : Pair} {erf : ℝ → ℝ}

/-- The cells that are counted have a probability above `e`. -/
def Above (P : Pair) (p : ℕ → ℕ → ℝ) (e : ℝ) : Prop := ∀ i ≤ P.m1, ∀ j ≤ P.m2, P.counts i j ≠ 0 → e < p i j

theorem nll_path {p : ℝ → ℕ → ℕ → ℝ} {p' : ℕ → ℕ → ℝ} (h : ∀ i ≤ P.m1, ∀ j ≤ P.m2, HasDerivAt (fun t => p t i j) (p' i j) 0)
    (ha : P.Above (p 0) (10 ^ (-16 : ℤ))) :
    HasDerivAt (fun t => P.nll (p t)) (-∑ i ∈ Finset.range (P.m1 + 1), ∑ j ∈ Finset.range (P.m2 + 1), P.counts i j / max (p 0 i j) (10 ^ (-16 : ℤ)) * p' i j) 0 := by
  unfold nll
  refine (HasDerivAt.fun_sum fun i hi => HasDerivAt.fun_sum fun j hj => ?_).fun_neg
  have hi' := Nat.lt_succ_iff.1 (Finset.mem_range.1 hi)
  have hj' := Nat.lt_succ_iff.1 (Finset.mem_range.1 hj)
  by_cases hc : P.counts i j = 0
  · simp only [hc, zero_mul, zero_div]
    exact hasDerivAt_const _ _
  · exact ((log_max (h i hi' j hj') (ha i hi' j hj' hc) (by positivity)).const_mul _).congr_deriv (by ring)

theorem score_path {p d : ℝ → ℕ → ℕ → ℝ} {p' d' : ℕ → ℕ → ℝ} (h : ∀ i ≤ P.m1, ∀ j ≤ P.m2, HasDerivAt (fun t => p t i j) (p' i j) 0)
    (hd : ∀ i ≤ P.m1, ∀ j ≤ P.m2, HasDerivAt (fun t => d t i j) (d' i j) 0) (ha : P.Above (p 0) (10 ^ (-8 : ℤ))) :
    HasDerivAt (fun t => -∑ i ∈ Finset.range (P.m1 + 1), ∑ j ∈ Finset.range (P.m2 + 1), P.counts i j / max (p t i j) (10 ^ (-16 : ℤ)) * d t i j)
      (∑ i ∈ Finset.range (P.m1 + 1), ∑ j ∈ Finset.range (P.m2 + 1),
        d 0 i j * (P.counts i j / max ((max (p 0 i j) (10 ^ (-16 : ℤ))) ^ 2) (10 ^ (-16 : ℤ))) * p' i j -
        ∑ i ∈ Finset.range (P.m1 + 1), ∑ j ∈ Finset.range (P.m2 + 1), P.counts i j / max (p 0 i j) (10 ^ (-16 : ℤ)) * d' i j) 0 := by
  rw [← Finset.sum_sub_distrib]
  simp only [← Finset.sum_sub_distrib]
  simp only [← Finset.sum_neg_distrib]
  refine HasDerivAt.fun_sum fun i hi => HasDerivAt.fun_sum fun j hj => ?_
  have hi' := Nat.lt_succ_iff.1 (Finset.mem_range.1 hi)
  have hj' := Nat.lt_succ_iff.1 (Finset.mem_range.1 hj)
  by_cases hc : P.counts i j = 0
  · simp only [hc, zero_mul, zero_div, mul_zero, sub_zero, neg_zero]
    exact hasDerivAt_const _ _
  · have h8 := ha i hi' j hj' hc
    have h16 : (10 : ℝ) ^ (-16 : ℤ) < p 0 i j := lt_trans (by norm_num) h8
    have hsq : (10 : ℝ) ^ (-16 : ℤ) < p 0 i j ^ 2 := by
      have : (10 : ℝ) ^ (-16 : ℤ) = (10 ^ (-8 : ℤ)) ^ 2 := by norm_num
      rw [this]
      exact pow_lt_pow_left₀ h8 (by positivity) (by norm_num)
    have := ((inv_max (h i hi' j hj') h16 (by positivity)).fun_mul (hd i hi' j hj')).const_mul (-P.counts i j)
    have e : (fun t => -(P.counts i j / max (p t i j) (10 ^ (-16 : ℤ)) * d t i j)) = fun t => -P.counts i j * ((max (p t i j) (10 ^ (-16 : ℤ)))⁻¹ * d t i j) := by
      funext t
      ring
    rw [e]
    refine this.congr_deriv ?_
    rw [max_eq_left h16.le, max_eq_left hsq.le]
    ring

/-! ### Gradient and Hessian -/

/-- **C161** `gradient` is the gradient of `loglike` in thresholds and correlation, along every curve of parameters, where the counted cells
are above the clamp. -/
theorem C161_gradient_partial (he : IsErf erf) (x : ℕ → ℝ) (hr : |P.rho x| < 1) (ha : P.Above (cell Phi2 (P.t1 x) (P.t2 x) (P.rho x)) (10 ^ (-16 : ℤ))) :
    ∀ X x', PathN P.len X x' → X 0 = x → HasDerivAt (fun t => P.loglike Phi2 (X t)) (dotN P.len (P.gradient Phi2 erf x) x') 0 := by
  intro X x' hX h0
  have h := nll_path (P := P) (p := fun t => cell Phi2 (P.t1 (X t)) (P.t2 (X t)) (P.rho (X t))) (p' := fun i j => dotN P.len (P.dprob erf x i j) x')
    (fun i hi j hj => prob_path he hX h0 hr hi hj) (by rw [h0]; exact ha)
  refine h.congr_deriv ?_
  rw [h0]
  simp only [dotN, gradient, neg_mul, Finset.sum_mul, Finset.mul_sum, Finset.sum_neg_distrib]
  congr 1
  rw [Finset.sum_comm]
  conv_rhs => rw [Finset.sum_comm]
  rw [Finset.sum_comm]
  refine Finset.sum_congr rfl fun i _ => ?_
  rw [Finset.sum_comm]
  exact Finset.sum_congr rfl fun j _ => Finset.sum_congr rfl fun k _ => by ring

/-- **C161** `hessian` is the derivative of `gradient` where the counted cells are above `10⁻⁸`. -/
theorem C161_hessian_partial (he : IsErf erf) (x : ℕ → ℝ) (hr : |P.rho x| < 1) (ha : P.Above (cell Phi2 (P.t1 x) (P.t2 x) (P.rho x)) (10 ^ (-8 : ℤ))) (k : ℕ) :
    ∀ X x', PathN P.len X x' → X 0 = x → HasDerivAt (fun t => P.gradient Phi2 erf (X t) k) (dotN P.len (P.hessian Phi2 erf x k) x') 0 := by
  intro X x' hX h0
  have h := score_path (P := P) (p := fun t => cell Phi2 (P.t1 (X t)) (P.t2 (X t)) (P.rho (X t))) (p' := fun i j => dotN P.len (P.dprob erf x i j) x')
    (d := fun t i j => P.dprob erf (X t) i j k) (d' := fun i j => dotN P.len (P.d2prob erf x i j k) x')
    (fun i hi j hj => prob_path he hX h0 hr hi hj) (fun i hi j hj => dprob_path he hX h0 hr hi hj) (by rw [h0]; exact ha)
  refine h.congr_deriv ?_
  rw [h0]
  have e : ∀ f : ℕ → ℕ → ℕ → ℝ, ∑ i ∈ Finset.range (P.m1 + 1), ∑ j ∈ Finset.range (P.m2 + 1), ∑ l ∈ Finset.range P.len, f i j l =
      ∑ l ∈ Finset.range P.len, ∑ i ∈ Finset.range (P.m1 + 1), ∑ j ∈ Finset.range (P.m2 + 1), f i j l := fun f => by
    rw [Finset.sum_comm (s := Finset.range P.len)]
    exact Finset.sum_congr rfl fun i _ => Finset.sum_comm
  simp only [dotN, hessian, sub_mul, Finset.sum_mul, Finset.mul_sum, Finset.sum_sub_distrib, e]
  congr 1 <;> exact Finset.sum_congr rfl fun l _ => Finset.sum_congr rfl fun i _ => Finset.sum_congr rfl fun j _ => by ring

theorem step_comm (i k j l : ℕ) (v : ℝ) : step i k (step j l v) = step j l (step i k v) := by
  simp only [step_eq]
  ring

/-- **C161** `hessian` is symmetric. -/
theorem C161_symmetric (F : ℝ → ℝ → ℝ → ℝ) (x : ℕ → ℝ) (k l : ℕ) : P.hessian F erf x k l = P.hessian F erf x l k := by
  have e : ∀ i j, P.d2prob erf x i j k l = P.d2prob erf x i j l k := fun i j => by
    unfold d2prob cat
    dsimp only
    split_ifs <;> first | rfl | skip
    all_goals try (exfalso; omega)
    all_goals try (congr 1; done)
    all_goals (try subst_vars) <;> (try rfl)
    all_goals first | (exfalso; omega) | simp_all
  unfold hessian
  dsimp only
  simp only [e]
  congr 1
  exact Finset.sum_congr rfl fun i _ => Finset.sum_congr rfl fun j _ => by ring

/-! ### Transformed parameters -/

theorem trs_sorted : Sorted P.len P.trs 0 := by
  unfold trs
  refine C44_lengths_sorted _ _ 0 P.len ?_
  simp [len]
  omega

theorem trs_mem {b : (ℕ × ℕ) × Tr} (hb : b ∈ P.trs) :
    b = ((0, P.m1), ordTr P.m1) ∨ b = ((P.m1, P.m1 + P.m2), ordTr P.m2) ∨ b = ((P.m1 + P.m2, P.m1 + P.m2 + 1), tanhTr 1) := by
  simpa [trs, processIdx] using hb

theorem trs_jac (y : ℕ → ℝ) : IsJac P.len P.len P.rvs (combJac Tr.jacR P.trs y) y := by
  refine C44_concat_jac P.len Tr.rvs Tr.jacR P.trs y trs_sorted fun b hb => ?_
  rcases trs_mem hb with rfl | rfl | rfl
  · simpa [ordTr] using C78_ord_jac_rvs (q := P.m1) (sliceN y 0)
  · simpa [ordTr] using C78_ord_jac_rvs (q := P.m2) (sliceN y P.m1)
  · simpa [tanhTr] using (C78_tanh (n := 1) (sliceN y (P.m1 + P.m2))).2.2.1

theorem trs_hess (y : ℕ → ℝ) : IsHess P.len P.len (combJac Tr.jacR P.trs) (combHess Tr.hessR P.trs y) y := by
  refine C44_concat_hess P.len Tr.jacR Tr.hessR P.trs y trs_sorted fun b hb => ?_
  rcases trs_mem hb with rfl | rfl | rfl
  · simpa [ordTr] using C78_ord_hess_rvs (q := P.m1) (sliceN y 0)
  · simpa [ordTr] using C78_ord_hess_rvs (q := P.m2) (sliceN y P.m1)
  · simpa [tanhTr] using (C78_tanh (n := 1) (sliceN y (P.m1 + P.m2))).2.2.2.1

/-- **C161** Every array of transformed parameters is an admissible one: increasing thresholds and a correlation between minus one and
one. -/
theorem C161_admissible (y : ℕ → ℝ) :
    |P.rho (P.rvs y)| < 1 ∧ (∀ k, k + 1 < P.m1 → P.rvs y k < P.rvs y (k + 1)) ∧ ∀ k, k + 1 < P.m2 → P.rvs y (P.m1 + k) < P.rvs y (P.m1 + (k + 1)) := by
  have hc := fun p (hp : p < P.len) => (C44_concat P.len Tr.rvs P.trs y trs_sorted p hp).1
  have m1 : ((0, P.m1), ordTr P.m1) ∈ P.trs := by simp [trs, processIdx]
  have m2 : ((P.m1, P.m1 + P.m2), ordTr P.m2) ∈ P.trs := by simp [trs, processIdx]
  have m3 : ((P.m1 + P.m2, P.m1 + P.m2 + 1), tanhTr 1) ∈ P.trs := by simp [trs, processIdx]
  refine ⟨?_, fun k hk => ?_, fun k hk => ?_⟩
  · have := hc (P.m1 + P.m2) (by unfold len; omega) _ m3 (by simp [InB])
    unfold rho rvs
    rw [this]
    exact (sq_lt_one_iff_abs_lt_one _).1 ((C78_tanh (n := 1) _).2.1 _)
  · have h1 := hc k (by unfold len; omega) _ m1 (by simp [InB]; omega)
    have h2 := hc (k + 1) (by unfold len; omega) _ m1 (by simp [InB]; omega)
    unfold rvs
    rw [h1, h2]
    simp only [Nat.sub_zero, ordTr]
    exact C78_ord_range _ (k + 1) (by omega) hk
  · have h1 := hc (P.m1 + k) (by unfold len; omega) _ m2 (by simp [InB]; omega)
    have h2 := hc (P.m1 + (k + 1)) (by unfold len; omega) _ m2 (by simp [InB]; omega)
    unfold rvs
    rw [h1, h2]
    simp only [Nat.add_sub_cancel_left, ordTr]
    exact C78_ord_range _ (k + 1) (by omega) hk

/-- **C161** `gradient_transformed` is the gradient of `loglike_transformed`, and `hessian_transformed` the derivative of
`gradient_transformed`. -/
theorem C161_transformed_partial (he : IsErf erf) (y : ℕ → ℝ)
    (ha : P.Above (cell Phi2 (P.t1 (P.rvs y)) (P.t2 (P.rvs y)) (P.rho (P.rvs y))) (10 ^ (-8 : ℤ))) :
    ∀ Y y', PathN P.len Y y' → Y 0 = y → HasDerivAt (fun t => P.loglikeT Phi2 (Y t)) (dotN P.len (P.gradientT Phi2 erf y) y') 0 ∧
      ∀ k < P.len, HasDerivAt (fun t => P.gradientT Phi2 erf (Y t) k) (dotN P.len (P.hessianT Phi2 erf y k) y') 0 := by
  intro Y y' hY h0
  have hr := (C161_admissible (P := P) y).1
  have hX := trs_jac (P := P) y Y y' hY h0
  have hX0 : P.rvs (Y 0) = P.rvs y := by rw [h0]
  have ha16 : P.Above (cell Phi2 (P.t1 (P.rvs y)) (P.t2 (P.rvs y)) (P.rho (P.rvs y))) (10 ^ (-16 : ℤ)) :=
    fun i hi j hj hc => lt_trans (by norm_num) (ha i hi j hj hc)
  refine ⟨?_, fun k hk => ?_⟩
  · refine (C161_gradient_partial he (P.rvs y) hr ha16 _ _ hX hX0).congr_deriv ?_
    simp only [dotN, gradientT, Finset.mul_sum, Finset.sum_mul]
    rw [Finset.sum_comm]
    exact Finset.sum_congr rfl fun i _ => Finset.sum_congr rfl fun j _ => by ring
  · unfold gradientT
    dsimp only
    have h := HasDerivAt.fun_sum (u := Finset.range P.len) fun i hi =>
      (C161_hessian_partial he (P.rvs y) hr ha i _ _ hX hX0).fun_mul (trs_hess (P := P) y Y y' hY h0 k hk i (Finset.mem_range.1 hi))
    refine h.congr_deriv ?_
    rw [h0]
    simp only [dotN, hessianT, Finset.mul_sum, Finset.sum_mul, add_mul, Finset.sum_add_distrib]
    congr 1
    · rw [Finset.sum_comm]
      conv_rhs => rw [Finset.sum_comm]
      refine Finset.sum_congr rfl fun l _ => ?_
      rw [Finset.sum_comm]
      exact Finset.sum_congr rfl fun i _ => Finset.sum_congr rfl fun j _ => by rw [h0]; ring
    · rw [Finset.sum_comm]
      exact Finset.sum_congr rfl fun i _ => Finset.sum_congr rfl fun j _ => by ring

/-! ### Correlation alone -/

theorem cell_r {f f' : ℝ → ℝ → ℝ → ℝ} (h : ∀ u v {r : ℝ}, |r| < 1 → HasDerivAt (fun r => f u v r) (f' u v r) r) (a b : ℕ → ℝ) {r : ℝ → ℝ} {r' : ℝ}
    (hr : HasDerivAt r r' 0) (h1 : |r 0| < 1) (i j : ℕ) : HasDerivAt (fun t => cell f a b (r t) i j) (cell f' a b (r 0) i j * r') 0 := by
  unfold cell region
  have c := fun u v => (h u v h1).comp (0 : ℝ) hr
  refine ((((c (a (i + 1)) (b (j + 1))).fun_sub (c (a (i + 1)) (b j))).fun_sub (c (a i) (b (j + 1)))).fun_add (c (a i) (b j))).congr_deriv ?_
  ring

/-- **C161** `qgradient` and `qhessian` are the first and second derivatives of `qloglike` in the correlation; those of
`_PairWorkspace` are the same. -/
theorem C161_quasi_partial (a b : ℕ → ℝ) {r : ℝ} (hr : |r| < 1) (ha : P.Above (cell Phi2 a b r) (10 ^ (-8 : ℤ))) :
    HasDerivAt (P.qloglike Phi2 a b) (P.qgradient Phi2 a b r) r ∧ HasDerivAt (P.qgradient Phi2 a b) (P.qhessian Phi2 a b r) r := by
  have hs : HasDerivAt (fun t : ℝ => r + t) 1 0 := by simpa using (hasDerivAt_id (0 : ℝ)).const_add r
  have h1 : |r + 0| < 1 := by simpa using hr
  have sh : ∀ {f : ℝ → ℝ} {f' : ℝ}, HasDerivAt (fun t => f (r + t)) f' 0 → HasDerivAt f f' r := fun {f f'} h => by
    have h2 : HasDerivAt (fun s : ℝ => s - r) 1 r := by simpa using (hasDerivAt_id r).sub_const r
    have h3 := HasDerivAt.comp_of_eq r h h2 (by simp)
    simpa [Function.comp_def] using h3
  have hp := fun i (_ : i ≤ P.m1) j (_ : j ≤ P.m2) => cell_r (fun u v {r} hr => C159_dr hr u v) a b hs h1 i j
  have hd := fun i (_ : i ≤ P.m1) j (_ : j ≤ P.m2) => cell_r (fun u v {r} hr => C159_dr2 hr u v) a b hs h1 i j
  have ha8 : P.Above (cell Phi2 a b (r + 0)) (10 ^ (-8 : ℤ)) := by rw [add_zero]; exact ha
  have ha16 : P.Above (cell Phi2 a b (r + 0)) (10 ^ (-16 : ℤ)) := fun i hi j hj hc => lt_trans (by norm_num) (ha8 i hi j hj hc)
  refine ⟨sh ((nll_path (p := fun t => cell Phi2 a b (r + t)) hp ha16).congr_deriv ?_),
    sh ((score_path (p := fun t => cell Phi2 a b (r + t)) (d := fun t => cell pdf a b (r + t)) hp hd ha8).congr_deriv ?_)⟩
  · simp only [qgradient, add_zero, mul_one]
  · simp only [qhessian, add_zero, mul_one]

/-- **C161** `qgradient_transformed` and `qhessian_transformed` are the derivatives of `qloglike_transformed`. -/
theorem C161_quasi_transformed_partial (a b : ℕ → ℝ) (y : ℝ) (ha : P.Above (cell Phi2 a b (tanh y)) (10 ^ (-8 : ℤ))) :
    HasDerivAt (P.qloglikeT Phi2 a b) (P.qgradientT Phi2 a b y) y ∧ HasDerivAt (P.qgradientT Phi2 a b) (P.qhessianT Phi2 a b y) y := by
  have hr : |tanh y| < 1 := (sq_lt_one_iff_abs_lt_one _).1 ((C78_tanh (n := 1) fun _ => y).2.1 0)
  have h := C161_quasi_partial a b hr ha
  have ht := hasDerivAt_tanh' y
  refine ⟨h.1.comp y ht, ?_⟩
  have h2 := (h.2.comp y ht).fun_mul (((ht.fun_pow 2).const_sub 1))
  refine h2.congr_deriv ?_
  simp only [qhessianT, Function.comp]
  ring

/-! ### The clamps -/

/-- A table with two categories in each variable and one observation in the last cell. -/
def corner : Pair := ⟨1, 1, fun i j => if i = 1 ∧ j = 1 then 1 else 0⟩

/-- Thresholds `s` and zero, correlation zero. -/
def cornerX (s : ℝ) : ℕ → ℝ := fun k => if k = 0 then s else 0

theorem corner_cell (s : ℝ) : cell Phi2 (corner.t1 (cornerX s)) (corner.t2 (cornerX s)) (corner.rho (cornerX s)) 1 1 =
    (ndtr0 (10 ^ 12) - ndtr0 s) * (ndtr0 (10 ^ 10) - ndtr0 0) := by
  simp only [cell, region, corner, t1, t2, rho, cornerX, pad]
  norm_num
  simp only [Phi2_zero]
  ring

theorem half_gap {x : ℝ} (hx : 1 ≤ x) : 1 / 6 ≤ ndtr0 x - ndtr0 0 := by
  have h1 : ndtr0 1 ≤ ndtr0 x := ndtr0_mono.monotone hx
  have h2 : 1 / 6 ≤ ndtr0 1 - ndtr0 0 := by
    have hd : ∀ z ∈ interior (Icc (0 : ℝ) 1), (1 / 6 : ℝ) ≤ deriv ndtr0 z := fun z hz => by
      rw [interior_Icc] at hz
      rw [(ndtr0_deriv z).deriv]
      unfold phi0
      have hpi : √(2 * π) ≤ 3 := by
        rw [Real.sqrt_le_left (by norm_num)]
        have := Real.pi_le_four
        nlinarith
      have he : 1 / 2 ≤ exp (-z ^ 2 / 2) := by
        have := Real.add_one_le_exp (-z ^ 2 / 2)
        nlinarith [hz.1, hz.2]
      have hpos : 0 < √(2 * π) := Real.sqrt_pos.2 (by have := pi_pos; positivity)
      rw [le_div_iff₀ hpos]
      linarith
    have := Convex.mul_sub_le_image_sub_of_le_deriv (convex_Icc (0 : ℝ) 1) ndtr0_diff.continuous.continuousOn ndtr0_diff.differentiableOn hd 0 (by simp) 1 (by simp) (by norm_num)
    linarith
  linarith

theorem half_zero : ndtr0 0 = 1 / 2 := by
  have := ndtr0_neg 0
  rw [neg_zero] at this
  linarith

/-- A threshold at which the probability of the last cell is a given small number. -/
theorem corner_exists {e : ℝ} (h0 : 0 < e) (h1 : e < 1 / 100) :
    ∃ s, cell Phi2 (corner.t1 (cornerX s)) (corner.t2 (cornerX s)) (corner.rho (cornerX s)) 1 1 = e := by
  have hB : 1 / 6 ≤ ndtr0 (10 ^ 10) - ndtr0 0 := half_gap (by norm_num)
  have hA : 1 / 6 ≤ ndtr0 (10 ^ 12) - ndtr0 0 := half_gap (by norm_num)
  have hA1 : ndtr0 (10 ^ 12) < 1 := (ndtr0_range (10 ^ 12)).2
  simp only [corner_cell]
  have hz := half_zero
  generalize ndtr0 (10 ^ 10) = B at *
  generalize ndtr0 (10 ^ 12) = A at *
  have hB0 : 0 < B - ndtr0 0 := by linarith
  have he : e / (B - ndtr0 0) ≤ 6 / 100 := by
    rw [div_le_iff₀ hB0]
    linarith
  have he0 : 0 < e / (B - ndtr0 0) := by positivity
  obtain ⟨s, hs⟩ := ndtr0_surj (m := A - e / (B - ndtr0 0)) ⟨by linarith, by linarith⟩
  refine ⟨s, ?_⟩
  rw [hs]
  field_simp
  ring

theorem corner_nll (p : ℕ → ℕ → ℝ) : corner.nll p = -Real.log (max (p 1 1) (10 ^ (-16 : ℤ))) := by
  simp [nll, corner, Finset.sum_range_succ]

theorem corner_rho (s : ℝ) : corner.rho (cornerX s) = 0 := by
  simp [corner, rho, cornerX]

/-- The line that moves the first threshold. -/
theorem corner_line (s : ℝ) : PathN corner.len (fun t => cornerX (s + t)) fun k => if k = 0 then 1 else 0 := by
  intro k _
  by_cases hk : k = 0
  · subst hk
    simpa [cornerX] using (hasDerivAt_id (0 : ℝ)).const_add s
  · simp only [cornerX, hk, if_false]
    exact hasDerivAt_const _ _

theorem corner_dprob (he : IsErf erf) (s : ℝ) : corner.dprob erf (cornerX s) 1 1 0 < 0 := by
  have : corner.dprob erf (cornerX s) 1 1 0 = -(phi0 s * (ndtr0 (10 ^ 10) - ndtr0 0)) := by
    simp only [dprob, cat, corner, dt1, step, t1, t2, rho, cornerX, pad]
    norm_num
    rw [cdfDu_eq he, cdfDu_eq he]
    norm_num
    ring
  rw [this]
  have hB : 1 / 6 ≤ ndtr0 (10 ^ 10) - ndtr0 0 := half_gap (by norm_num)
  generalize ndtr0 (10 ^ 10) - ndtr0 0 = B at *
  have := phi0_pos s
  have : 0 < phi0 s * B := mul_pos this (by linarith)
  linarith

/-- **C161** Below the clamp the likelihood is constant but `gradient` goes on: the derivative of the likelihood in the first threshold
vanishes, the first entry of the gradient does not. -/
theorem C161_gradient_violated (he : IsErf erf) : ∃ s : ℝ, |corner.rho (cornerX s)| < 1 ∧
    HasDerivAt (fun t => corner.loglike Phi2 (cornerX (s + t))) 0 0 ∧ 0 < corner.gradient Phi2 erf (cornerX s) 0 := by
  obtain ⟨s, hs⟩ := corner_exists (e := 10 ^ (-17 : ℤ)) (by positivity) (by norm_num)
  refine ⟨s, by simp [corner_rho], ?_, ?_⟩
  · have hc : ContinuousAt (fun t => cell Phi2 (corner.t1 (cornerX (s + t))) (corner.t2 (cornerX (s + t))) (corner.rho (cornerX (s + t))) 1 1) 0 :=
      (prob_path he (corner_line s) rfl (by simp [corner_rho]) (by simp [corner]) (by simp [corner])).continuousAt
    have hlt : ∀ᶠ t in 𝓝 (0 : ℝ), cell Phi2 (corner.t1 (cornerX (s + t))) (corner.t2 (cornerX (s + t))) (corner.rho (cornerX (s + t))) 1 1 < 10 ^ (-16 : ℤ) := by
      refine hc.eventually_lt continuousAt_const ?_
      rw [add_zero, hs]
      norm_num
    refine (hasDerivAt_const (0 : ℝ) (-Real.log (10 ^ (-16 : ℤ)))).congr_of_eventuallyEq (hlt.mono fun t ht => ?_)
    simp only [loglike, corner_nll]
    rw [max_eq_right ht.le]
  · have hd := corner_dprob he s
    have e : corner.gradient Phi2 erf (cornerX s) 0 = -(1 / (10 ^ (-16 : ℤ)) * corner.dprob erf (cornerX s) 1 1 0) := by
      unfold gradient
      have h1 : max (cell Phi2 (corner.t1 (cornerX s)) (corner.t2 (cornerX s)) (corner.rho (cornerX s)) 1 1) (10 ^ (-16 : ℤ)) = 10 ^ (-16 : ℤ) := by
        rw [hs]
        exact max_eq_right (by norm_num)
      have hm : corner.m1 = 1 ∧ corner.m2 = 1 := ⟨rfl, rfl⟩
      have hc : ∀ i j, corner.counts i j = if i = 1 ∧ j = 1 then 1 else 0 := fun i j => rfl
      simp only [hm.1, hm.2, Finset.sum_range_succ, Finset.sum_range_zero, hc]
      rw [h1]
      simp
    rw [e]
    have : 0 < (1 : ℝ) / (10 ^ (-16 : ℤ)) := by positivity
    nlinarith

/-- **C161** `hessian` squares the probabilities and clamps the square at `10⁻¹⁶`: at a counted cell of probability `10⁻⁹`, far above the
clamp of the likelihood, its first entry is not the derivative of the gradient. -/
theorem C161_hessian_violated (he : IsErf erf) : ∃ s : ℝ,
    corner.Above (cell Phi2 (corner.t1 (cornerX s)) (corner.t2 (cornerX s)) (corner.rho (cornerX s))) (10 ^ (-10 : ℤ)) ∧
      ¬ HasDerivAt (fun t => corner.gradient Phi2 erf (cornerX (s + t)) 0) (corner.hessian Phi2 erf (cornerX s) 0 0) 0 := by
  obtain ⟨s, hs⟩ := corner_exists (e := 10 ^ (-9 : ℤ)) (by positivity) (by norm_num)
  have hm : corner.m1 = 1 ∧ corner.m2 = 1 := ⟨rfl, rfl⟩
  have hc : ∀ i j, corner.counts i j = if i = 1 ∧ j = 1 then 1 else 0 := fun i j => rfl
  refine ⟨s, fun i hi j hj h => ?_, fun h => ?_⟩
  · rw [hc] at h
    simp only [ne_eq, ite_eq_right_iff, one_ne_zero, imp_false, not_not] at h
    obtain ⟨rfl, rfl⟩ := h
    rw [hs]
    norm_num
  · have hr : |corner.rho (cornerX s)| < 1 := by simp [corner_rho]
    have hp := prob_path he (corner_line s) (by simp) hr (i := 1) (j := 1) (by simp [corner]) (by simp [corner])
    have hd := dprob_path he (corner_line s) (by simp) hr (i := 1) (j := 1) (k := 0) (by simp [corner]) (by simp [corner])
    have e : ∀ t, corner.gradient Phi2 erf (cornerX (s + t)) 0 = -((max (cell Phi2 (corner.t1 (cornerX (s + t))) (corner.t2 (cornerX (s + t))) (corner.rho (cornerX (s + t))) 1 1) (10 ^ (-16 : ℤ)))⁻¹ *
        corner.dprob erf (cornerX (s + t)) 1 1 0) := fun t => by
      unfold gradient
      simp only [hm.1, hm.2, Finset.sum_range_succ, Finset.sum_range_zero, hc]
      simp
    have h16 : (10 : ℝ) ^ (-16 : ℤ) < cell Phi2 (corner.t1 (cornerX (s + 0))) (corner.t2 (cornerX (s + 0))) (corner.rho (cornerX (s + 0))) 1 1 := by
      rw [add_zero, hs]
      norm_num
    have ht := ((inv_max hp h16 (by positivity)).fun_mul hd).fun_neg
    simp only [e] at h
    have hu := h.unique ht
    have hl : corner.len = 3 := rfl
    have d1 : ∀ g : ℕ → ℝ, dotN corner.len g (fun k => if k = 0 then 1 else 0) = g 0 := fun g => by
      simp [dotN, hl, Finset.sum_range_succ]
    rw [d1, d1, add_zero] at hu
    unfold hessian at hu
    simp only [hm.1, hm.2, Finset.sum_range_succ, Finset.sum_range_zero, hc] at hu
    simp only [hs, zero_ne_one, false_and, and_false, and_self, if_true, if_false, zero_div, mul_zero, zero_mul, zero_add, add_zero] at hu
    have hneg := corner_dprob he s
    set d := corner.dprob erf (cornerX s) 1 1 0
    set q := corner.d2prob erf (cornerX s) 1 1 0 0
    rw [max_eq_left (by norm_num : (10 : ℝ) ^ (-16 : ℤ) ≤ 10 ^ (-9 : ℤ)), max_eq_right (by norm_num : ((10 : ℝ) ^ (-9 : ℤ)) ^ 2 ≤ 10 ^ (-16 : ℤ))] at hu
    norm_num at hu
    nlinarith

/-- **C161** With increasing thresholds the cells are probabilities: none is negative, and together they are the probability of the rectangle
between the closing values. -/
theorem C161_cells (a b : ℕ → ℝ) {r : ℝ} (hr : |r| < 1) (ha : Monotone a) (hb : Monotone b) (m n : ℕ) :
    (∀ i j, 0 ≤ cell Phi2 a b r i j) ∧
      ∑ i ∈ Finset.range m, ∑ j ∈ Finset.range n, cell Phi2 a b r i j = ∫ x in Ioc (a 0) (a m), ∫ y in Ioc (b 0) (b n), pdf x y r := by
  refine ⟨fun i j => (C159_region hr (ha (Nat.le_succ i)) (hb (Nat.le_succ j))).2, ?_⟩
  rw [← (C159_region hr (ha (Nat.zero_le m)) (hb (Nat.zero_le n))).1]
  have h1 : ∀ i, ∑ j ∈ Finset.range n, cell Phi2 a b r i j = (Phi2 (a (i + 1)) (b n) r - Phi2 (a (i + 1)) (b 0) r) - (Phi2 (a i) (b n) r - Phi2 (a i) (b 0) r) := fun i => by
    have := Finset.sum_range_sub (fun j => Phi2 (a (i + 1)) (b j) r - Phi2 (a i) (b j) r) n
    rw [show (Phi2 (a (i + 1)) (b n) r - Phi2 (a (i + 1)) (b 0) r) - (Phi2 (a i) (b n) r - Phi2 (a i) (b 0) r) =
      Phi2 (a (i + 1)) (b n) r - Phi2 (a i) (b n) r - (Phi2 (a (i + 1)) (b 0) r - Phi2 (a i) (b 0) r) by ring, ← this]
    refine Finset.sum_congr rfl fun j _ => ?_
    simp only [cell, region]
    ring
  simp only [h1]
  rw [Finset.sum_range_sub (fun i => Phi2 (a i) (b n) r - Phi2 (a i) (b 0) r), region]
  ring

/-- The hypotheses on the cells can be met. -/
example : |corner.rho (cornerX 0)| < 1 ∧ corner.Above (cell Phi2 (corner.t1 (cornerX 0)) (corner.t2 (cornerX 0)) (corner.rho (cornerX 0))) (10 ^ (-8 : ℤ)) := by
  refine ⟨by simp [corner_rho], fun i _ j _ h => ?_⟩
  have hc : ∀ i j, corner.counts i j = if i = 1 ∧ j = 1 then 1 else 0 := fun i j => rfl
  rw [hc] at h
  simp only [ne_eq, ite_eq_right_iff, one_ne_zero, imp_false, not_not] at h
  obtain ⟨rfl, rfl⟩ := h
  rw [corner_cell]
  have hB : 1 / 6 ≤ ndtr0 (10 ^ 10) - ndtr0 0 := half_gap (by norm_num)
  have hA : 1 / 6 ≤ ndtr0 (10 ^ 12) - ndtr0 0 := half_gap (by norm_num)
  generalize ndtr0 (10 ^ 10) - ndtr0 0 = B at *
  generalize ndtr0 (10 ^ 12) - ndtr0 0 = A at *
  have : (1 / 36 : ℝ) ≤ A * B := by nlinarith
  refine lt_of_lt_of_le ?_ this
  norm_num

end Pair

end Verif.Lv
