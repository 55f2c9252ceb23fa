import Verif.Lv.PolychorProps
import Mathlib.Analysis.SpecialFunctions.Artanh
import Mathlib.Analysis.Complex.ExponentialBounds

namespace Verif.Lv
open Real Set Filter Topology

variable {ll sc hs : ℝ → ℝ} {tol : ℝ}

/-! ### The halvings -/

/-- **C162** The search returns the first of the `n` halvings that lowers the likelihood, and fails when there is none. -/
theorem C162_search (y step ll0 : ℝ) (n : ℕ) (alpha : ℝ) :
    (∀ y', newtonSearch ll y step ll0 n alpha = some y' →
      ∃ k < n, y' = y + alpha * (1 / 2) ^ k * step ∧ ll (tanh y') < ll0 ∧ ∀ j < k, ll0 ≤ ll (tanh (y + alpha * (1 / 2) ^ j * step))) ∧
    (newtonSearch ll y step ll0 n alpha = none → ∀ j < n, ll0 ≤ ll (tanh (y + alpha * (1 / 2) ^ j * step))) := by
  induction n generalizing alpha with
  | zero => simp [newtonSearch]
  | succ n ih =>
    have ih := ih (alpha * (1 / 2))
    have e : ∀ j : ℕ, alpha * (1 / 2) * (1 / 2) ^ j = alpha * (1 / 2) ^ (j + 1) := fun j => by ring
    simp only [e] at ih
    unfold newtonSearch
    by_cases h : ll (tanh (y + alpha * step)) < ll0
    · rw [if_pos h]
      refine ⟨fun y' hy => ?_, fun h => by simp at h⟩
      obtain rfl := Option.some.inj hy
      exact ⟨0, by omega, by simp, h, by simp⟩
    · rw [if_neg h]
      refine ⟨fun y' hy => ?_, fun hn j hj => ?_⟩
      · obtain ⟨k, hk, h1, h2, h3⟩ := ih.1 y' hy
        refine ⟨k + 1, by omega, h1, h2, fun j hj => ?_⟩
        rcases j with _ | j
        · simpa using h
        · exact h3 j (by omega)
      · rcases j with _ | j
        · simpa using h
        · exact ih.2 hn j (by omega)

/-! ### The direction -/

/-- **C162** Unless the transformed score is below the tolerance the step is a descent direction, the Newton step when the transformed second
derivative exceeds `10⁻¹²`. -/
theorem C162_direction (gr Hr r : ℝ) (ht : 0 < tol) :
    (newtonDir gr Hr r tol).1 = gr * (1 - r ^ 2) ∧
      ((newtonDir gr Hr r tol).2 = none ↔ |gr * (1 - r ^ 2)| < tol) ∧
      ∀ s, (newtonDir gr Hr r tol).2 = some s → gr * (1 - r ^ 2) * s < 0 ∧
        (10 ^ (-12 : ℤ) < Hr * (1 - r ^ 2) ^ 2 - 2 * gr * r * (1 - r ^ 2) →
          (Hr * (1 - r ^ 2) ^ 2 - 2 * gr * r * (1 - r ^ 2)) * s = -(gr * (1 - r ^ 2))) := by
  unfold newtonDir
  simp only [← pow_two]
  by_cases h : |gr * (1 - r ^ 2)| < tol
  · rw [if_pos h]
    exact ⟨rfl, by simp only [h], fun s hs => by simp at hs⟩
  · rw [if_neg h]
    have h0 : gr * (1 - r ^ 2) ≠ 0 := fun h0 => h (by rw [h0, abs_zero]; exact ht)
    refine ⟨rfl, by simp only [h, reduceCtorEq], fun s hs => ?_⟩
    obtain rfl := Option.some.inj hs
    generalize gr * (1 - r ^ 2) = g at *
    generalize Hr * (1 - r ^ 2) ^ 2 - 2 * gr * r * (1 - r ^ 2) = H at *
    constructor
    · have hp : 0 < (if H ≤ 10 ^ (-12 : ℤ) then max |g| (10 ^ (-6 : ℤ)) else H) := by
        split_ifs with hH
        · exact lt_max_of_lt_right (by positivity)
        · exact lt_trans (by positivity) (not_le.1 hH)
      have : g * (-g / if H ≤ 10 ^ (-12 : ℤ) then max |g| (10 ^ (-6 : ℤ)) else H) = -(g ^ 2 / if H ≤ 10 ^ (-12 : ℤ) then max |g| (10 ^ (-6 : ℤ)) else H) := by ring
      rw [this]
      have : 0 < g ^ 2 / if H ≤ 10 ^ (-12 : ℤ) then max |g| (10 ^ (-6 : ℤ)) else H := div_pos (by positivity) hp
      linarith
    · intro hH
      have hH0 : H ≠ 0 := (lt_trans (by positivity) hH).ne'
      rw [if_neg (not_le.2 hH)]
      field_simp

/-- **C162** When the score is the derivative of the likelihood, all sufficiently small multiples of the step lower it. -/
theorem C162_descent (y : ℝ) (ht : 0 < tol) (hd : HasDerivAt ll (sc (tanh y)) (tanh y)) {s : ℝ}
    (hstep : (newtonDir (sc (tanh y)) (hs (tanh y)) (tanh y) tol).2 = some s) : ∀ᶠ a in 𝓝[>] (0 : ℝ), ll (tanh (y + a * s)) < ll (tanh y) := by
  have hneg := ((C162_direction _ _ _ ht).2.2 s hstep).1
  have h1 : HasDerivAt (fun a : ℝ => y + a * s) s 0 := by
    simpa using ((hasDerivAt_id (0 : ℝ)).mul_const s).const_add y
  have h2 : HasDerivAt (fun a : ℝ => tanh (y + a * s)) ((1 - tanh y ^ 2) * s) 0 :=
    ((Verif.Transf.hasDerivAt_tanh' y).comp_of_eq 0 h1 (by simp))
  have h3 : HasDerivAt (fun a : ℝ => ll (tanh (y + a * s))) (sc (tanh y) * ((1 - tanh y ^ 2) * s)) 0 := hd.comp_of_eq 0 h2 (by simp)
  have h4 := h3.tendsto_slope_zero_right
  have h5 : sc (tanh y) * ((1 - tanh y ^ 2) * s) < 0 := by linarith [hneg]
  filter_upwards [h4.eventually (gt_mem_nhds h5), self_mem_nhdsWithin] with a ha hpos
  have hpos : 0 < a := hpos
  simp only [zero_add, zero_mul, add_zero, smul_eq_mul] at ha
  have : a⁻¹ * (ll (tanh (y + a * s)) - ll (tanh y)) < 0 := ha
  by_contra hcon
  push Not at hcon
  have : 0 ≤ a⁻¹ * (ll (tanh (y + a * s)) - ll (tanh y)) := mul_nonneg (by positivity) (by linarith)
  linarith

/-! ### The loop -/

/-- The invariant of the loop. -/
theorem loop_spec (ht : 0 < tol) (n : ℕ) : ∀ (it : ℕ) (y r g : ℝ), r = tanh y →
    let out := newtonLoop ll sc hs tol n it y r g
    ll out.1 ≤ ll r ∧ |out.1| < 1 ∧ out.2.1 ≤ it + n ∧ (0 < n → it < out.2.1) ∧
      (|out.2.2| < tol → 0 < n ∨ tol ≤ |g| → out.2.2 = sc out.1 * (1 - out.1 ^ 2)) := by
  have habs : ∀ y : ℝ, |tanh y| < 1 := fun y => abs_tanh_lt_one y
  induction n with
  | zero =>
    rintro it y r g rfl
    simp only [newtonLoop, le_refl, habs, true_and, add_zero, lt_irrefl, false_or, false_implies]
    intro h1 h2
    linarith
  | succ n ih =>
    rintro it y r g rfl
    have hdir := C162_direction (tol := tol) (sc (tanh y)) (hs (tanh y)) (tanh y) ht
    simp only [newtonLoop]
    generalize newtonDir (sc (tanh y)) (hs (tanh y)) (tanh y) tol = d at hdir ⊢
    obtain ⟨gy, o⟩ := d
    obtain ⟨h1, h2, h3⟩ := hdir
    dsimp only at h1 h2 h3
    subst h1
    cases o with
    | none => simp [habs]
    | some s =>
      have hlarge : ¬ |sc (tanh y) * (1 - tanh y ^ 2)| < tol := fun h => by simpa using h2.2 h
      dsimp only
      have hsearch := C162_search (ll := ll) y s (ll (tanh y)) 20 1
      generalize newtonSearch ll y s (ll (tanh y)) 20 1 = q at hsearch ⊢
      cases q with
      | none =>
        dsimp only
        exact ⟨le_rfl, habs y, by omega, fun _ => by omega, fun h => absurd h hlarge⟩
      | some y' =>
        obtain ⟨k, _, _, hlt, _⟩ := hsearch.1 y' rfl
        obtain ⟨a1, a2, a3, a4, a5⟩ := ih (it + 1) y' (tanh y') (sc (tanh y) * (1 - tanh y ^ 2)) rfl
        refine ⟨a1.trans hlt.le, a2, by dsimp only; omega, fun _ => ?_, fun h _ => a5 h (Or.inr (not_lt.1 hlarge))⟩
        rcases Nat.eq_zero_or_pos n with rfl | hn
        · simp [newtonLoop]
        · have := a4 hn
          dsimp only at this ⊢
          omega

/-- **C162** The fit stays inside `(-1, 1)`, never ends above the likelihood of the start, uses at most `max_iter` iterations, and reports
success only at a point where the transformed score is below the tolerance. -/
theorem C162_fit (ht : 0 < tol) {r0 rclip : ℝ} (h0 : 0 < rclip) (h1 : rclip < 1) {maxIter : ℕ} {r : ℝ} {it : ℕ} {g : ℝ} {ok : Prop}
    (h : newtonFit ll sc hs r0 tol maxIter rclip = some (r, it, g, ok)) :
    |r| < 1 ∧ ll r ≤ ll (clip r0 (-rclip) rclip) ∧ 1 ≤ it ∧ it ≤ maxIter ∧ (ok → g = sc r * (1 - r ^ 2) ∧ |sc r * (1 - r ^ 2)| < tol) := by
  unfold newtonFit at h
  split_ifs at h with hm
  have hc : clip r0 (-rclip) rclip ∈ Ioo (-1) 1 := by
    unfold clip
    refine ⟨lt_min (lt_max_of_lt_right (by linarith)) (by linarith), min_lt_of_right_lt h1⟩
  simp only [Option.some.injEq, Prod.mk.injEq] at h
  obtain ⟨b1, b2, b3, b4, b5⟩ := loop_spec (ll := ll) (sc := sc) (hs := hs) ht maxIter 0 (artanh (clip r0 (-rclip) rclip)) (clip r0 (-rclip) rclip) 0
    (tanh_artanh hc).symm
  generalize newtonLoop ll sc hs tol maxIter 0 (artanh (clip r0 (-rclip) rclip)) (clip r0 (-rclip) rclip) 0 = out at *
  obtain ⟨rfl, rfl, rfl, rfl⟩ := h
  have hp : 0 < maxIter := by omega
  refine ⟨b2, b1, b4 hp, by simpa using b3, fun hok => ?_⟩
  have := b5 hok (Or.inl hp)
  exact ⟨this, this ▸ hok⟩

/-- **C162** `max_iter = 0` raises. -/
theorem C162_zero_iter (r0 rclip : ℝ) : newtonFit ll sc hs r0 tol 0 rclip = none := rfl

/-- **C162** For the likelihood of a pair: a reported success is a point where the derivative of the transformed quasi-likelihood is below the
tolerance, when the counted cells are above the square root of the clamp. -/
theorem C162_pair_partial (P : Pair) (a b : ℕ → ℝ) (ht : 0 < tol) {r0 rclip : ℝ} (h0 : 0 < rclip) (h1 : rclip < 1) {maxIter : ℕ} {r : ℝ} {it : ℕ} {g : ℝ} {ok : Prop}
    (h : newtonFit (P.qloglike Phi2 a b) (P.qgradient Phi2 a b) (P.qhessian Phi2 a b) r0 tol maxIter rclip = some (r, it, g, ok)) (hok : ok)
    (ha : P.Above (Pair.cell Phi2 a b r) (10 ^ (-8 : ℤ))) :
    |r| < 1 ∧ |deriv (P.qloglikeT Phi2 a b) (artanh r)| < tol := by
  obtain ⟨c1, _, _, _, c5⟩ := C162_fit ht h0 h1 h
  obtain ⟨rfl, h3⟩ := c5 hok
  have hr : tanh (artanh r) = r := tanh_artanh (abs_lt.1 c1)
  refine ⟨c1, ?_⟩
  have := (Pair.C161_quasi_transformed_partial (P := P) a b (artanh r) (by rw [hr]; exact ha)).1
  rw [this.deriv]
  unfold Pair.qgradientT
  rw [hr]
  exact h3

/-! ### The report after the last iteration -/

/-- A likelihood whose transform is `y²`. -/
noncomputable def sqLl (r : ℝ) : ℝ := artanh r ^ 2
noncomputable def sqSc (r : ℝ) : ℝ := 2 * artanh r / (1 - r ^ 2)
noncomputable def sqHs (r : ℝ) : ℝ := (2 + 4 * artanh r * r) / (1 - r ^ 2) ^ 2

theorem one_sub_tanh_sq (y : ℝ) : 0 < 1 - tanh y ^ 2 := by
  have := (sq_lt_one_iff_abs_lt_one _).2 (abs_tanh_lt_one y)
  linarith

theorem sq_deriv (y : ℝ) : HasDerivAt (fun y => sqLl (tanh y)) (sqSc (tanh y) * (1 - tanh y ^ 2)) y ∧
    HasDerivAt (fun y => sqSc (tanh y) * (1 - tanh y ^ 2)) (sqHs (tanh y) * (1 - tanh y ^ 2) ^ 2 - 2 * sqSc (tanh y) * tanh y * (1 - tanh y ^ 2)) y := by
  have e1 : ∀ y : ℝ, sqSc (tanh y) * (1 - tanh y ^ 2) = 2 * y := fun y => by
    have := one_sub_tanh_sq y
    unfold sqSc
    rw [artanh_tanh]
    field_simp
  have e2 : ∀ y : ℝ, sqHs (tanh y) * (1 - tanh y ^ 2) ^ 2 - 2 * sqSc (tanh y) * tanh y * (1 - tanh y ^ 2) = 2 := fun y => by
    have h2 : sqHs (tanh y) * (1 - tanh y ^ 2) ^ 2 = 2 + 4 * y * tanh y := by
      have := one_sub_tanh_sq y
      unfold sqHs
      rw [artanh_tanh]
      field_simp
    linear_combination h2 - 2 * tanh y * e1 y
  simp only [e1, e2, sqLl, artanh_tanh]
  refine ⟨((hasDerivAt_id y).fun_pow 2).congr_deriv (by simp), ((hasDerivAt_id y).const_mul 2).congr_deriv (by simp)⟩

/-- **C162** The report describes the point before the last step: a fit that ends at the minimum in its last iteration reports the score of the
starting point and failure. -/
theorem C162_report_violated : ∃ g : ℝ, ∃ ok : Prop, newtonFit sqLl sqSc sqHs (1 / 2) (10 ^ (-8 : ℤ)) 1 (9999 / 10000) = some (0, 1, g, ok) ∧
    sqSc 0 * (1 - 0 ^ 2) = 0 ∧ (∀ r, sqLl 0 ≤ sqLl r) ∧ 1 ≤ g ∧ ¬ ok := by
  have hc : clip (1 / 2) (-(9999 / 10000)) (9999 / 10000) = 1 / 2 := by norm_num [clip]
  have ht : tanh (artanh (1 / 2)) = 1 / 2 := tanh_artanh ⟨by norm_num, by norm_num⟩
  have hy : 1 ≤ 2 * artanh (1 / 2) := by
    rw [artanh_eq_half_log ⟨by norm_num, by norm_num⟩]
    have h3 : 1 ≤ log 3 := by
      rw [Real.le_log_iff_exp_le (by norm_num)]
      have := Real.exp_one_lt_d9
      linarith
    norm_num
    linarith
  set y : ℝ := artanh (1 / 2) with hydef
  have h1 : sqSc (1 / 2) * (1 - 1 / 2 * (1 / 2)) = 2 * y := by
    unfold sqSc
    rw [← hydef]
    norm_num
  have h2 : sqHs (1 / 2) * (1 - 1 / 2 * (1 / 2)) ^ 2 - 2 * sqSc (1 / 2) * (1 / 2) * (1 - 1 / 2 * (1 / 2)) = 2 := by
    unfold sqHs sqSc
    rw [← hydef]
    norm_num
    ring
  have hd : newtonDir (sqSc (1 / 2)) (sqHs (1 / 2)) (1 / 2) (10 ^ (-8 : ℤ)) = (2 * y, some (-y)) := by
    unfold newtonDir
    dsimp only
    rw [h2, h1, if_neg, if_neg]
    · norm_num
      ring
    · norm_num
    · rw [not_lt, abs_of_nonneg (by linarith)]
      refine le_trans ?_ hy
      norm_num
  have hs : newtonSearch sqLl y (-y) (sqLl (1 / 2)) 20 1 = some 0 := by
    unfold newtonSearch
    have e : y + 1 * -y = 0 := by ring
    rw [e, if_pos]
    simp only [sqLl, tanh_zero, artanh_zero, ← hydef]
    nlinarith
  refine ⟨2 * y, |2 * y| < 10 ^ (-8 : ℤ), ?_, by simp [sqSc], fun r => by simp only [sqLl, artanh_zero]; nlinarith [sq_nonneg (artanh r)], hy, ?_⟩
  · unfold newtonFit
    rw [if_neg (by norm_num)]
    simp only [hc, ← hydef, newtonLoop, hd, hs, tanh_zero]
  · rw [not_lt, abs_of_nonneg (by linarith)]
    refine le_trans ?_ hy
    norm_num

end Verif.Lv
