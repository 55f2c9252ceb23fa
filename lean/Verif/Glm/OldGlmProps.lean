import Verif.Glm.OldGlm
import Mathlib.Algebra.BigOperators.Field
import Mathlib.Analysis.SpecialFunctions.Log.Deriv
import Mathlib.Analysis.SpecialFunctions.ExpDeriv
import Mathlib.Analysis.SpecialFunctions.Pow.Real
/-!
# C229, C230: fitting and fit statistics of the older GLM
-/
namespace Verif.Glm
open Real

section
variable {p : ℕ} {ll : (Fin p → ℝ) → ℝ} {step : (Fin p → ℝ) → Fin p → ℝ} {conv : (Fin p → ℝ) → Bool}

theorem halve_some {theta dx : Fin p → ℝ} {llk : ℝ} : ∀ {m : ℕ} {s r : ℝ}, ogHalve ll theta dx llk m s = some r →
    ll (fun i => theta i - dx i / r) < llk ∧ ∃ j, j < m ∧ r = s * 2 ^ (j + 1) := by
  intro m
  induction m with
  | zero => intro s r h; simp [ogHalve] at h
  | succ m ih =>
    intro s r h
    rw [ogHalve] at h
    by_cases hc : ll (fun i => theta i - dx i / (s * 2)) < llk
    · rw [if_pos hc] at h
      have := Option.some.inj h
      subst this
      exact ⟨hc, 0, by omega, by norm_num⟩
    · rw [if_neg hc] at h
      obtain ⟨h1, j, hj, e⟩ := ih h
      exact ⟨h1, j + 1, by omega, by rw [e, pow_succ 2 (j + 1)]; ring⟩

/-- A step of `_fit_manual` that is taken does not increase the negative log-likelihood, and is the Newton step divided by a
power of two, at most the hundredth. -/
theorem C229_step {theta th : Fin p → ℝ} {llk : ℝ} (h : ogStep ll step theta llk = some th) :
    ll th ≤ llk ∧ ∃ j, j ≤ 100 ∧ th = fun i => theta i - step theta i / 2 ^ j := by
  simp only [ogStep] at h
  by_cases hc : ll (fun i => theta i - step theta i) > llk
  · rw [if_pos hc] at h
    obtain ⟨sh, h1, rfl⟩ := Option.map_eq_some_iff.1 h
    obtain ⟨h2, j, hj, rfl⟩ := halve_some h1
    exact ⟨h2.le, j + 1, by omega, by rw [one_mul]⟩
  · rw [if_neg hc] at h
    have := Option.some.inj h
    subst this
    refine ⟨?_, 0, by omega, by simp⟩
    simp only [div_one]
    exact not_lt.1 hc

/-- The full Newton step is only shortened when it increases the objective. -/
theorem C229_full_step {theta : Fin p → ℝ} {llk : ℝ} (h : ll (fun i => theta i - step theta i) ≤ llk) :
    ogStep ll step theta llk = some fun i => theta i - step theta i := by
  simp only [ogStep]
  rw [if_neg (not_lt.2 h)]
  simp

/-- `_fit_manual` never ends above its start. -/
theorem C229_descent (m : ℕ) (theta : Fin p → ℝ) : ll (ogManual ll step conv m theta (ll theta)) ≤ ll theta := by
  induction m generalizing theta with
  | zero => exact le_rfl
  | succ m ih =>
    rw [ogManual]
    by_cases hc : conv theta = true
    · rw [if_pos hc]
    · rw [if_neg hc]
      cases h : ogStep ll step theta (ll theta) with
      | none => exact le_rfl
      | some th => exact (ih th).trans (C229_step h).1

/-- It stops at a point that meets the test of convergence, at a point where no step could be taken, or after all
iterations. -/
theorem C229_stops (m : ℕ) (theta : Fin p → ℝ) :
    let r := ogManual ll step conv m theta (ll theta)
    conv r = true ∨ ogStep ll step r (ll r) = none ∨
      ∃ s : ℕ → Fin p → ℝ, s 0 = theta ∧ s m = r ∧ ∀ i, i < m → ogStep ll step (s i) (ll (s i)) = some (s (i + 1)) := by
  induction m generalizing theta with
  | zero => exact Or.inr (Or.inr ⟨fun _ => theta, rfl, rfl, fun i hi => by omega⟩)
  | succ m ih =>
    intro r
    by_cases hc : conv theta = true
    · left
      have : r = theta := by simp only [r, ogManual]; rw [if_pos hc]
      rw [this]; exact hc
    · cases h : ogStep ll step theta (ll theta) with
      | none =>
        right; left
        have : r = theta := by simp only [r, ogManual]; rw [if_neg hc, h]
        rw [this]; exact h
      | some th =>
        have hr : r = ogManual ll step conv m th (ll th) := by simp only [r, ogManual]; rw [if_neg hc, h]
        rcases ih th with h1 | h1 | ⟨s, h0, h1, h2⟩
        · exact Or.inl (by rw [hr]; exact h1)
        · exact Or.inr (Or.inl (by rw [hr]; exact h1))
        · refine Or.inr (Or.inr ⟨fun i => if i = 0 then theta else s (i - 1), rfl, ?_, ?_⟩)
          · simp only [Nat.add_sub_cancel]
            rw [if_neg (by omega), h1, hr]
          · intro i hi
            rcases Nat.eq_zero_or_pos i with rfl | hp
            · simp only [if_true, zero_add]
              rw [if_neg (by omega), h, h0]
            · simp only
              rw [if_neg (by omega), if_neg (by omega), h2 (i - 1) (by omega)]
              congr 2
              omega

/-- It overwrites the starting values of the model: afterwards `theta_init` is the result, and a second call starts there. -/
theorem C229_start_kept_violated :
    (∀ theta : Fin p → ℝ, (ogFitManual ll step conv theta).2 = (ogFitManual ll step conv theta).1) ∧
      ∃ (ll : (Fin 1 → ℝ) → ℝ) (step : (Fin 1 → ℝ) → Fin 1 → ℝ) (conv : (Fin 1 → ℝ) → Bool) (theta : Fin 1 → ℝ),
        (ogFitManual ll step conv theta).2 ≠ theta := by
  classical
  refine ⟨fun _ => rfl, fun x => x 0 ^ 2, fun x => x, fun x => decide (x = 0), fun _ => 1, ?_⟩
  have h1 : ¬ (fun _ : Fin 1 => (1 : ℝ)) = 0 := fun h => by simpa using congrFun h 0
  have hs : ogStep (fun x : Fin 1 → ℝ => x 0 ^ 2) (fun x => x) (fun _ => 1) 1 = some 0 := by
    have := C229_full_step (ll := fun x : Fin 1 → ℝ => x 0 ^ 2) (step := fun x => x) (theta := fun _ => 1) (llk := 1)
      (by norm_num)
    rw [this]
    congr 1
    funext i
    simp
  have hr : (ogFitManual (fun x : Fin 1 → ℝ => x 0 ^ 2) (fun x => x) (fun x => decide (x = 0)) fun _ => 1).2 = 0 := by
    simp only [ogFitManual, one_pow]
    rw [ogManual]
    simp only [h1, decide_false, hs]
    rw [ogManual]
    simp
  rw [hr]
  exact fun h => h1 h.symm

/-- `_fit_estimating_equations` ends one Newton step after a point with a gradient within the tolerance, unless it has
used up its iterations. -/
theorem C229_ee (gmax : (Fin p → ℝ) → ℝ) (tol : ℝ) (m : ℕ) (x : Fin p → ℝ) :
    (∃ z, gmax z ≤ tol ∧ ogEE step gmax tol m x = fun i => z i - step z i) ∨
      ∃ s : ℕ → Fin p → ℝ, s 0 = x ∧ s m = ogEE step gmax tol m x ∧ ∀ i, i < m → s (i + 1) = fun j => s i j - step (s i) j := by
  induction m generalizing x with
  | zero => exact Or.inr ⟨fun _ => x, rfl, rfl, fun i hi => by omega⟩
  | succ m ih =>
    rw [ogEE]
    by_cases h : gmax x ≤ tol
    · exact Or.inl ⟨x, h, by rw [if_pos h]⟩
    · rw [if_neg h]
      rcases ih (fun i => x i - step x i) with ⟨z, hz, e⟩ | ⟨s, h0, h1, h2⟩
      · exact Or.inl ⟨z, hz, e⟩
      · refine Or.inr ⟨fun i => if i = 0 then x else s (i - 1), rfl, by simpa using h1, fun i hi => ?_⟩
        rcases Nat.eq_zero_or_pos i with rfl | hp
        · simpa using h0
        · have := h2 (i - 1) (by omega)
          rw [show i - 1 + 1 = i by omega] at this
          simp only [Nat.add_sub_cancel]
          rw [if_neg (by omega), if_neg (by omega)]
          exact this

/-- A point with no Newton step is left where it is. -/
theorem C229_ee_fixed (gmax : (Fin p → ℝ) → ℝ) (tol : ℝ) (m : ℕ) {x : Fin p → ℝ} (h : step x = 0) :
    ogEE step gmax tol m x = x := by
  induction m with
  | zero => rfl
  | succ m ih =>
    have e : (fun i => x i - step x i) = x := by rw [h]; simp
    rw [ogEE]
    simp only [e, ih, ite_self]

theorem boot_go (tol : ℝ) (m i : ℕ) (x : Fin p → ℝ) :
    let r := ogBoot.go step tol m i x
    (∑ j, |step r.1 j|) / p < tol ∨ r.2 = i + m - 1 := by
  induction m generalizing i x with
  | zero => right; simp [ogBoot.go]
  | succ m ih =>
    intro r
    by_cases h : (∑ j, |-step x j|) / (p : ℝ) < tol
    · left
      have : r = (x, i) := by simp only [r, ogBoot.go]; rw [if_pos h]
      rw [this]
      simpa using h
    · have : r = ogBoot.go step tol m (i + 1) fun j => x j + -step x j := by simp only [r, ogBoot.go]; rw [if_neg h]
      rw [this]
      rcases ih (i + 1) (fun j => x j + -step x j) with h1 | h1
      · exact Or.inl h1
      · right; rw [h1]; omega

/-- `_bootfit` ends at a point whose Newton step is within the tolerance, or at its last iteration. -/
theorem C229_bootfit {tol : ℝ} {m : ℕ} {x r : Fin p → ℝ} {i : ℕ} (h : ogBoot step tol m x = some (r, i)) :
    (∑ j, |step r j|) / p < tol ∨ i + 1 = m := by
  simp only [ogBoot] at h
  by_cases hm : m = 0
  · rw [if_pos hm] at h; cases h
  · rw [if_neg hm] at h
    have e := Option.some.inj h
    have := boot_go (step := step) tol m 0 x
    rw [e] at this
    rcases this with h1 | h1
    · exact Or.inl h1
    · right; simp only at h1; omega

end

/-! ## Starting values -/

/-- A response column of shape `(n, 1)` gives weights that fit the design. -/
theorem C229_start_shape_partial (n p : ℕ) : ogStartShape n p [n, 1] = some [n, p] := by
  simp only [ogStartShape, bcast2, Option.bind_eq_bind]
  by_cases h : p = 1 <;> simp [h]

/-- A plain vector of responses does not: for a Gamma model with three observations and two predictors the weights are
three by three and the product with the design raises. -/
theorem C229_start_shape_violated : bcast2 [3, 1] [3] = some [3, 3] ∧ ogStartShape 3 2 [3] = none := by
  decide

/-- The starting value of the log scale is the scale itself, so the first scale used is never the estimate. -/
theorem C229_start_scale_violated (theta : List ℝ) (phi : ℝ) :
    ∃ s, ogPhiNR (ogStartNR theta phi) = some s ∧ phi < s := by
  refine ⟨exp phi, ?_, ?_⟩
  · simp [ogPhiNR, ogStartNR]
  · have := add_one_le_exp phi
    linarith

/-! ## Derivatives -/
section
variable {n p : ℕ}

theorem mulVec_line (X : Matrix (Fin n) (Fin p) ℝ) (beta v : Fin p → ℝ) (t : ℝ) (i : Fin n) :
    X.mulVec (fun j => beta j + t * v j) i = X.mulVec beta i + t * X.mulVec v i := by
  simp only [Matrix.mulVec, dotProduct, mul_add, Finset.sum_add_distrib, Finset.mul_sum]
  congr 1
  exact Finset.sum_congr rfl fun j _ => by ring

theorem rss_line (X : Matrix (Fin n) (Fin p) ℝ) (y : Fin n → ℝ) (beta v : Fin p → ℝ) :
    HasDerivAt (fun t => ∑ i, (y i - X.mulVec (fun j => beta j + t * v j) i) ^ 2)
      (∑ i, 2 * (y i - X.mulVec beta i) * -X.mulVec v i) 0 := by
  refine HasDerivAt.fun_sum fun i _ => ?_
  simp only [mulVec_line]
  have h := (((hasDerivAt_id (0 : ℝ)).mul_const (X.mulVec v i)).const_add (X.mulVec beta i)).const_sub (y i)
  refine (h.pow 2).congr_deriv ?_
  simp

/-- With the moment estimator of the scale the objective minimised for a Gaussian model has the derivative
`n / (n - p)` times the `gradient` returned: the scale is treated as fixed. -/
theorem C229_gradient_M (dfe : ℝ) (hd : dfe ≠ 0) (X : Matrix (Fin n) (Fin p) ℝ) (y : Fin n → ℝ) (beta v : Fin p → ℝ)
    (hr : 0 < ∑ i, (y i - X.mulVec beta i) ^ 2) :
    HasDerivAt (fun t => ogLoglikeM dfe X y fun j => beta j + t * v j)
      ((n : ℝ) / dfe * ∑ j, ogGradM dfe X y beta j * v j) 0 := by
  set R : ℝ → ℝ := fun t => ∑ i, (y i - X.mulVec (fun j => beta j + t * v j) i) ^ 2 with hR
  have hR0 : R 0 = ∑ i, (y i - X.mulVec beta i) ^ 2 := by simp [hR]
  have hs : ∀ t, ogScale dfe 1 X y (fun j => beta j + t * v j) = R t / dfe := fun t => by
    simp only [ogScale, hR, one_mul, div_one]
  have hev : (fun t => ogLoglikeM dfe X y fun j => beta j + t * v j) =ᶠ[nhds 0]
      fun t => dfe / 2 + (n : ℝ) * (log (R t) - log dfe) / 2 := by
    have hc := (rss_line X y beta v).continuousAt
    have hpos : ∀ᶠ t in nhds (0 : ℝ), 0 < R t := hc.eventually (lt_mem_nhds (by rw [← hR0] at hr; exact hr))
    filter_upwards [hpos] with t ht
    simp only [ogLoglikeM, hs, div_one]
    rw [← Finset.sum_div, Finset.sum_add_distrib, ← Finset.mul_sum, Finset.sum_const, Finset.card_univ, Fintype.card_fin,
      nsmul_eq_mul, log_div ht.ne' hd]
    have : (∑ i, (y i - X.mulVec (fun j => beta j + t * v j) i) ^ 2) = R t := rfl
    rw [this]
    field_simp
  refine HasDerivAt.congr_of_eventuallyEq ?_ hev
  have h := ((((rss_line X y beta v).log (by rw [← hR0] at hr; exact hr.ne')).sub_const (log dfe)).const_mul
    (n : ℝ)).div_const 2 |>.const_add (dfe / 2)
  refine h.congr_deriv ?_
  have e : ∑ j, ogGradM dfe X y beta j * v j = -(dfe / R 0) * ∑ i, (y i - X.mulVec beta i) * X.mulVec v i := by
    have hs0 : ogScale dfe 1 X y beta = R 0 / dfe := by simpa using hs 0
    simp only [ogGradM, hs0, Finset.sum_mul]
    rw [Finset.sum_comm, Finset.mul_sum]
    refine Finset.sum_congr rfl fun i _ => ?_
    simp only [Matrix.mulVec, dotProduct, Finset.mul_sum]
    refine Finset.sum_congr rfl fun j _ => ?_
    field_simp
  rw [e]
  have e2 : (∑ i, 2 * (y i - X.mulVec beta i) * -X.mulVec v i) = -2 * ∑ i, (y i - X.mulVec beta i) * X.mulVec v i := by
    rw [Finset.mul_sum]; exact Finset.sum_congr rfl fun i _ => by ring
  rw [e2]
  have hR0' : R 0 ≠ 0 := by rw [hR0]; exact hr.ne'
  change (n : ℝ) * (_ / R 0) / 2 = _
  field_simp

/-- The cross block of the Hessian is the derivative of the gradient in the log scale, for the model's own data. -/
theorem C229_cross_partial (X : Matrix (Fin n) (Fin p) ℝ) (y : Fin n → ℝ) (beta : Fin p → ℝ) (tau : ℝ) (j : Fin p) :
    HasDerivAt (fun t => ogGradNR X y beta t j) (ogCrossNR X y X y beta tau j) tau := by
  have e : ∀ t, ogGradNR X y beta t j = (∑ i, X i j * -(y i - X.mulVec beta i)) * exp (-t) := by
    intro t
    simp only [ogGradNR, Finset.sum_mul, exp_neg]
    exact Finset.sum_congr rfl fun i _ => by
      have := exp_pos t
      field_simp
  have e' : (fun t => ogGradNR X y beta t j) = fun t => (∑ i, X i j * -(y i - X.mulVec beta i)) * exp (-t) := funext e
  rw [e', ogCrossNR, e]
  exact (((hasDerivAt_neg tau).exp).const_mul _).congr_deriv (by ring)

/-- For a bootstrap sample it is not: the gradient of the sample does not enter. -/
theorem C229_cross_violated : ∃ (X0 X : Matrix (Fin 1) (Fin 1) ℝ) (y0 y : Fin 1 → ℝ) (beta : Fin 1 → ℝ) (tau : ℝ),
    ¬ HasDerivAt (fun t => ogGradNR X y beta t 0) (ogCrossNR X0 y0 X y beta tau 0) tau := by
  refine ⟨fun _ _ => 1, fun _ _ => 1, fun _ => 1, fun _ => 2, fun _ => 0, 0, fun h => ?_⟩
  have h1 := h.unique (C229_cross_partial (fun _ _ => 1) (fun _ => 2) (fun _ => 0) 0 0)
  simp only [ogCrossNR, ogGradNR, Matrix.mulVec, dotProduct] at h1
  norm_num at h1

end

/-! ## Fit statistics -/

/-- Spec: the information criteria from minus the log-likelihood. -/
def aicS (nll : ℝ) (k : ℕ) : ℝ := 2 * nll + 2 * k
noncomputable def aiccS (nll : ℝ) (k N : ℕ) : ℝ := aicS nll k + 2 * k * (k + 1) / ((N : ℝ) - k - 1)
noncomputable def bicS (nll : ℝ) (k N : ℕ) : ℝ := 2 * nll + k * log N

/-- The corrected criterion, the Bayesian ones and the likelihood ratio are the usual ones. -/
theorem C230_criteria (llf lln : ℝ) {k N : ℕ} (h : k + 1 < N) : let s := ogSumstats llf lln k N
    s.aicc = aiccS llf k N ∧ s.bic = bicS llf k N ∧ s.caic = bicS llf k N + k ∧ s.llr = 2 * lln - 2 * llf := by
  have hN : (0 : ℝ) < (N : ℝ) - k - 1 := by
    have : ((k + 1 : ℕ) : ℝ) < N := by exact_mod_cast h
    push_cast at this
    linarith
  refine ⟨?_, ?_, ?_, ?_⟩
  · simp only [ogSumstats, aiccS, aicS]
    field_simp
    ring
  · simp only [ogSumstats, bicS]; ring
  · simp only [ogSumstats, bicS]; norm_num; ring
  · simp only [ogSumstats]; ring

/-- Akaike's criterion charges one per parameter in place of two, and so is not the limit of the corrected one. -/
theorem C230_aic_violated (llf lln : ℝ) {k : ℕ} (hk : 0 < k) (N : ℕ) :
    (ogSumstats llf lln k N).aic = aicS llf k - k ∧ (ogSumstats llf lln k N).aic ≠ aicS llf k := by
  have hk' : (0 : ℝ) < k := by exact_mod_cast hk
  have e : (ogSumstats llf lln k N).aic = aicS llf k - k := by simp only [ogSumstats, aicS]; ring
  refine ⟨e, ?_⟩
  rw [e]
  linarith

/-- Two models compared by it need not be ordered as by the criterion itself. -/
theorem C230_aic_order_violated : ∃ (l1 l2 : ℝ) (k1 k2 : ℕ), ∀ lln N,
    (ogSumstats l2 lln k2 N).aic < (ogSumstats l1 lln k1 N).aic ∧ aicS l1 k1 < aicS l2 k2 := by
  refine ⟨5, 4.3, 1, 2, fun lln N => ?_⟩
  simp only [ogSumstats, aicS]
  norm_num

/-- The measures of Cox and Snell, Nagelkerke, McFadden and Aldrich and Nelson are the usual ones, written with the
log-likelihoods `l1`, `l0`. -/
theorem C230_rsquared (l1 l0 : ℝ) (k N : ℕ) : let s := ogSumstats (-l1) (-l0) k N
    s.cs = 1 - (exp l0 / exp l1) ^ (2 / (N : ℝ)) ∧
      s.nagel = (1 - (exp l0 / exp l1) ^ (2 / (N : ℝ))) / (1 - exp l0 ^ (2 / (N : ℝ))) ∧
      s.mcf = 1 - l1 / l0 ∧ s.mfa = 2 * (l1 - l0) / (2 * (l1 - l0) + N) := by
  have e1 : 1 - exp (1.0 / (N : ℝ) * (-l1 * 2.0 - -l0 * 2.0)) = 1 - (exp l0 / exp l1) ^ (2 / (N : ℝ)) := by
    rw [← exp_sub, ← exp_mul]
    congr 2
    norm_num
    ring
  have e2 : 1 - exp (1.0 / (N : ℝ) * -(-l0 * 2.0)) = 1 - exp l0 ^ (2 / (N : ℝ)) := by
    rw [← exp_mul]
    congr 2
    norm_num
    ring
  refine ⟨e1, ?_, ?_, ?_⟩
  · simp only [ogSumstats]; rw [e1, e2]
  · simp only [ogSumstats]
    rw [show -l1 * 2.0 = -(2 * l1) by norm_num; ring, show -l0 * 2.0 = -(2 * l0) by norm_num; ring, neg_div_neg_eq,
      mul_div_mul_left _ _ (by norm_num)]
  · simp only [ogSumstats]
    rw [show 2 * (-l0 - -l1) = 2 * (l1 - l0) by ring]

/-- The adjusted measure of McFadden rises with the number of parameters. -/
theorem C230_adjusted_violated {l0 : ℝ} (l1 : ℝ) (h0 : l0 < 0) {k : ℕ} (hk : 0 < k) (N : ℕ) :
    1 - (l1 - k) / l0 < (ogSumstats (-l1) (-l0) k N).mcf ∧
      (ogSumstats (-l1) (-l0) k N).mcf < (ogSumstats (-l1) (-l0) k N).mcfa := by
  have hk' : (0 : ℝ) < k := by exact_mod_cast hk
  have h1 : (k : ℝ) / l0 < 0 := div_neg_of_pos_of_neg hk' h0
  rw [(C230_rsquared l1 l0 k N).2.2.1]
  refine ⟨?_, ?_⟩
  · rw [sub_div]; linarith
  · have : (ogSumstats (-l1) (-l0) k N).mcfa = 1 - l1 / l0 - k / l0 / 2 := by
      simp only [ogSumstats]
      have := h0.ne
      norm_num
      field_simp
      ring
    rw [this]; linarith

/-- The squared Pearson residuals add up to the statistic for unit weights. -/
theorem C230_pearson_partial {v : ℝ} (hv : 0 < v) (y mu : ℝ) : ogPearson 1 v y mu ^ 2 = ogChi 1 v y mu := by
  rw [ogPearson, ogChi, div_pow, sq_sqrt hv.le]; ring

/-- Otherwise they are off by the weight: it enters the residual unrooted. -/
theorem C230_pearson_violated {w v y mu : ℝ} (hv : 0 < v) (hw : 0 < w) (h1 : w ≠ 1) (hy : y ≠ mu) :
    ogPearson w v y mu ^ 2 = w * ogChi w v y mu ∧ ogPearson w v y mu ^ 2 ≠ ogChi w v y mu := by
  have e : ogPearson w v y mu ^ 2 = w * ogChi w v y mu := by
    rw [ogPearson, ogChi, div_pow, sq_sqrt hv.le]; ring
  refine ⟨e, ?_⟩
  have hpos : 0 < ogChi w v y mu := by
    rw [ogChi]
    have : 0 < (y - mu) ^ 2 := by have := sub_ne_zero.2 hy; positivity
    positivity
  rw [e]
  intro h
  exact h1 (mul_right_cancel₀ hpos.ne' (by rw [h, one_mul]))

example : ∃ (X : Matrix (Fin 2) (Fin 1) ℝ) (y : Fin 2 → ℝ) (beta : Fin 1 → ℝ), 0 < ∑ i, (y i - X.mulVec beta i) ^ 2 := by
  refine ⟨fun _ _ => 1, fun _ => 1, fun _ => 0, ?_⟩
  simp [Matrix.mulVec, dotProduct]

end Verif.Glm
