import Verif.Glm.OldFamilies
import Verif.Glm.DevianceProps
import Verif.Glm.DensityProps
/-!
# C208: canonical functions of the older families
-/
namespace Verif.Glm.Old
open Real Set Filter Topology Verif.Glm

/-! ## Specification -/

/-- The canonical parameter has derivative `1 / V`, and the mean function brings it back. -/
def ThetaOK (C : Canon) (M : Set ℝ) : Prop :=
  ∀ k > 0, ∀ mu ∈ M, HasDerivAt (fun m => C.theta m k) (1 / C.var mu k) mu ∧
    C.mean (C.theta mu k) k = some mu

/-- `d2canonical` is the second derivative of the canonical parameter, the derivative of `1 / V`. -/
def D2OK (C : Canon) (M : Set ℝ) : Prop :=
  ∀ k > 0, ∀ mu ∈ M, ∃ x, C.d2c mu k = some x ∧ HasDerivAt (fun m => 1 / C.var m k) x mu

/-- At the canonical parameter `th mu` of mean `mu` the cumulant has derivative `mu` and the mean
function derivative `V(mu)`. -/
def CumulantOK (C : Canon) (th : ℝ → ℝ → ℝ) (M : Set ℝ) : Prop :=
  ∀ k > 0, ∀ mu ∈ M, ∃ f g : ℝ → ℝ,
    (∀ᶠ T in 𝓝 (th mu k), C.b T k = some (f T) ∧ C.mean T k = some (g T)) ∧
    HasDerivAt f mu (th mu k) ∧ g (th mu k) = mu ∧ HasDerivAt g (C.var mu k) (th mu k)

/-! ## Families that are right -/

theorem C208_poisson : ThetaOK poissonC (Ioi 0) ∧ D2OK poissonC (Ioi 0) ∧
    CumulantOK poissonC poissonC.theta (Ioi 0) := by
  refine ⟨fun k _ mu h => ⟨?_, ?_⟩, fun k _ mu h => ⟨_, rfl, ?_⟩,
    fun k _ mu h => ⟨exp, exp, ?_, ?_, exp_log h, ?_⟩⟩
  · simpa [poissonC] using hasDerivAt_log (ne_of_gt h : mu ≠ 0)
  · simp only [poissonC, exp_log h]
  · simpa [poissonC] using hasDerivAt_const_div_pow 1 0 (ne_of_gt h : mu ≠ 0)
  · exact Eventually.of_forall fun T => ⟨rfl, rfl⟩
  · exact (hasDerivAt_exp (log mu)).congr_deriv (exp_log h)
  · exact (hasDerivAt_exp (log mu)).congr_deriv (exp_log h)

theorem C208_gamma : ThetaOK gammaC (Ioi 0) ∧ D2OK gammaC (Ioi 0) ∧
    CumulantOK gammaC gammaC.theta (Ioi 0) := by
  refine ⟨fun k _ mu h => ⟨?_, ?_⟩, fun k _ mu h => ⟨_, rfl, ?_⟩,
    fun k _ mu h => ⟨fun T => -log (-T), fun T => -1 / T, ?_, ?_, ?_, ?_⟩⟩
  all_goals have h : 0 < mu := h
  · refine (hasDerivAt_const_div_pow (-1) 0 h.ne').congr_deriv ?_ |>.congr_of_eventuallyEq ?_
    · simp [gammaC]
    · exact Eventually.of_forall fun m => by simp [gammaC]
  · simp only [gammaC, Option.some.injEq]; field_simp
  · refine (hasDerivAt_const_div_pow 1 1 h.ne').congr_deriv ?_ |>.congr_of_eventuallyEq ?_
    · simp; norm_num
    · exact Eventually.of_forall fun m => by simp [gammaC]
  · have hlt : gammaC.theta mu k < 0 := by
      simp only [gammaC]; rw [neg_div]; exact neg_lt_zero.2 (by positivity)
    filter_upwards [Iio_mem_nhds hlt] with T hT
    exact ⟨if_pos hT, rfl⟩
  · have hne : -(-1 / mu) ≠ 0 := by simp [h.ne']
    refine (((hasDerivAt_id (-1 / mu)).fun_neg).log (by simpa using hne)).fun_neg.congr_deriv ?_
    simp only [id]; field_simp
  · simp only [gammaC]; field_simp
  · have hne : -1 / mu ≠ 0 := div_ne_zero (by norm_num) h.ne'
    refine ((hasDerivAt_const (-1 / mu) (-1 : ℝ)).fun_div (hasDerivAt_id _) hne).congr_deriv ?_
    simp only [id, gammaC]; field_simp; ring

theorem C208_binomial : ThetaOK binomialC (Ioo 0 1) ∧ D2OK binomialC (Ioo 0 1) ∧
    CumulantOK binomialC binomialC.theta (Ioo 0 1) := by
  have hexp : ∀ mu : ℝ, 0 < mu → mu < 1 → exp (log (mu / (1 - mu))) = mu / (1 - mu) :=
    fun mu h0 h1 => exp_log (div_pos h0 (sub_pos.2 h1))
  refine ⟨fun k _ mu h => ⟨?_, ?_⟩, fun k _ mu h => ⟨_, rfl, ?_⟩,
    fun k _ mu h => ⟨fun T => log (1 + exp T), fun T => exp T / (1 + exp T),
      Eventually.of_forall fun T => ⟨rfl, rfl⟩, ?_, ?_, ?_⟩⟩
  all_goals
    obtain ⟨h0, h1⟩ := h
    have h2 : 0 < 1 - mu := sub_pos.2 h1
  · have h3 := (hasDerivAt_id mu).fun_div (one_sub_deriv mu) h2.ne'
    refine (h3.log (by simpa using (div_pos h0 h2).ne')).congr_deriv ?_
    simp only [id, binomialC]; field_simp; ring
  · simp only [binomialC, hexp mu h0 h1, Option.some.injEq]; field_simp; ring
  · refine ((hasDerivAt_const mu (1 : ℝ)).fun_div
      ((hasDerivAt_id mu).fun_mul (one_sub_deriv mu)) ?_).congr_deriv ?_
    · simpa using ⟨h0.ne', h2.ne'⟩
    · simp only [id]; field_simp; ring
  · refine (((hasDerivAt_exp (log (mu / (1 - mu)))).const_add 1).log
      (by positivity)).congr_deriv ?_
    rw [hexp mu h0 h1]; field_simp; ring
  · simp only [binomialC, hexp mu h0 h1]; field_simp; ring
  · refine ((hasDerivAt_exp (log (mu / (1 - mu)))).fun_div
      ((hasDerivAt_exp (log (mu / (1 - mu)))).const_add 1) (by positivity)).congr_deriv ?_
    rw [hexp mu h0 h1]; simp only [binomialC]; field_simp; ring

/-! ## Gaussian: `d2canonical` is one, not zero -/

theorem C208_gaussian_partial : ThetaOK gaussianC univ ∧
    CumulantOK gaussianC gaussianC.theta univ := by
  refine ⟨fun k _ mu _ => ⟨?_, rfl⟩, fun k _ mu _ => ⟨fun T => T ^ 2 / 2, fun T => T,
    Eventually.of_forall fun T => ⟨rfl, rfl⟩, ?_, rfl, ?_⟩⟩
  · exact (hasDerivAt_id mu).congr_deriv (by simp [gaussianC])
  · refine ((hasDerivAt_pow 2 mu).div_const 2).congr_deriv ?_; simp
  · exact (hasDerivAt_id mu).congr_deriv (by simp [gaussianC])

/-- For no mean is the returned value the second derivative of the canonical parameter. -/
theorem C208_gaussian_d2_violated (mu k : ℝ) :
    gaussianC.d2c mu k = some 1 ∧ ¬ HasDerivAt (fun m => 1 / gaussianC.var m k) 1 mu := by
  refine ⟨by simp [gaussianC], fun h => ?_⟩
  have h2 : HasDerivAt (fun m => 1 / gaussianC.var m k) 0 mu := by
    simpa [gaussianC] using hasDerivAt_const mu (1 : ℝ)
  exact one_ne_zero (h.unique h2)

/-! ## Inverse Gaussian: the canonical parameter is `1 / mu²` instead of `-1 / (2 mu²)` -/

/-- Cumulant and mean function are those of the canonical parameter `-1 / (2 mu²)`. -/
theorem C208_invGaussian_partial :
    CumulantOK invGaussianC (fun mu _ => -1 / (2 * mu ^ 2)) (Ioi 0) ∧
    CumulantOK invGaussianL (fun mu _ => -1 / (2 * mu ^ 2)) (Ioi 0) := by
  have key : CumulantOK invGaussianC (fun mu _ => -1 / (2 * mu ^ 2)) (Ioi 0) := by
    intro k _ mu h
    have h : 0 < mu := h
    have hlt : -1 / (2 * mu ^ 2) < 0 := by
      rw [neg_div]; exact neg_lt_zero.2 (by positivity)
    have he : -2 * (-1 / (2 * mu ^ 2)) = (1 / mu) ^ 2 := by field_simp
    have hs : sqrt (-2 * (-1 / (2 * mu ^ 2))) = 1 / mu := by rw [he, sqrt_sq (by positivity)]
    have hd : HasDerivAt (fun T : ℝ => -2 * T) (-2) (-1 / (2 * mu ^ 2)) := by
      exact ((hasDerivAt_id (-1 / (2 * mu ^ 2))).const_mul (-2)).congr_deriv (by norm_num)
    have hsq := hd.sqrt (by rw [he]; positivity)
    refine ⟨fun T => -sqrt (-2 * T), fun T => 1 / sqrt (-2 * T), ?_, ?_, ?_, ?_⟩
    · filter_upwards [Iio_mem_nhds hlt] with T hT
      have hT : T < 0 := hT
      exact ⟨if_pos hT.le, if_pos hT⟩
    · refine hsq.fun_neg.congr_deriv ?_
      rw [hs]; field_simp
    · simp only [hs]; field_simp
    · refine ((hasDerivAt_const _ (1 : ℝ)).fun_div hsq (by rw [hs]; positivity)).congr_deriv ?_
      rw [hs]; simp only [invGaussianC]; field_simp; ring
  exact ⟨key, key⟩

/-- The mean function of the canonical parameter is not a number for any mean, and the derivative of
the canonical parameter is not `1 / V`. -/
theorem C208_invGaussian_theta_violated {mu : ℝ} (h : 0 < mu) (k : ℝ) :
    invGaussianC.mean (invGaussianC.theta mu k) k = none ∧
    invGaussianL.mean (invGaussianL.theta mu k) k = none ∧
    ¬ HasDerivAt (fun m => invGaussianC.theta m k) (1 / invGaussianC.var mu k) mu := by
  have h1 : ¬ (1 / mu ^ 2 < 0) := by have : 0 < 1 / mu ^ 2 := by positivity
                                     linarith
  refine ⟨if_neg h1, if_neg h1, fun hd => ?_⟩
  have h2 : HasDerivAt (fun m => invGaussianC.theta m k) (-2 / mu ^ 3) mu := by
    refine (hasDerivAt_const_div_pow 1 1 h.ne').congr_deriv ?_ |>.congr_of_eventuallyEq ?_
    · simp; norm_num
    · exact Eventually.of_forall fun m => by simp [invGaussianC]
  have h3 := hd.unique h2
  simp only [invGaussianC] at h3
  field_simp at h3
  norm_num at h3

/-- `d2canonical` has the wrong sign in `pyglm`, and is not a number in `pylmm`. -/
theorem C208_invGaussian_d2_violated {mu : ℝ} (h : 0 < mu) (k : ℝ) :
    invGaussianC.d2c mu k = some (3 / mu ^ 4) ∧
    HasDerivAt (fun m => 1 / invGaussianC.var m k) (-(3 / mu ^ 4)) mu ∧
    ¬ HasDerivAt (fun m => 1 / invGaussianC.var m k) (3 / mu ^ 4) mu ∧
    invGaussianL.d2c mu k = none := by
  have h2 : HasDerivAt (fun m => 1 / invGaussianC.var m k) (-(3 / mu ^ 4)) mu := by
    refine (hasDerivAt_const_div_pow 1 2 h.ne').congr_deriv ?_
    push_cast; ring
  refine ⟨rfl, h2, fun hd => ?_, if_neg (not_lt.2 h.le)⟩
  have h3 := hd.unique h2
  have : 0 < 3 / mu ^ 4 := by positivity
  linarith

/-! ## Negative binomial: sign of the mean function, dispersion in the cumulant -/

theorem nb_theta {k mu : ℝ} (hk : 0 < k) (h : 0 < mu) :
    exp (negBinomialC.theta mu k) = mu * k / (1 + mu * k) := by
  simp only [negBinomialC]; exact exp_log (by positivity)

/-- The canonical parameter and its derivatives are right; the mean function returns `-mu`; the
cumulant is right for dispersion one. -/
theorem C208_negBinomial_partial : D2OK negBinomialC (Ioi 0) ∧
    ∀ k > 0, ∀ mu > 0, HasDerivAt (fun m => negBinomialC.theta m k) (1 / negBinomialC.var mu k) mu ∧
      negBinomialC.mean (negBinomialC.theta mu k) k = some (-mu) ∧
      ∃ f : ℝ → ℝ, (∀ᶠ T in 𝓝 (negBinomialC.theta mu 1), negBinomialC.b T 1 = some (f T)) ∧
        HasDerivAt f mu (negBinomialC.theta mu 1) := by
  refine ⟨fun k hk mu h => ⟨_, rfl, ?_⟩, fun k hk mu h => ⟨?_, ?_, ?_⟩⟩
  · have hk : 0 < k := hk
    have h : 0 < mu := h
    have hd : HasDerivAt (fun m : ℝ => m + m ^ 2 * k) (1 + 2 * mu * k) mu := by
      refine ((hasDerivAt_id mu).fun_add ((hasDerivAt_pow 2 mu).mul_const k)).congr_deriv ?_
      simp
    refine ((hasDerivAt_const mu (1 : ℝ)).fun_div hd (by positivity)).congr_deriv ?_
    field_simp; ring
  · have hk : 0 < k := hk
    have h : 0 < mu := h
    have h1 : HasDerivAt (fun m : ℝ => m * k) k mu := by
      simpa using (hasDerivAt_id mu).mul_const k
    refine ((h1.fun_div (h1.const_add 1) (by positivity)).log (by positivity)).congr_deriv ?_
    simp only [negBinomialC]
    have h3 : mu + mu ^ 2 * k ≠ 0 := by positivity
    field_simp; ring
  · have hk : 0 < k := hk
    have h : 0 < mu := h
    show some (-1 / k * (exp (negBinomialC.theta mu k) / (1 - exp (negBinomialC.theta mu k)))) = _
    rw [nb_theta hk h, Option.some.injEq]
    have e : 1 - mu * k / (1 + mu * k) = 1 / (1 + mu * k) := by field_simp; ring
    rw [e]; field_simp
  · have h : 0 < mu := h
    have he := nb_theta one_pos h
    have hlt : exp (negBinomialC.theta mu 1) < 1 := by
      rw [he, div_lt_one (by positivity)]; linarith
    refine ⟨fun T => -1 / 1 * log (1 - 1 * exp T), ?_, ?_⟩
    · have hc : ContinuousAt (fun T : ℝ => 1 * exp T) (negBinomialC.theta mu 1) := by fun_prop
      have hl : 1 * exp (negBinomialC.theta mu 1) < 1 := by rwa [one_mul]
      filter_upwards [hc.eventually (Iio_mem_nhds hl)] with T hT
      exact if_pos hT
    · have hne : 1 - 1 * exp (negBinomialC.theta mu 1) ≠ 0 := by
        rw [one_mul]; exact (sub_pos.2 hlt).ne'
      refine (((((hasDerivAt_exp _).const_mul 1).const_sub 1).log hne).const_mul
        (-1 / 1)).congr_deriv ?_
      rw [he]
      have e : 1 - 1 * (mu * 1 / (1 + mu * 1)) = 1 / (1 + mu * 1) := by field_simp; ring
      rw [e]; field_simp

/-- The mean function never returns the mean. -/
theorem C208_negBinomial_mean_violated {k mu : ℝ} (hk : 0 < k) (h : 0 < mu) :
    negBinomialC.mean (negBinomialC.theta mu k) k ≠ some mu := by
  rw [((C208_negBinomial_partial.2 k hk mu h).2.1)]
  simp only [ne_eq, Option.some.injEq]
  linarith

/-- For dispersion other than one the derivative of the cumulant, where there is a cumulant at all,
is never the mean. -/
theorem C208_negBinomial_cumulant_violated {k mu : ℝ} (hk : 0 < k) (h1 : k ≠ 1) (h : 0 < mu) :
    ¬ ∃ f : ℝ → ℝ, (∀ᶠ T in 𝓝 (negBinomialC.theta mu k), negBinomialC.b T k = some (f T)) ∧
      HasDerivAt f mu (negBinomialC.theta mu k) := by
  rintro ⟨f, hf, hd⟩
  have he := nb_theta hk h
  have hlt : k * exp (negBinomialC.theta mu k) < 1 := by
    have := hf.self_of_nhds
    by_contra hcon
    rw [show negBinomialC.b (negBinomialC.theta mu k) k = none from if_neg hcon] at this
    cases this
  have hne : 1 - k * exp (negBinomialC.theta mu k) ≠ 0 := (sub_pos.2 hlt).ne'
  have h2 := ((((hasDerivAt_exp (negBinomialC.theta mu k)).const_mul k).const_sub 1).log
    hne).const_mul (-1 / k)
  have h3 : HasDerivAt f _ (negBinomialC.theta mu k) := h2.congr_of_eventuallyEq (by
    filter_upwards [hf] with T hT
    by_cases hc : k * exp T < 1
    · rw [show negBinomialC.b T k = some (-1 / k * log (1 - k * exp T)) from if_pos hc] at hT
      exact (Option.some.inj hT).symm
    · rw [show negBinomialC.b T k = none from if_neg hc] at hT
      cases hT)
  have h4 := hd.unique h3
  rw [he] at h4 hne
  have hp : 0 < 1 + mu * k := by positivity
  have e : 1 - k * (mu * k / (1 + mu * k)) = (1 + mu * k - k * (mu * k)) / (1 + mu * k) := by
    field_simp
  rw [e] at h4 hne
  have hn2 : 1 + mu * k - k * (mu * k) ≠ 0 := fun h0 => hne (by rw [h0, zero_div])
  have h6 : mu = mu * k / (1 + mu * k - k * (mu * k)) := by
    refine h4.trans ?_
    generalize 1 + mu * k - k * (mu * k) = D at hn2
    field_simp
  rw [eq_div_iff hn2] at h6
  have : (k - 1) * (1 + mu * k) = 0 := mul_left_cancel₀ h.ne' (by linarith)
  rcases mul_eq_zero.1 this with h5 | h5
  · exact h1 (by linarith)
  · linarith

/-- The cumulant at the canonical parameter exists, for instance, for mean one and dispersion 1/2. -/
example : ∃ x, negBinomialC.b (negBinomialC.theta 1 (1 / 2)) (1 / 2) = some x := by
  refine ⟨_, if_pos ?_⟩
  rw [nb_theta (by norm_num) one_pos]; norm_num

end Verif.Glm.Old
