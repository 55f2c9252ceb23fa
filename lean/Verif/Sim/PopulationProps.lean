import Verif.Sim.Population
import Verif.Design.Props
import Mathlib.Tactic.NormNum
import Mathlib.Tactic.FieldSimp
import Mathlib.Tactic.Positivity
import Mathlib.Tactic.LinearCombination
/-!
# C220: populations of the replication studies, and the scale in their sandwich
-/
namespace Verif.Sim
open MeasureTheory ProbabilityTheory

/-! ## Layout -/

/-- **C220.** Sampling units are nested in strata: the stratum is a function of the unit. -/
theorem C220_nested (nPsu nObs i : ℕ) : strataOf nPsu nObs i = psuOf nObs i / nPsu := by
  unfold strataOf psuOf
  rw [Nat.mul_comm, Nat.div_div_eq_div_mul]

/-- **C220.** Each unit has `n_obs_per_psu` rows. -/
theorem C220_sizes (nTot nObs c : ℕ) (hn : 0 < nObs) (hc : c < nTot) :
    ((Finset.range (nTot * nObs)).filter fun i => psuOf nObs i = c).card = nObs := by
  have : ((Finset.range (nTot * nObs)).filter fun i => psuOf nObs i = c) =
      Finset.Ico (c * nObs) ((c + 1) * nObs) := by
    ext i
    simp only [Finset.mem_filter, Finset.mem_range, Finset.mem_Ico, psuOf,
      Nat.div_eq_iff hn]
    have h1 : (c + 1) * nObs = c * nObs + nObs := by ring
    have h2 : (c + 1) * nObs ≤ nTot * nObs := Nat.mul_le_mul_right _ hc
    omega
  rw [this, Nat.card_Ico]
  have h1 : (c + 1) * nObs = c * nObs + nObs := by ring
  omega

/-! ## Means -/

/-- **C220.** The linear population has the mean that its coefficients say. -/
theorem C220_linear (v : NNReal) (eta : ℝ) : linearMean v eta = eta := by
  unfold linearMean
  have hi : Integrable (fun u : ℝ => u) (gaussianReal 0 v) :=
    (memLp_id_gaussianReal (μ := 0) (v := v) 1).integrable le_rfl
  rw [integral_add (integrable_const _) hi, integral_id_gaussianReal]
  simp

/-- **C220, partial.** So has the binomial population without cluster effects. -/
theorem C220_binomial_partial (eta : ℝ) : binomialMean 0 eta = sigmoid eta := by
  unfold binomialMean
  rw [gaussianReal_zero_var, integral_dirac, add_zero]

theorem sigmoid_two (eta u : ℝ) (he : 0 < eta) (hu : u ≠ 0) :
    sigmoid (eta + u) + sigmoid (eta - u) < 2 * sigmoid eta := by
  unfold sigmoid
  set a := Real.exp (-eta) with ha
  set b := Real.exp (-u) with hb
  have ha0 : 0 < a := Real.exp_pos _
  have hb0 : 0 < b := Real.exp_pos _
  have ha1 : a < 1 := by rw [ha, Real.exp_lt_one_iff]; linarith
  have hb1 : b ≠ 1 := by
    rw [hb, Ne, Real.exp_eq_one_iff]
    exact neg_ne_zero.2 hu
  have e1 : Real.exp (-(eta + u)) = a * b := by rw [neg_add, Real.exp_add]
  have e2 : Real.exp (-(eta - u)) = a / b := by
    rw [show -(eta - u) = -eta - -u by ring, Real.exp_sub]
  rw [e1, e2]
  have hsq : 0 < (b - 1) ^ 2 := by
    have := sub_ne_zero.2 hb1
    positivity
  have e3 : 2 * (1 / (1 + a)) - (1 / (1 + a * b) + 1 / (1 + a / b)) =
      a * (1 - a) * (b - 1) ^ 2 / ((1 + a) * (1 + a * b) * (b + a)) := by
    field_simp
    ring
  have h4 : 0 < 2 * (1 / (1 + a)) - (1 / (1 + a * b) + 1 / (1 + a / b)) := by
    rw [e3]
    have : 0 < 1 - a := by linarith
    positivity
  linarith

theorem sigmoid_bounds (x : ℝ) : 0 < sigmoid x ∧ sigmoid x < 1 := by
  unfold sigmoid
  have := Real.exp_pos (-x)
  refine ⟨by positivity, ?_⟩
  rw [div_lt_one (by linarith)]
  linarith

theorem sigmoid_cont : Continuous sigmoid := by
  unfold sigmoid
  refine continuous_const.div (by fun_prop) fun x => ?_
  have := Real.exp_pos (-x)
  linarith

/-- **C220, violated.** With cluster effects the mean of the binomial population is strictly smaller
than the coefficients say wherever they say more than one half: `theta_true` is not the coefficient
of the population. -/
theorem C220_binomial_violated (v : NNReal) (hv : v ≠ 0) (eta : ℝ) (he : 0 < eta) :
    binomialMean v eta < sigmoid eta := by
  unfold binomialMean
  have hint : ∀ c : ℝ → ℝ, Continuous c → Integrable (fun u => sigmoid (c u)) (gaussianReal 0 v) := by
    intro c hc
    refine Integrable.of_bound (C := 1) (sigmoid_cont.comp hc).aestronglyMeasurable ?_
    filter_upwards with u
    rw [Real.norm_eq_abs, abs_of_pos (sigmoid_bounds _).1]
    exact (sigmoid_bounds _).2.le
  have hp := hint (fun u => eta + u) (by fun_prop)
  have hm := hint (fun u => eta - u) (by fun_prop)
  have hsym : ∫ u, sigmoid (eta - u) ∂gaussianReal 0 v = ∫ u, sigmoid (eta + u) ∂gaussianReal 0 v := by
    have h := integral_map (μ := gaussianReal 0 v) (φ := fun x : ℝ => -x) (by fun_prop)
      (f := fun u => sigmoid (eta + u)) (sigmoid_cont.comp (by fun_prop)).aestronglyMeasurable
    rw [gaussianReal_map_neg, neg_zero] at h
    rw [h]
    rfl
  have hpos : 0 < ∫ u, (2 * sigmoid eta - (sigmoid (eta + u) + sigmoid (eta - u))) ∂gaussianReal 0 v := by
    have hnn : ∀ u, 0 ≤ 2 * sigmoid eta - (sigmoid (eta + u) + sigmoid (eta - u)) := by
      intro u
      by_cases hu : u = 0
      · subst hu; simp only [add_zero, sub_zero]; linarith
      · linarith [sigmoid_two eta u he hu]
    rw [integral_pos_iff_support_of_nonneg hnn ((integrable_const _).sub (hp.add hm))]
    have hsub : ({0}ᶜ : Set ℝ) ⊆
        Function.support fun u => 2 * sigmoid eta - (sigmoid (eta + u) + sigmoid (eta - u)) := by
      intro u hu
      have := sigmoid_two eta u he hu
      rw [Function.mem_support]
      linarith
    refine lt_of_lt_of_le ?_ (measure_mono hsub)
    have := nullSingletonClass_gaussianReal (μ := 0) hv
    rw [prob_compl_eq_one_sub (measurableSet_singleton 0), measure_singleton]
    simp
  have hpm : Integrable (fun u => sigmoid (eta + u) + sigmoid (eta - u)) (gaussianReal 0 v) := hp.add hm
  rw [integral_sub (integrable_const _) hpm, integral_add hp hm, hsym] at hpos
  simp at hpos
  linarith

example : binomialMean 1 1 < sigmoid 1 := C220_binomial_violated 1 one_ne_zero 1 one_pos

theorem sigmoid_mono : StrictMono sigmoid := by
  intro a b h
  unfold sigmoid
  have h1 := Real.exp_pos (-b)
  have h2 : Real.exp (-b) < Real.exp (-a) := Real.exp_lt_exp.2 (by linarith)
  exact one_div_lt_one_div_of_lt (by linarith) (by linarith)

/-- **C220, violated.** So a logistic intercept that reproduces the population mean lies below the
intercept reported as true. -/
theorem C220_intercept_violated (v : NNReal) (hv : v ≠ 0) (eta : ℝ) (he : 0 < eta) (b : ℝ)
    (hb : sigmoid b = binomialMean v eta) : b < eta :=
  sigmoid_mono.lt_iff_lt.1 (hb ▸ C220_binomial_violated v hv eta he)

/-! ## Scale -/

theorem meat_smul (keys : List Design.Key) (hs : keys.Pairwise (· ≤ ·)) (fpc : ℕ → ℝ)
    (U : ℕ → ℕ → ℝ) (c : ℝ) (a b : ℕ) :
    Design.meat keys fpc (fun r j => c * U r j) a b = c ^ 2 * Design.meat keys fpc U a b := by
  rw [Design.C26_meat_eq keys hs, Design.C26_meat_eq keys hs, Finset.mul_sum]
  refine Finset.sum_congr rfl fun h _ => ?_
  have ht : ∀ k j, Design.psuTotal keys (fun r j => c * U r j) k j = c * Design.psuTotal keys U k j := by
    intro k j
    unfold Design.psuTotal
    rw [Finset.mul_sum]
  have hm : ∀ s j, Design.strMean keys (fun r j => c * U r j) s j = c * Design.strMean keys U s j := by
    intro s j
    unfold Design.strMean
    simp only [ht, ← Finset.mul_sum]
    ring
  unfold Design.strataCov
  simp only [ht, hm]
  rw [mul_left_comm, Finset.mul_sum (a := c ^ 2)]
  congr 1
  refine Finset.sum_congr rfl fun k _ => ?_
  ring

variable {n p : ℕ}

theorem glmScore_eq (d : Glm.Dat n p) (beta : Fin p → ℝ) (i : Fin n) (j : Fin p) :
    glmScore d beta i j = -(1 / (Glm.scales gaussFam .M d beta 0).1) *
      (d.X i j * d.w i * (d.y i - ∑ j, d.X i j * beta j)) := by
  simp only [glmScore, Matrix.of_apply, Glm.gradIBeta, Glm.gw, Glm.variance]
  simp only [gaussFam, Glm.gaussian, Glm.identityLink, Glm.fitted]
  generalize (Glm.scales _ _ d beta 0).1 = phi
  by_cases hp : phi = 0
  · simp [hp]
  by_cases hw : d.w i = 0
  · simp [hw]
  field_simp

theorem glmBread_eq (d : Glm.Dat n p) (beta : Fin p → ℝ)
    (hphi : (Glm.scales gaussFam .M d beta 0).1 ≠ 0) :
    glmBread d beta = (Glm.scales gaussFam .M d beta 0).1 • Design.wlsBread d.X d.w := by
  have e : (Matrix.of fun j k => Glm.hessBeta gaussFam .M d beta 0 j k) =
      (1 / (Glm.scales gaussFam .M d beta 0).1) •
        (d.X.transpose * Matrix.of fun i j => d.X i j * d.w i) := by
    funext j k
    simp only [Matrix.of_apply, Glm.hessBeta, Glm.getGhw, Matrix.smul_apply, Matrix.mul_apply,
      Matrix.transpose_apply, smul_eq_mul, Finset.mul_sum]
    refine Finset.sum_congr rfl fun i _ => ?_
    simp only [gaussFam, Glm.gaussian, Glm.identityLink]
    ring
  unfold glmBread Design.wlsBread
  rw [e]
  have hu : IsUnit (1 / (Glm.scales gaussFam .M d beta 0).1) := (one_div_ne_zero hphi).isUnit
  by_cases hd : IsUnit (d.X.transpose * Matrix.of fun i j => d.X i j * d.w i).det
  · refine Matrix.inv_eq_right_inv ?_
    rw [Matrix.smul_mul, Matrix.mul_smul, smul_smul, Matrix.mul_nonsing_inv _ hd,
      one_div_mul_cancel hphi, one_smul]
  · rw [Matrix.nonsing_inv_apply_not_isUnit _ hd, smul_zero, Matrix.nonsing_inv_apply_not_isUnit]
    rw [Matrix.det_smul]
    intro h
    exact hd (isUnit_of_mul_isUnit_right h)

/-- Rows and columns of a finite array as an array with natural indices. -/
def toNat (U : Matrix (Fin n) (Fin p) ℝ) (i j : ℕ) : ℝ :=
  if h : i < n ∧ j < p then U ⟨i, h.1⟩ ⟨j, h.2⟩ else 0

/-- **C220.** The sandwich of the Gaussian `GLMAdapter` is the one of the least squares adapter: the
estimated scale, unweighted or not, cancels. -/
theorem C220_sandwich (keys : List Design.Key) (hs : keys.Pairwise (· ≤ ·)) (fpc : ℕ → ℝ)
    (d : Glm.Dat n p) (hphi : (Glm.scales gaussFam .M d (Design.wlsBeta d.X d.w d.y) 0).1 ≠ 0) :
    Design.sandwich (glmBread d (Design.wlsBeta d.X d.w d.y))
        (Matrix.of fun a b : Fin p => Design.meat keys fpc
          (toNat (glmScore d (Design.wlsBeta d.X d.w d.y))) a b) =
      Design.sandwich (Design.wlsBread d.X d.w)
        (Matrix.of fun a b : Fin p => Design.meat keys fpc
          (toNat (Design.wlsScore d.X d.w d.y)) a b) := by
  rw [glmBread_eq d _ hphi]
  have e : toNat (glmScore d (Design.wlsBeta d.X d.w d.y)) = fun r j =>
      -(1 / (Glm.scales gaussFam .M d (Design.wlsBeta d.X d.w d.y) 0).1) *
        toNat (Design.wlsScore d.X d.w d.y) r j := by
    funext r j
    unfold toNat
    split_ifs with h
    · rw [glmScore_eq]
      rfl
    · ring
  rw [e]
  simp only [meat_smul keys hs]
  generalize (Glm.scales gaussFam .M d (Design.wlsBeta d.X d.w d.y) 0).1 = phi at hphi
  have e2 : (Matrix.of fun a b : Fin p => (-(1 / phi)) ^ 2 *
      Design.meat keys fpc (toNat (Design.wlsScore d.X d.w d.y)) a b) =
      (1 / phi) ^ 2 • Matrix.of fun a b : Fin p =>
        Design.meat keys fpc (toNat (Design.wlsScore d.X d.w d.y)) a b := by
    funext a b
    simp [Matrix.smul_apply]
  rw [e2]
  unfold Design.sandwich
  simp only [Matrix.smul_mul, Matrix.mul_smul, smul_smul]
  rw [show phi * (1 / phi) ^ 2 * phi = 1 by field_simp, one_smul]

end Verif.Sim
