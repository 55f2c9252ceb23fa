import Verif.Reg.Nb2Lemmas
import Verif.Reg.TwoLemmas
import Verif.Glm.TauProps
/-!
# C133: negative binomial regression
-/
namespace Verif.Reg
open Matrix Real Set Verif.Glm

variable {n p : ℕ} {sp : Sp}

theorem exp_line (x dx : ℝ) : HasDerivAt (fun t : ℝ => exp (x + t * dx)) (exp x * dx) 0 := by
  have h1 : HasDerivAt (fun t : ℝ => x + t * dx) dx 0 := (((hasDerivAt_id' (0 : ℝ)).mul_const dx).const_add x).congr_deriv (by ring)
  exact comp_at (hasDerivAt_exp x) h1 (by simp)

theorem inv_exp_line (z dz : ℝ) : HasDerivAt (fun t : ℝ => 1 / exp (z + t * dz)) (-(1 / exp z) * dz) 0 := by
  have := exp_pos z
  refine ((hasDerivAt_const (0 : ℝ) (1 : ℝ)).fun_div (exp_line z dz) (exp_pos _).ne').congr_deriv ?_
  simp only [zero_mul, add_zero]
  field_simp
  ring

theorem v_line (x z dx dz : ℝ) : HasDerivAt (fun t : ℝ => exp (z + t * dz) * exp (x + t * dx)) (exp z * exp x * (dx + dz)) 0 :=
  ((exp_line z dz).fun_mul (exp_line x dx)).congr_deriv (by simp; ring)

theorem nbLl_D2 (h : IsSp sp) {y : ℝ} (hy : 0 ≤ y) (x z : ℝ) : D2 (nbLl sp y) (nbW x z * (y - exp x)) (nbGt sp y x z) x z := by
  intro dx dz
  have hk := exp_pos z
  have hm := exp_pos x
  have ha : 0 < 1 / exp z := by positivity
  have hv := v_line x z dx dz
  have hi := inv_exp_line z dz
  have hu : HasDerivAt (fun t : ℝ => y + 1 / exp (z + t * dz)) (-(1 / exp z) * dz) 0 := hi.const_add y
  have l1 := comp_at (hasDerivAt_log (x := exp z * exp x) (by positivity)) hv (by simp)
  have l2 := comp_at (hasDerivAt_log (x := 1 + exp z * exp x) (by positivity)) (hv.const_add 1) (by simp)
  have g1 := comp_at (h.digamma (y + 1 / exp z) (by positivity)) hu (by simp)
  have g2 := comp_at (h.digamma _ ha) hi (by simp)
  refine ((((l1.const_mul y).fun_sub (hu.fun_mul l2)).fun_add g1).fun_sub g2).congr_deriv ?_
  simp only [nbW, nbGt, zero_mul, add_zero]
  generalize sp.digamma (y + 1 / exp z) = A
  generalize sp.digamma (1 / exp z) = B
  generalize log (1 + exp z * exp x) = L
  generalize exp z = k at *
  generalize exp x = m at *
  field_simp
  ring

theorem nbW_D2 (y x z : ℝ) : D2 (fun x z => nbW x z * (y - exp x)) (-nbWbb y x z) (-nbWbt y x z) x z := by
  intro dx dz
  have hk := exp_pos z
  have hm := exp_pos x
  have hv := v_line x z dx dz
  have he : ∀ x z : ℝ, nbW x z * (y - exp x) = (y - exp x) / (1 + exp z * exp x) := fun x z => by
    have hk := exp_pos z
    have hm := exp_pos x
    simp only [nbW]
    generalize exp z = k at *
    generalize exp x = m at *
    field_simp
  simp only [he]
  refine (((exp_line x dx).const_sub y).fun_div (hv.const_add 1) (by positivity)).congr_deriv ?_
  simp only [nbWbb, nbWbt, zero_mul, add_zero]
  generalize exp z = k at *
  generalize exp x = m at *
  field_simp
  ring

theorem nbGt_D2 (h : IsSp sp) {y : ℝ} (hy : 0 ≤ y) (x z : ℝ) : D2 (nbGt sp y) (-nbWbt y x z) (nbWtt sp y x z) x z := by
  intro dx dz
  have hk := exp_pos z
  have hm := exp_pos x
  have ha : 0 < 1 / exp z := by positivity
  have hv := v_line x z dx dz
  have hi := inv_exp_line z dz
  have hu : HasDerivAt (fun t : ℝ => y + 1 / exp (z + t * dz)) (-(1 / exp z) * dz) 0 := hi.const_add y
  have l2 := comp_at (hasDerivAt_log (x := 1 + exp z * exp x) (by positivity)) (hv.const_add 1) (by simp)
  have g1 := comp_at (h.trigamma (y + 1 / exp z) (by positivity)) hu (by simp)
  have g2 := comp_at (h.trigamma _ ha) hi (by simp)
  have q := ((exp_line z dz).fun_mul ((exp_line x dx).const_sub y)).fun_div (hv.const_add 1) (by positivity)
  refine (((q.fun_add l2).fun_sub g1).fun_add g2 |>.fun_div (exp_line z dz) (exp_pos _).ne').congr_deriv ?_
  simp only [nbWbt, nbWtt, zero_mul, add_zero]
  generalize sp.digamma (y + 1 / exp z) = A
  generalize sp.digamma (1 / exp z) = B
  generalize sp.trigamma (y + 1 / exp z) = A'
  generalize sp.trigamma (1 / exp z) = B'
  generalize log (1 + exp z * exp x) = L
  generalize exp z = k at *
  generalize exp x = m at *
  field_simp
  ring

/-- The column of ones multiplying `params[-1]`. -/
def oneCol (n : ℕ) : Matrix (Fin n) (Fin 1) ℝ := fun _ _ => 1

theorem oneCol_mulVec (params : Fin (p + 1) → ℝ) (i : Fin n) : (oneCol n *ᵥ sndPart params) i = lastP params := by
  simp [oneCol, mulVec, dotProduct, lastP]

/-- **C133** `gradient` is the derivative of `loglike` along every line. -/
theorem C133_gradient (h : IsSp sp) (X : Matrix (Fin n) (Fin p) ℝ) (y : Fin n → ℝ) (hy : ∀ i, 0 ≤ y i) (params d : Fin (p + 1) → ℝ) :
    HasDerivAt (fun t : ℝ => nbLoglike sp X y (params + t • d)) (nbGrad sp X y params ⬝ᵥ d) 0 := by
  have := sum_grad (X := X) (Z := oneCol n) (theta := params) d fun i => nbLl_D2 h (hy i) ((X *ᵥ fstPart params) i) ((oneCol n *ᵥ sndPart params) i)
  simp only [oneCol_mulVec] at this
  refine (this.sub_const _).fun_neg.congr_deriv ?_
  rw [← neg_dotProduct]
  congr 1
  funext k
  refine Fin.addCases (fun j => ?_) (fun j => ?_) k
  · simp only [nbGrad, concat, Pi.neg_apply, Fin.append_left, wdv]
    exact congrArg _ (Finset.sum_congr rfl fun i _ => by ring)
  · simp only [nbGrad, concat, Pi.neg_apply, Fin.append_right, oneCol, one_mul]

/-- **C133** `hessian` is the derivative of `gradient`. -/
theorem C133_hessian (h : IsSp sp) (X : Matrix (Fin n) (Fin p) ℝ) (y : Fin n → ℝ) (hy : ∀ i, 0 ≤ y i) (params d : Fin (p + 1) → ℝ) (k : Fin (p + 1)) :
    HasDerivAt (fun t : ℝ => nbGrad sp X y (params + t • d) k) ((nbHess sp X y params *ᵥ d) k) 0 := by
  have := sum_hess (X := X) (Z := oneCol n) (theta := params) d (fun i => nbW_D2 (y i) ((X *ᵥ fstPart params) i) ((oneCol n *ᵥ sndPart params) i))
    (fun i => nbGt_D2 h (hy i) ((X *ᵥ fstPart params) i) ((oneCol n *ᵥ sndPart params) i)) k
  simp only [oneCol_mulVec] at this
  refine (this.fun_neg.congr_of_eventuallyEq (Filter.Eventually.of_forall fun t => ?_)).congr_deriv ?_
  · simp only [nbGrad]
    congr 1
    refine Fin.addCases (fun j => ?_) (fun j => ?_) k
    · simp only [concat, Fin.append_left, wdv]
      exact Finset.sum_congr rfl fun i _ => by ring
    · simp only [concat, Fin.append_right, oneCol, one_mul]
  · have e : nbHess sp X y params = -(block (wdm X (fun i => -nbWbb (y i) ((X *ᵥ fstPart params) i) (lastP params)) X)
        (wdm X (fun i => -nbWbt (y i) ((X *ᵥ fstPart params) i) (lastP params)) (oneCol n))
        (wdm X (fun i => -nbWbt (y i) ((X *ᵥ fstPart params) i) (lastP params)) (oneCol n))ᵀ
        (wdm (oneCol n) (fun i => nbWtt sp (y i) ((X *ᵥ fstPart params) i) (lastP params)) (oneCol n))) := by
      ext a b
      rw [Matrix.neg_apply]
      refine congrArg Neg.neg ?_
      refine Fin.addCases (fun a => ?_) (fun a => ?_) a <;> refine Fin.addCases (fun b => ?_) (fun b => ?_) b
      · refine (block_11 _ _ _ _ a b).trans ?_
        simp only [block_11, wdm, oneCol, transpose_apply, ← Finset.sum_neg_distrib, mul_neg, neg_mul, one_mul, mul_one]
      · refine (block_12 _ _ _ _ a b).trans ?_
        simp only [block_12, wdm, oneCol, transpose_apply, ← Finset.sum_neg_distrib, mul_neg, neg_mul, one_mul, mul_one]
        rfl
      · refine (block_21 _ _ _ _ a b).trans ?_
        simp only [block_21, wdm, oneCol, transpose_apply, ← Finset.sum_neg_distrib, mul_neg, neg_mul, one_mul, mul_one]
      · refine (block_22 _ _ _ _ a b).trans ?_
        simp only [block_22, wdm, oneCol, transpose_apply, ← Finset.sum_neg_distrib, mul_neg, neg_mul, one_mul, mul_one]
    rw [e, neg_mulVec, Pi.neg_apply]

/-- The probability `exp` of a term of the log likelihood. -/
noncomputable def nbP (sp : Sp) (x z : ℝ) (k : ℕ) : ℝ := exp (nbLl sp k x z - sp.gammaln (k + 1))

theorem nbP_eq (h : IsSp sp) (x z : ℝ) (k : ℕ) :
    nbP sp x z k = (1 + exp z * exp x) ^ (-(1 / exp z)) *
      (Gamma (k + 1 / exp z) / (Gamma (1 / exp z) * k.factorial) * (exp z * exp x / (1 + exp z * exp x)) ^ k) := by
  have hk := exp_pos z
  have hm := exp_pos x
  have ha : 0 < 1 / exp z := by positivity
  have hu : 0 < (k : ℝ) + 1 / exp z := by positivity
  have hv : 0 < exp z * exp x := by positivity
  have hw : 0 < 1 + exp z * exp x := by positivity
  simp only [nbP, nbLl]
  rw [h.gammaln _ hu, h.gammaln _ ha, h.gammaln _ (by positivity : (0 : ℝ) < k + 1), Gamma_nat_eq_factorial, exp_sub, exp_sub, exp_add, exp_sub,
    exp_log (Gamma_pos_of_pos hu), exp_log (Gamma_pos_of_pos ha), exp_log (by positivity), div_pow, rpow_def_of_pos hw,
    add_mul, exp_add, ← rpow_natCast, ← rpow_natCast, rpow_def_of_pos hv, rpow_def_of_pos hw, mul_neg, exp_neg,
    mul_comm (log (exp z * exp x)), mul_comm (log (1 + exp z * exp x)) k, mul_comm (log (1 + exp z * exp x)) (1 / exp z)]
  have := (Gamma_pos_of_pos ha).ne'
  field_simp

theorem nb_r (x z : ℝ) : 0 ≤ exp z * exp x / (1 + exp z * exp x) ∧ exp z * exp x / (1 + exp z * exp x) < 1 ∧
    1 - exp z * exp x / (1 + exp z * exp x) = (1 + exp z * exp x)⁻¹ := by
  have hk := exp_pos z
  have hm := exp_pos x
  have hw : 0 < 1 + exp z * exp x := by positivity
  refine ⟨by positivity, by rw [div_lt_one hw]; linarith, by field_simp; ring⟩

/-- **C133** The likelihood is a probability: the terms sum to one over the counts, -/
theorem C133_normalised (h : IsSp sp) (x z : ℝ) : HasSum (nbP sp x z) 1 := by
  obtain ⟨h0, h1, h2⟩ := nb_r x z
  have hk := exp_pos z
  have hm := exp_pos x
  have hw : 0 < 1 + exp z * exp x := by positivity
  have := (nb_series (a := 1 / exp z) (by positivity) h0 h1).mul_left ((1 + exp z * exp x) ^ (-(1 / exp z)))
  rw [h2, inv_rpow hw.le, ← rpow_neg hw.le, neg_neg, ← rpow_add hw, neg_add_cancel, rpow_zero] at this
  exact this.congr_fun fun k => nbP_eq h x z k

/-- its mean is the prediction `exp(X b)`, -/
theorem C133_mean (h : IsSp sp) (x z : ℝ) : HasSum (fun k : ℕ => (k : ℝ) * nbP sp x z k) (exp x) := by
  obtain ⟨h0, h1, h2⟩ := nb_r x z
  have hk := exp_pos z
  have hm := exp_pos x
  have hw : 0 < 1 + exp z * exp x := by positivity
  have := (nb_series1 (a := 1 / exp z) (by positivity) h0 h1).mul_left ((1 + exp z * exp x) ^ (-(1 / exp z)))
  have e : (1 + exp z * exp x) ^ (-(1 / exp z)) * (1 / exp z * (exp z * exp x / (1 + exp z * exp x)) * (1 - exp z * exp x / (1 + exp z * exp x)) ^ (-(1 / exp z + 1))) = exp x := by
    rw [h2, inv_rpow hw.le, ← rpow_neg hw.le, neg_neg, rpow_add_one hw.ne', rpow_neg hw.le]
    have := (rpow_pos_of_pos hw (1 / exp z)).ne'
    field_simp
  rw [e] at this
  exact this.congr_fun fun k => by rw [nbP_eq h]; ring

/-- and its variance is `mu + kappa mu^2`, the one Pearson's statistic divides by. -/
theorem C133_variance (h : IsSp sp) (x z : ℝ) : HasSum (fun k : ℕ => ((k : ℝ) - exp x) ^ 2 * nbP sp x z k) (exp x + exp x ^ 2 * exp z) := by
  obtain ⟨h0, h1, h2⟩ := nb_r x z
  have hk := exp_pos z
  have hm := exp_pos x
  have hw : 0 < 1 + exp z * exp x := by positivity
  have := (nb_series2 (a := 1 / exp z) (by positivity) h0 h1).mul_left ((1 + exp z * exp x) ^ (-(1 / exp z)))
  have e : (1 + exp z * exp x) ^ (-(1 / exp z)) * (1 / exp z * (exp z * exp x / (1 + exp z * exp x)) *
      ((1 / exp z + 1) * (exp z * exp x / (1 + exp z * exp x)) * (1 - exp z * exp x / (1 + exp z * exp x)) ^ (-(1 / exp z + 1 + 1)))) = exp x ^ 2 * (1 + exp z) := by
    rw [h2, inv_rpow hw.le, ← rpow_neg hw.le, neg_neg, rpow_add_one hw.ne', rpow_add_one hw.ne', rpow_neg hw.le]
    have := (rpow_pos_of_pos hw (1 / exp z)).ne'
    field_simp
  rw [e] at this
  have t := (this.add ((C133_mean h x z).mul_left (1 - 2 * exp x))).add ((C133_normalised h x z).mul_left (exp x ^ 2))
  have e2 : exp x ^ 2 * (1 + exp z) + (1 - 2 * exp x) * exp x + exp x ^ 2 * 1 = exp x + exp x ^ 2 * exp z := by ring
  rw [e2] at t
  refine t.congr_fun fun k => ?_
  rw [nbP_eq h]; ring

/-- **C133** One term of Pearson's statistic has expectation one. -/
theorem C133_pearson (h : IsSp sp) (x z : ℝ) : HasSum (fun k : ℕ => nbChi2 k (exp x) (exp z) * nbP sp x z k) 1 := by
  have hp : exp x + exp x ^ 2 * exp z ≠ 0 := by have := exp_pos x; have := exp_pos z; positivity
  have := (C133_variance h x z).mul_left (1 / (exp x + exp x ^ 2 * exp z))
  rw [one_div_mul_cancel hp] at this
  refine this.congr_fun fun k => ?_
  simp only [nbChi2]; ring

/-- The log likelihood of one count as a function of its mean (terms free of the mean left out). -/
noncomputable def nbMeanLl (kappa y mu : ℝ) : ℝ := y * log (kappa * mu) - (y + 1 / kappa) * log (1 + kappa * mu)

/-- **C133** `deviance` is twice the gap in log likelihood to the saturated model `mu = y`. -/
theorem C133_deviance (sp : Sp) (X : Matrix (Fin n) (Fin p) ℝ) (y : Fin n → ℝ) (hy : ∀ i, 0 ≤ y i) (params : Fin (p + 1) → ℝ) :
    nbDeviance X y params = 2 * ∑ i, (nbMeanLl (exp (lastP params)) (y i) (y i) - nbMeanLl (exp (lastP params)) (y i) (exp ((X *ᵥ fstPart params) i))) ∧
    nbLoglike sp X y params = -∑ i, (nbMeanLl (exp (lastP params)) (y i) (exp ((X *ᵥ fstPart params) i)) +
      (sp.gammaln (y i + 1 / exp (lastP params)) - sp.gammaln (1 / exp (lastP params)) - sp.gammaln (y i + 1))) := by
  constructor
  · simp only [nbDeviance]
    rw [← Finset.sum_filter_add_sum_filter_not Finset.univ (fun i => 0 < y i) (fun i => nbMeanLl _ (y i) (y i) - _)]
    congr 1
    congr 1
    · refine Finset.sum_congr rfl fun i hi => ?_
      have h0 : 0 < y i := (Finset.mem_filter.1 hi).2
      have hk := exp_pos (lastP params)
      have hm := exp_pos ((X *ᵥ fstPart params) i)
      simp only [nbMeanLl]
      generalize exp (lastP params) = k at *
      generalize exp ((X *ᵥ fstPart params) i) = m at *
      have e1 : (y i + 1 / k) / (m + 1 / k) = (1 + k * y i) / (1 + k * m) := by
        field_simp
        ring
      rw [e1, log_div h0.ne' hm.ne', log_div (by positivity) (by positivity), log_mul hk.ne' h0.ne', log_mul hk.ne' hm.ne']
      ring
    · refine Finset.sum_congr rfl fun i hi => ?_
      have h0 : y i = 0 := le_antisymm (not_lt.1 (Finset.mem_filter.1 hi).2) (hy i)
      simp only [nbMeanLl, h0]
      simp
      ring
  · simp only [nbLoglike, nbLl, nbMeanLl, ← Finset.sum_sub_distrib]
    refine congrArg _ (Finset.sum_congr rfl fun i _ => by ring)

/-- **C133** The deviance is never negative. -/
theorem C133_deviance_nonneg (X : Matrix (Fin n) (Fin p) ℝ) (y : Fin n → ℝ) (params : Fin (p + 1) → ℝ) : 0 ≤ nbDeviance X y params := by
  simp only [nbDeviance]
  refine mul_nonneg (by norm_num) (add_nonneg (Finset.sum_nonneg fun i hi => ?_) (Finset.sum_nonneg fun i hi => ?_))
  · have h0 : 0 < y i := (Finset.mem_filter.1 hi).2
    have hm := exp_pos ((X *ᵥ fstPart params) i)
    have hv : 0 < 1 / exp (lastP params) := by have := exp_pos (lastP params); positivity
    generalize exp ((X *ᵥ fstPart params) i) = m at *
    generalize 1 / exp (lastP params) = v at *
    generalize y i = y at *
    have hr : 0 < (y + v) / (m + v) := by positivity
    have h1 := log_le_sub_one_of_pos (x := m / y * ((y + v) / (m + v))) (by positivity)
    have h2 := log_le_sub_one_of_pos (x := (y + v) / (m + v)) hr
    rw [log_mul (by positivity) hr.ne', log_div hm.ne' h0.ne'] at h1
    rw [log_div h0.ne' hm.ne']
    have h3 := mul_le_mul_of_nonneg_left h1 h0.le
    have h4 := mul_le_mul_of_nonneg_left h2 hv.le
    have h5 : y * (m / y * ((y + v) / (m + v)) - 1) + v * ((y + v) / (m + v) - 1) = 0 := by field_simp; ring
    nlinarith
  · have := exp_pos (lastP params)
    have := exp_pos ((X *ᵥ fstPart params) i)
    exact div_nonneg (log_nonneg (by nlinarith [mul_pos (exp_pos (lastP params)) (exp_pos ((X *ᵥ fstPart params) i))])) (by positivity)

/-- **C133** The indices of fit lie in the unit interval, when the model is at least as likely as the null model and both are
probabilities. -/
theorem C133_indices {l1 l0 k q N : ℝ} (h01 : l0 ≤ l1) (h1 : l1 ≤ 0) (h0 : l0 < 0) (hN : 0 < N) :
    (nbStats l1 l0 k q N).rcs ∈ Icc (0 : ℝ) 1 ∧ (nbStats l1 l0 k q N).rna ∈ Icc (0 : ℝ) 1 ∧ (nbStats l1 l0 k q N).rmf ∈ Icc (0 : ℝ) 1 ∧ (nbStats l1 l0 k q N).rad ∈ Ico (0 : ℝ) 1 := by
  have e1 : 2 / N * -(l1 - l0) ≤ 0 := mul_nonpos_of_nonneg_of_nonpos (by positivity) (by linarith)
  have e2 : 2 / N * l0 < 0 := mul_neg_of_pos_of_neg (by positivity) h0
  have e3 : 2 / N * l0 ≤ 2 / N * -(l1 - l0) := mul_le_mul_of_nonneg_left (by linarith) (by positivity)
  have f1 : exp (2 / N * -(l1 - l0)) ≤ 1 := exp_le_one_iff.2 e1
  have f2 : exp (2 / N * l0) < 1 := exp_lt_one_iff.2 e2
  have f3 := exp_le_exp.2 e3
  have f4 := exp_pos (2 / N * -(l1 - l0))
  have hr : 0 < 1 - exp (2 / N * l0) := by linarith
  simp only [nbStats]
  refine ⟨⟨by linarith, by linarith⟩, ⟨div_nonneg (by linarith) hr.le, (div_le_one hr).2 (by linarith)⟩, ⟨?_, ?_⟩, ⟨?_, ?_⟩⟩
  · rw [sub_nonneg, div_le_one_of_neg h0]; exact h01
  · have := div_nonneg_of_nonpos h1 h0.le
    linarith
  · exact div_nonneg (by linarith) (by linarith)
  · rw [div_lt_one (by linarith)]; linarith

/-- **C133** fails for the state after `bootstrap`: `X` and `Y` are put back but `y`, which the likelihood reads, is left at the last
resample. -/
theorem C133_bootstrap_violated {R : Type} (s : NbState R n p) (ixs : List (Fin n → Fin n)) (ix : Fin n → Fin n) :
    (nbBootstrap s (ixs ++ [ix])).X = s.X ∧ (nbBootstrap s (ixs ++ [ix])).Y = s.Y ∧ (nbBootstrap s (ixs ++ [ix])).y = fun i => s.Y (ix i) := by
  refine ⟨rfl, rfl, ?_⟩
  simp only [nbBootstrap, List.foldl_append, List.foldl_cons, List.foldl_nil, nbResample]

/-- So the objective afterwards is another one: two observations 0, 1 of which the first was drawn twice. -/
example : (nbBootstrap (R := ℕ) (n := 2) (p := 1) ⟨fun _ _ => 1, ![0, 1], ![0, 1]⟩ [![0, 0]]).y = ![0, 0] := by
  funext i; fin_cases i <;> rfl

/-- **C133** The information criteria and the adjusted McFadden index. -/
theorem C133_criteria (l1 l0 k q N : ℝ) : (nbStats l1 l0 k q N).aic = 2 * (k - l1) ∧ (nbStats l1 l0 k q N).bic = k * log N - 2 * l1 ∧
    (nbStats l1 l0 k q N).llr = 2 * l1 - 2 * l0 ∧ (nbStats l1 l0 k q N).rma = (nbStats l1 l0 k q N).rmf + q / l0 := by
  refine ⟨?_, ?_, ?_, ?_⟩ <;> simp only [nbStats] <;> ring

end Verif.Reg
