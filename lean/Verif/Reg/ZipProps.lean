import Verif.Reg.Zip
import Verif.Reg.Nb2Props
import Mathlib.Analysis.Normed.Algebra.Exponential
import Mathlib.Analysis.SpecialFunctions.Exponential
/-!
# C134: zero inflated Poisson regression
-/
namespace Verif.Reg
open Matrix Real Set Verif.Glm

variable {n p q : ℕ} {sp : Sp}

/-- One term of the log likelihood. -/
noncomputable def zipLl (sp : Sp) (y x z : ℝ) : ℝ := (if y = 0 then zipLlz x z else zipLln sp y x) - zipLlm z

theorem zipLoglike_eq (X : Matrix (Fin n) (Fin p) ℝ) (Z : Matrix (Fin n) (Fin q) ℝ) (y : Fin n → ℝ) (params : Fin (p + q) → ℝ) :
    zipLoglike sp X Z y params = -∑ i, zipLl sp (y i) ((X *ᵥ fstPart params) i) ((Z *ᵥ sndPart params) i) := by
  simp only [zipLoglike, zipLl, Finset.sum_sub_distrib, Finset.sum_ite]

/-- The two partial derivatives of a term. -/
noncomputable def zipDb (y x z : ℝ) : ℝ := if y = 0 then -zipWb (exp x) (exp z) else y - exp x
noncomputable def zipDa (y x z : ℝ) : ℝ := (if y = 0 then zipWa (exp x) (exp z) else 0) - exp z / (exp z + 1)

theorem exp_exp_line (x dx : ℝ) : HasDerivAt (fun t : ℝ => exp (exp (x + t * dx))) (exp (exp x) * (exp x * dx)) 0 :=
  comp_at (hasDerivAt_exp _) (exp_line x dx) (by simp)

theorem zipLlm_D2 (x z : ℝ) : D2 (fun _ z => zipLlm z) 0 (exp z / (exp z + 1)) x z := by
  intro dx dz
  have := exp_pos z
  refine (comp_at (hasDerivAt_log (x := 1 + exp z) (by positivity)) ((exp_line z dz).const_add 1) (by simp)).congr_deriv ?_
  field_simp
  ring

theorem D2.sub {l m : ℝ → ℝ → ℝ} {a b a' b' x z : ℝ} (h : D2 l a b x z) (h' : D2 m a' b' x z) : D2 (fun x z => l x z - m x z) (a - a') (b - b') x z :=
  fun dx dz => ((h dx dz).fun_sub (h' dx dz)).congr_deriv (by ring)

theorem D2.congr {l : ℝ → ℝ → ℝ} {a b a' b' x z : ℝ} (h : D2 l a b x z) (ha : a = a') (hb : b = b') : D2 l a' b' x z := ha ▸ hb ▸ h

theorem zipLl_D2 (y x z : ℝ) : D2 (zipLl sp y) (zipDb y x z) (zipDa y x z) x z := by
  have hz := exp_pos z
  have hm := exp_pos x
  have he := exp_pos (exp x)
  by_cases h : y = 0
  · have h1 : D2 zipLlz (-zipWb (exp x) (exp z)) (zipWa (exp x) (exp z)) x z := by
      intro dx dz
      have g := comp_at (hasDerivAt_exp (-exp x)) (exp_line x dx).fun_neg (by simp)
      refine (comp_at (hasDerivAt_log (x := exp z + exp (-exp x)) (by positivity)) ((exp_line z dz).fun_add g) (by simp)).congr_deriv ?_
      simp only [zipWb, zipWa]
      rw [exp_neg]
      generalize exp (exp x) = E at *
      generalize exp x = m at *
      generalize exp z = u at *
      field_simp
      ring
    have h2 := h1.sub (zipLlm_D2 x z)
    have ef : zipLl sp y = fun x z => zipLlz x z - zipLlm z := by funext x z; simp only [zipLl, if_pos h]
    simp only [ef, zipDb, zipDa, if_pos h]
    exact D2.congr h2 (by ring) (by ring)
  · have h1 : D2 (fun x _ => zipLln sp y x) (y - exp x) 0 x z := by
      intro dx dz
      have g := ((comp_at (hasDerivAt_log hm.ne') (exp_line x dx) (by simp)).const_mul y).fun_sub (exp_line x dx) |>.sub_const (zipLlc sp y)
      refine g.congr_deriv ?_
      field_simp
      ring
    have h2 := h1.sub (zipLlm_D2 x z)
    have ef : zipLl sp y = fun x z => zipLln sp y x - zipLlm z := by funext x z; simp only [zipLl, if_neg h]
    simp only [ef, zipDb, zipDa, if_neg h]
    exact D2.congr h2 (by ring) (by ring)

/-- The second partial derivatives of a term. -/
noncomputable def zipDbb (y x z : ℝ) : ℝ := if y = 0 then zipWbb (exp x) (exp z) else -exp x
noncomputable def zipDba (y x z : ℝ) : ℝ := if y = 0 then zipWba (exp x) (exp z) else 0
noncomputable def zipDaa (y x z : ℝ) : ℝ := (if y = 0 then zipWaa (exp x) (exp z) else 0) - exp z / (exp z + 1) ^ 2

theorem zipDb_D2 (y x z : ℝ) : D2 (zipDb y) (zipDbb y x z) (zipDba y x z) x z := by
  have hz := exp_pos z
  have hm := exp_pos x
  have he := exp_pos (exp x)
  by_cases h : y = 0
  · have ef : zipDb y = fun x z => -(exp x / (exp (exp x) * exp z + 1)) := by funext x z; simp only [zipDb, zipWb, if_pos h]
    simp only [ef, zipDbb, zipDba, if_pos h]
    intro dx dz
    refine ((exp_line x dx).fun_div (((exp_exp_line x dx).fun_mul (exp_line z dz)).add_const 1) (by positivity)).fun_neg.congr_deriv ?_
    simp only [zipWbb, zipWba, zero_mul, add_zero]
    generalize exp (exp x) = E at *
    generalize exp x = m at *
    generalize exp z = u at *
    field_simp
    ring
  · have ef : zipDb y = fun x _ => y - exp x := by funext x z; simp only [zipDb, if_neg h]
    simp only [ef, zipDbb, zipDba, if_neg h]
    intro dx dz
    exact ((exp_line x dx).const_sub y).congr_deriv (by ring)

theorem zipDa_D2 (y x z : ℝ) : D2 (zipDa y) (zipDba y x z) (zipDaa y x z) x z := by
  have hz := exp_pos z
  have hm := exp_pos x
  have he := exp_pos (exp x)
  have hl : D2 (fun _ z => exp z / (exp z + 1)) 0 (exp z / (exp z + 1) ^ 2) x z := by
    intro dx dz
    refine ((exp_line z dz).fun_div ((exp_line z dz).add_const 1) (by positivity)).congr_deriv ?_
    simp only [zero_mul, add_zero]
    generalize exp z = u at *
    field_simp
    ring
  by_cases h : y = 0
  · have h1 : D2 (fun x z => zipWa (exp x) (exp z)) (zipWba (exp x) (exp z)) (zipWaa (exp x) (exp z)) x z := by
      intro dx dz
      have g := (exp_line z dz).fun_mul (exp_exp_line x dx)
      refine (g.fun_div (g.add_const 1) (by positivity)).congr_deriv ?_
      simp only [zipWaa, zipWba, zero_mul, add_zero]
      generalize exp (exp x) = E at *
      generalize exp x = m at *
      generalize exp z = u at *
      field_simp
      ring
    have ef : zipDa y = fun x z => zipWa (exp x) (exp z) - exp z / (exp z + 1) := by funext x z; simp only [zipDa, if_pos h]
    simp only [ef, zipDaa, zipDba, if_pos h]
    exact D2.congr (h1.sub hl) (by ring) (by ring)
  · have h1 : D2 (fun _ _ => (0 : ℝ)) 0 0 x z := fun dx dz => (hasDerivAt_const 0 (0 : ℝ)).congr_deriv (by ring)
    have ef : zipDa y = fun _ z => 0 - exp z / (exp z + 1) := by funext x z; simp only [zipDa, if_neg h]
    simp only [ef, zipDaa, zipDba, if_neg h]
    exact D2.congr (h1.sub hl) (by ring) (by ring)

/-- The gradient as one sum over the observations. -/
theorem zipGrad_eq (X : Matrix (Fin n) (Fin p) ℝ) (Z : Matrix (Fin n) (Fin q) ℝ) (y : Fin n → ℝ) (params : Fin (p + q) → ℝ) :
    zipGrad X Z y params = -concat (fun j => ∑ i, X i j * zipDb (y i) ((X *ᵥ fstPart params) i) ((Z *ᵥ sndPart params) i))
      (fun j => ∑ i, Z i j * zipDa (y i) ((X *ᵥ fstPart params) i) ((Z *ᵥ sndPart params) i)) := by
  funext k
  rw [Pi.neg_apply]
  refine congrArg Neg.neg ?_
  refine Fin.addCases (fun j => ?_) (fun j => ?_) k
  · simp only [concat, Fin.append_left, zipDb, mul_ite, Finset.sum_ite, mul_neg, Finset.sum_neg_distrib]
  · simp only [concat, Fin.append_right, zipDa, mul_sub, mul_ite, Finset.sum_sub_distrib, Finset.sum_ite, mul_zero, Finset.sum_const_zero, add_zero]

/-- **C134** `gradient` is the derivative of `loglike` along every line. -/
theorem C134_gradient (sp : Sp) (X : Matrix (Fin n) (Fin p) ℝ) (Z : Matrix (Fin n) (Fin q) ℝ) (y : Fin n → ℝ) (params d : Fin (p + q) → ℝ) :
    HasDerivAt (fun t : ℝ => zipLoglike sp X Z y (params + t • d)) (zipGrad X Z y params ⬝ᵥ d) 0 := by
  simp only [zipLoglike_eq]
  rw [zipGrad_eq, neg_dotProduct]
  exact (sum_grad d fun i => zipLl_D2 (y i) _ _).fun_neg

/-- **C134** `hessian` is the derivative of `gradient`. -/
theorem C134_hessian (X : Matrix (Fin n) (Fin p) ℝ) (Z : Matrix (Fin n) (Fin q) ℝ) (y : Fin n → ℝ) (params d : Fin (p + q) → ℝ) (k : Fin (p + q)) :
    HasDerivAt (fun t : ℝ => zipGrad X Z y (params + t • d) k) ((zipHess X Z y params *ᵥ d) k) 0 := by
  simp only [zipGrad_eq, Pi.neg_apply]
  refine (sum_hess d (fun i => zipDb_D2 (y i) _ _) (fun i => zipDa_D2 (y i) _ _) k).fun_neg.congr_deriv ?_
  have e : zipHess X Z y params = -(block (wdm X (fun i => zipDbb (y i) ((X *ᵥ fstPart params) i) ((Z *ᵥ sndPart params) i)) X)
      (wdm X (fun i => zipDba (y i) ((X *ᵥ fstPart params) i) ((Z *ᵥ sndPart params) i)) Z)
      (wdm X (fun i => zipDba (y i) ((X *ᵥ fstPart params) i) ((Z *ᵥ sndPart params) i)) Z)ᵀ
      (wdm Z (fun i => zipDaa (y i) ((X *ᵥ fstPart params) i) ((Z *ᵥ sndPart params) i)) Z)) := by
    ext a b
    rw [Matrix.neg_apply]
    refine congrArg Neg.neg ?_
    refine Fin.addCases (fun a => ?_) (fun a => ?_) a <;> refine Fin.addCases (fun b => ?_) (fun b => ?_) b
    · refine (block_11 _ _ _ _ a b).trans ?_
      simp only [block_11, wdm, zipDbb, mul_ite, ite_mul, Finset.sum_ite, mul_neg, neg_mul, Finset.sum_neg_distrib, sub_eq_add_neg]
    · refine (block_12 _ _ _ _ a b).trans ?_
      simp only [block_12, wdm, zipDba, mul_ite, ite_mul, Finset.sum_ite, mul_zero, zero_mul, Finset.sum_const_zero, add_zero]
    · refine (block_21 _ _ _ _ a b).trans ?_
      simp only [block_21, wdm, transpose_apply, zipDba, mul_ite, ite_mul, Finset.sum_ite, mul_zero, zero_mul, Finset.sum_const_zero, add_zero]
      rfl
    · refine (block_22 _ _ _ _ a b).trans ?_
      simp only [block_22, wdm, zipDaa, mul_sub, sub_mul, Finset.sum_sub_distrib, mul_ite, ite_mul, Finset.sum_ite, mul_zero, zero_mul, Finset.sum_const_zero, add_zero]
  rw [e, neg_mulVec, Pi.neg_apply]

/-- The zero inflated Poisson probabilities: zero with probability `pi = u / (1 + u)`, else Poisson. -/
noncomputable def zipP (x z : ℝ) (k : ℕ) : ℝ :=
  let u := exp z
  let mu := exp x
  u / (1 + u) * (if k = 0 then 1 else 0) + 1 / (1 + u) * (exp (-mu) * mu ^ k / k.factorial)

theorem hasSum_pois (m : ℝ) : HasSum (fun k : ℕ => m ^ k / k.factorial) (exp m) := by
  rw [Real.exp_eq_exp_ℝ]; exact NormedSpace.expSeries_div_hasSum_exp m

theorem pois_shift (m : ℝ) (k : ℕ) : ((k + 1 : ℕ) : ℝ) * (m ^ (k + 1) / (k + 1).factorial) = m * (m ^ k / k.factorial) := by
  have h2 : ((k + 1 : ℕ) : ℝ) ≠ 0 := by positivity
  have h3 : (k.factorial : ℝ) ≠ 0 := by positivity
  rw [Nat.factorial_succ, Nat.cast_mul, pow_succ]
  field_simp

theorem hasSum_pois1 (m : ℝ) : HasSum (fun k : ℕ => (k : ℝ) * (m ^ k / k.factorial)) (m * exp m) := by
  rw [← hasSum_nat_add_iff' 1]
  simp only [Finset.sum_range_one, Nat.cast_zero, zero_mul, sub_zero]
  exact ((hasSum_pois m).mul_left m).congr_fun fun k => pois_shift m k

theorem hasSum_pois2 (m : ℝ) : HasSum (fun k : ℕ => (k : ℝ) ^ 2 * (m ^ k / k.factorial)) (m * (m * exp m + exp m)) := by
  rw [← hasSum_nat_add_iff' 1]
  simp only [Finset.sum_range_one, Nat.cast_zero, ne_eq, OfNat.ofNat_ne_zero, not_false_eq_true, zero_pow, zero_mul, sub_zero]
  refine (((hasSum_pois1 m).add (hasSum_pois m)).mul_left m).congr_fun fun k => ?_
  rw [sq, mul_assoc, pois_shift]
  push_cast; ring

theorem hasSum_zero (f : ℕ → ℝ) : HasSum (fun k : ℕ => f k * (if k = 0 then (1 : ℝ) else 0)) (f 0) := by
  have := hasSum_ite_eq (0 : ℕ) (f 0)
  refine this.congr_fun fun k => ?_
  by_cases h : k = 0 <;> simp [h]

/-- **C134** `predict` returns the mean of the zero inflated Poisson distribution -/
theorem C134_mean (x z : ℝ) : HasSum (zipP x z) 1 ∧ HasSum (fun k : ℕ => (k : ℝ) * zipP x z k) (zipPredict x z).1 := by
  have hz := exp_pos z
  have hE := exp_pos (exp x)
  constructor
  · have := ((hasSum_zero fun _ => exp z / (1 + exp z))).add ((hasSum_pois (exp x)).mul_left (1 / (1 + exp z) * exp (-exp x)))
    have e : exp z / (1 + exp z) + 1 / (1 + exp z) * exp (-exp x) * exp (exp x) = 1 := by
      rw [mul_assoc, ← exp_add, neg_add_cancel, exp_zero]; field_simp; ring
    rw [e] at this
    exact this.congr_fun fun k => by simp only [zipP]; ring
  · have := ((hasSum_zero fun k => (k : ℝ) * (exp z / (1 + exp z)))).add ((hasSum_pois1 (exp x)).mul_left (1 / (1 + exp z) * exp (-exp x)))
    have e : ((0 : ℕ) : ℝ) * (exp z / (1 + exp z)) + 1 / (1 + exp z) * exp (-exp x) * (exp x * exp (exp x)) = (zipPredict x z).1 := by
      simp only [zipPredict]
      rw [exp_neg]; push_cast; field_simp; ring
    rw [e] at this
    exact this.congr_fun fun k => by simp only [zipP]; ring

/-- and its variance. -/
theorem C134_variance (x z : ℝ) : HasSum (fun k : ℕ => ((k : ℝ) - (zipPredict x z).1) ^ 2 * zipP x z k) (zipPredict x z).2 := by
  have hz := exp_pos z
  have hE := exp_pos (exp x)
  have h2 : HasSum (fun k : ℕ => (k : ℝ) ^ 2 * zipP x z k) (exp x * (exp x + 1) / (1 + exp z)) := by
    have := ((hasSum_zero fun k => (k : ℝ) ^ 2 * (exp z / (1 + exp z)))).add ((hasSum_pois2 (exp x)).mul_left (1 / (1 + exp z) * exp (-exp x)))
    have e : ((0 : ℕ) : ℝ) ^ 2 * (exp z / (1 + exp z)) + 1 / (1 + exp z) * exp (-exp x) * (exp x * (exp x * exp (exp x) + exp (exp x))) = exp x * (exp x + 1) / (1 + exp z) := by
      rw [exp_neg]; push_cast; field_simp; ring
    rw [e] at this
    exact this.congr_fun fun k => by simp only [zipP]; ring
  have t := (h2.add ((C134_mean x z).2.mul_left (-2 * (zipPredict x z).1))).add ((C134_mean x z).1.mul_left ((zipPredict x z).1 ^ 2))
  have e : exp x * (exp x + 1) / (1 + exp z) + -2 * (zipPredict x z).1 * (zipPredict x z).1 + (zipPredict x z).1 ^ 2 * 1 = (zipPredict x z).2 := by
    simp only [zipPredict]
    field_simp
    ring
  rw [e] at t
  exact t.congr_fun fun k => by ring

/-- **C134** Each term of `loglike` is the log probability of the count, plus `log y` for a positive count: the objective has the
right minimiser. -/
theorem C134_loglike_partial (h : IsSp sp) (k : ℕ) (x z : ℝ) :
    zipLl sp k x z = log (zipP x z k) + (if k = 0 then 0 else log k) := by
  have hz := exp_pos z
  have hm := exp_pos x
  have hE := exp_pos (-exp x)
  by_cases hk : k = 0
  · subst hk
    simp only [zipLl, Nat.cast_zero, if_true, zipP, zipLlz, zipLlm, pow_zero, Nat.factorial_zero, Nat.cast_one]
    rw [← log_div (by positivity) (by positivity), add_zero]
    congr 1
    field_simp
  · have h0 : (k : ℝ) ≠ 0 := Nat.cast_ne_zero.2 hk
    have hp : (0 : ℝ) < k := by positivity
    have hf : (0 : ℝ) < k.factorial := by positivity
    have e : log (k.factorial : ℝ) = sp.gammaln k + log k := by
      rw [h.gammaln _ hp, ← log_mul (Gamma_pos_of_pos hp).ne' h0, ← Gamma_nat_eq_factorial, Gamma_add_one h0, mul_comm]
    simp only [zipLl, if_neg h0, if_neg hk, zipP, zipLln, zipLlm, zipLlc, mul_zero, zero_add]
    rw [log_mul (by positivity) (by positivity), log_div (by positivity) hf.ne', log_mul hE.ne' (by positivity), log_exp, log_pow, e, one_div, log_inv]
    simp only [log_exp]
    ring

/-- **C134** fails for the normalisation: `gammaln(y)` stands for `gammaln(y + 1)`, so the "probabilities" add up to more than one,
whatever the parameters. -/
theorem C134_normalised_violated (h : IsSp sp) (x z : ℝ) :
    HasSum (fun k : ℕ => exp (zipLl sp k x z)) ((exp z + exp (-exp x) + exp x) / (1 + exp z)) ∧ 1 < (exp z + exp (-exp x) + exp x) / (1 + exp z) := by
  have hz := exp_pos z
  have hm := exp_pos x
  have hE := exp_pos (-exp x)
  have hP : ∀ k, 0 < zipP x z k := fun k => by
    simp only [zipP]
    refine add_pos_of_nonneg_of_pos ?_ (by positivity)
    split_ifs <;> positivity
  constructor
  · have t := ((C134_mean x z).2.add (hasSum_zero (zipP x z)))
    have e : (zipPredict x z).1 + zipP x z 0 = (exp z + exp (-exp x) + exp x) / (1 + exp z) := by
      simp only [zipPredict, zipP, if_true, pow_zero, Nat.factorial_zero, Nat.cast_one]
      field_simp
      ring
    rw [e] at t
    refine t.congr_fun fun k => ?_
    rw [C134_loglike_partial h, exp_add, exp_log (hP k)]
    by_cases hk : k = 0
    · simp [hk]
    · have : (0 : ℝ) < k := by positivity
      rw [if_neg hk, if_neg hk, exp_log this]; ring
  · rw [lt_div_iff₀ (by positivity)]
    have := add_one_lt_exp (x := -exp x) (by linarith)
    linarith

/-- **C134** `aic`, `bic`, the likelihood ratio and the McFadden and Aldrich-Nelson indices are the usual ones; -/
theorem C134_stats (l1 l0 k N : ℝ) : (zipStats l1 l0 k N).aic = 2 * k - 2 * l1 ∧ (zipStats l1 l0 k N).bic = log N * k - 2 * l1 ∧ (zipStats l1 l0 k N).llr = 2 * (l1 - l0) ∧
    (zipStats l1 l0 k N).mcf = 1 - l1 / l0 ∧ (zipStats l1 l0 k N).mfa = 2 * (l1 - l0) / (2 * (l1 - l0) + N) := by
  have e : -2 * (l0 - l1) = 2 * (l1 - l0) := by ring
  refine ⟨?_, ?_, ?_, rfl, ?_⟩ <;> simp only [zipStats, e] <;> ring

/-- the corrected criterion adds half the correction, -/
theorem C134_aicc_violated (l1 l0 k N : ℝ) : (zipStats l1 l0 k N).aicc - (zipStats l1 l0 k N).aic = (1 / 2) * (2 * k * (k + 1) / (N - k - 1)) := by
  simp only [zipStats]; ring

/-- the Cox-Snell index takes the `N`-th root of the likelihood ratio where `2 / N` is meant, -/
theorem C134_cs_violated (l1 l0 k N : ℝ) : 1 - (zipStats l1 l0 k N).cs = (exp l0 / exp l1) ^ (1 / N) ∧ (1 - (zipStats l1 l0 k N).cs) ^ 2 = (exp l0 / exp l1) ^ (2 / N) := by
  have h1 : 1 - (zipStats l1 l0 k N).cs = (exp l0 / exp l1) ^ (1 / N) := by
    simp only [zipStats]
    rw [← exp_sub, ← exp_mul, sub_sub_cancel]
    congr 1; ring
  refine ⟨h1, ?_⟩
  rw [h1, ← rpow_natCast, ← rpow_mul (by positivity)]
  congr 1
  push_cast; ring

/-- and the adjustment of the McFadden index is a reward for parameters: it is larger than the index itself. -/
theorem C134_mcfa_violated {l1 l0 k : ℝ} (h0 : l0 < 0) (hk : 0 < k) (N : ℝ) : (zipStats l1 l0 k N).mcf < (zipStats l1 l0 k N).mcfa := by
  simp only [zipStats]
  have h : (-l1 - k) / -l0 = l1 / l0 + k / l0 := by rw [← add_div, ← neg_div_neg_eq]; congr 1 <;> ring
  have := div_neg_of_pos_of_neg hk h0
  rw [h]; linarith

theorem addLabels_length {a b l : List String} (h : addLabels a b = some l) : l.length ≤ max a.length b.length := by
  unfold addLabels at h
  split_ifs at h with e
  · cases h; simp [e]
  · split at h
    · cases h; simp
    · cases h; simp
    · cases h

/-- **C134** Arrays are labelled in the order of the parameters; data frames are not labelled at all, as two pandas indices are added
entry by entry: `fit` raises for every pair of nonempty data frames. -/
theorem C134_labels_violated (a b : List String) : zipLabels (.list a) (.list b) (a.length + b.length) = some (a ++ b) ∧
    (a ≠ [] → b ≠ [] → zipLabels (.index a) (.index b) (a.length + b.length) = none ∧ zipLabels (.index a) (.list b) (a.length + b.length) = none) := by
  refine ⟨by simp [zipLabels, Cols.add], fun ha hb => ?_⟩
  have h1 := List.length_pos_iff.2 ha
  have h2 := List.length_pos_iff.2 hb
  simp only [zipLabels, Cols.add]
  cases h : addLabels a b with
  | none => simp
  | some l =>
    have := addLabels_length h
    have hn : ¬l.length = a.length + b.length := by omega
    simp [hn]

/-- **C134** The Nagelkerke index is the Cox-Snell index over its value at likelihood one (with the same wrong root). -/
theorem C134_nagelkerke (l0 k N : ℝ) (l1 : ℝ) : (zipStats l1 l0 k N).nag = (zipStats l1 l0 k N).cs / (zipStats 0 l0 k N).cs := by
  simp only [zipStats, sub_zero]

end Verif.Reg
