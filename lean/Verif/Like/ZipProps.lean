import Verif.Like.Zinf
import Verif.Like.ClmProps
import Verif.Glm.DensityProps
/-!
# C101: the zero-inflated Poisson model
-/
namespace Verif.Like
open Real Verif.Transf
variable {sp : Glm.Sp} {g h : CLink} {d : ZData} {n p q : ℕ}

/-- Predictors at which the rate is positive and the probability of an extra zero is below one. -/
structure ZDom (g h : CLink) (eta psi : ℝ) : Prop where
  rate : 0 < g.F eta
  lo : 0 ≤ h.F psi
  hi : h.F psi < 1

theorem ZDom.den {eta psi : ℝ} (H : ZDom g h eta psi) : 0 < h.F psi + (1 - h.F psi) * exp (-g.F eta) :=
  add_pos_of_nonneg_of_pos H.lo (mul_pos (sub_pos.2 H.hi) (exp_pos _))

/-! ## The distribution -/

/-- Spec: the zero-inflated Poisson probabilities. -/
noncomputable def zipPMF (lam om : ℝ) (y : ℕ) : ℝ :=
  (if y = 0 then om else 0) + (1 - om) * (exp (-lam) * lam ^ y / y.factorial)

theorem zipPMF_sum (lam om : ℝ) : HasSum (zipPMF lam om) 1 := by
  have h1 : HasSum (fun y : ℕ => lam ^ y / (y.factorial : ℝ)) (exp lam) := by
    rw [exp_eq_exp_ℝ]; exact NormedSpace.expSeries_div_hasSum_exp lam
  have h2 := ((h1.mul_left (exp (-lam))).mul_left (1 - om))
  have h3 : HasSum (fun y : ℕ => if y = 0 then om else 0) om := hasSum_ite_eq 0 om
  have h4 := h3.add h2
  rw [← exp_add, neg_add_cancel, exp_zero] at h4
  convert h4 using 1
  · funext y; rw [zipPMF, mul_div_assoc]
  · ring

/-- The likelihood of a count is the zero-inflated Poisson probability times the count (one for a zero count): the code
subtracts `log Γ(y)` instead of `log Γ(y + 1)`.  The factor does not depend on the parameters. -/
theorem C101_pmf_partial (hsp : Glm.IsSp sp) {eta psi : ℝ} (H : ZDom g h eta psi) (y : ℕ) :
    exp (-zipNll sp g h y 1 eta psi) = (if y = 0 then 1 else (y : ℝ)) * zipPMF (g.F eta) (h.F psi) y := by
  have hd := H.den
  obtain ⟨h1, h2, h3⟩ := H
  rcases Nat.eq_zero_or_pos y with rfl | hy
  · simp only [zipNll, zipPMF, Nat.cast_zero, if_true, pow_zero, Nat.factorial_zero, Nat.cast_one]
    rw [neg_mul, one_mul, neg_neg, exp_log hd]
    ring
  · have hy0 : (y : ℝ) ≠ 0 := by exact_mod_cast hy.ne'
    have hyp : (0 : ℝ) < y := by exact_mod_cast hy
    simp only [zipNll, zipPMF, hy0, hy.ne', if_false, zero_add]
    obtain ⟨m, rfl⟩ : ∃ m, y = m + 1 := ⟨y - 1, by omega⟩
    have hG : Real.Gamma ((m + 1 : ℕ) : ℝ) = m.factorial := by
      rw [Nat.cast_add, Nat.cast_one, Real.Gamma_nat_eq_factorial]
    have hf : (0 : ℝ) < m.factorial := by exact_mod_cast m.factorial_pos
    rw [hsp.gammaln _ hyp, hG]
    have e : -(-1 * (log (1 - h.F psi) + ((m + 1 : ℕ) : ℝ) * log (g.F eta) - g.F eta - log (m.factorial : ℝ))) =
        log (1 - h.F psi) + log (g.F eta) * ((m + 1 : ℕ) : ℝ) + -g.F eta + -log (m.factorial : ℝ) := by ring
    rw [e, exp_add, exp_add, exp_add, exp_log (sub_pos.2 h3), exp_mul, exp_log h1, rpow_natCast, exp_neg (log _),
      exp_log hf, Nat.factorial_succ, Nat.cast_mul]
    have : ((m + 1 : ℕ) : ℝ) ≠ 0 := by positivity
    field_simp

/-- The likelihood contributions add up to `ω + (1 - ω) (e^{-λ} + λ)`, which is not one. -/
theorem C101_pmf_violated (hsp : Glm.IsSp sp) {eta psi : ℝ} (H : ZDom g h eta psi) :
    ∃ s, HasSum (fun y : ℕ => exp (-zipNll sp g h y 1 eta psi)) s ∧ 1 < s := by
  refine ⟨h.F psi + (1 - h.F psi) * (exp (-g.F eta) + g.F eta), ?_, ?_⟩
  · have h1 : HasSum (fun y : ℕ => g.F eta ^ y / (y.factorial : ℝ)) (exp (g.F eta)) := by
      rw [exp_eq_exp_ℝ]; exact NormedSpace.expSeries_div_hasSum_exp (g.F eta)
    have h2 := (h1.mul_left ((1 - h.F psi) * (exp (-g.F eta) * g.F eta)))
    rw [← hasSum_nat_add_iff' 1]
    simp only [Finset.sum_range_one, C101_pmf_partial hsp H]
    have e1 : (fun y : ℕ => (if y + 1 = 0 then 1 else ((y + 1 : ℕ) : ℝ)) * zipPMF (g.F eta) (h.F psi) (y + 1)) =
        fun y : ℕ => (1 - h.F psi) * (exp (-g.F eta) * g.F eta) * (g.F eta ^ y / (y.factorial : ℝ)) := by
      funext y
      simp only [zipPMF, Nat.succ_ne_zero, if_false, zero_add, Nat.factorial_succ, Nat.cast_mul, pow_succ]
      have : ((y + 1 : ℕ) : ℝ) ≠ 0 := by positivity
      have : (y.factorial : ℝ) ≠ 0 := by positivity
      field_simp
    have e2 : h.F psi + (1 - h.F psi) * (exp (-g.F eta) + g.F eta) -
        (if (0 : ℕ) = 0 then 1 else ((0 : ℕ) : ℝ)) * zipPMF (g.F eta) (h.F psi) 0 =
        (1 - h.F psi) * (exp (-g.F eta) * g.F eta) * exp (g.F eta) := by
      simp only [zipPMF, if_true, pow_zero, Nat.factorial_zero, Nat.cast_one]
      have e : exp (-g.F eta) * exp (g.F eta) = 1 := by rw [← exp_add, neg_add_cancel, exp_zero]
      linear_combination -(1 - h.F psi) * g.F eta * e
    rw [e1]
    simp only [if_true] at e2 ⊢
    rw [e2]
    exact h2
  · have := add_one_lt_exp (x := -g.F eta) (by linarith [H.rate])
    nlinarith [H.hi, H.lo]

/-- `loglike` is the sum of `loglike_i`. -/
theorem C101_loglike (th : ℕ → ℝ) : zipLoglike sp g h d n p q th =
    ∑ i ∈ Finset.range n, zipNll sp g h (d.y i) (d.w i) (zEta d p th i) (zPsi d p q th i) := by
  simp only [zipLoglike, zipNll]
  rw [Finset.sum_ite]

/-! ## First derivatives -/

/-- Spec: the derivative in the predictor of the zero part. -/
noncomputable def zipUbT (g h : CLink) (y w eta psi : ℝ) : ℝ :=
  if y = 0 then -(w * (h.F1 psi * (1 - exp (-g.F eta)))) / (h.F psi + (1 - h.F psi) * exp (-g.F eta))
  else w * h.F1 psi / (1 - h.F psi)

section
variable {e s : ℝ → ℝ} {e' s' y w : ℝ}

theorem zip_nll_path (hg : GoodC g) (hh : GoodC h) (he : HasDerivAt e e' 0) (hs : HasDerivAt s s' 0)
    (H : ZDom g h (e 0) (s 0)) : HasDerivAt (fun t => zipNll sp g h y w (e t) (s t))
      (zipUp g h y w (e 0) (s 0) * e' + zipUbT g h y w (e 0) (s 0) * s') 0 := by
  have hL : HasDerivAt (fun t => g.F (e t)) (g.F1 (e 0) * e') 0 := (hg.d1 (e 0)).comp 0 he
  have hO : HasDerivAt (fun t => h.F (s t)) (h.F1 (s 0) * s') 0 := (hh.d1 (s 0)).comp 0 hs
  have hd := H.den
  obtain ⟨h1, h2, h3⟩ := H
  by_cases hy : y = 0
  · simp only [zipNll, zipUp, zipUbT, if_pos hy]
    refine (((hO.fun_add ((hO.const_sub 1).fun_mul hL.fun_neg.exp)).log hd.ne').const_mul (-w)).congr_deriv ?_
    rw [add_comm ((1 - h.F (s 0)) * _)]
    field_simp
    ring
  · simp only [zipNll, zipUp, zipUbT, if_neg hy]
    have h4 : 1 - h.F (s 0) ≠ 0 := (sub_pos.2 h3).ne'
    refine ((((((hO.const_sub 1).log h4).fun_add ((hL.log h1.ne').const_mul y)).fun_sub hL).sub_const
      (sp.gammaln y)).const_mul (-w)).congr_deriv ?_
    field_simp
    ring

theorem zip_up_path (hg : GoodC g) (hh : GoodC h) (he : HasDerivAt e e' 0) (hs : HasDerivAt s s' 0)
    (H : ZDom g h (e 0) (s 0)) : HasDerivAt (fun t => zipUp g h y w (e t) (s t))
      (zipWeta2 g h y w (e 0) (s 0) * e' + zipWetapsi g h y w (e 0) (s 0) * s') 0 := by
  have hL : HasDerivAt (fun t => g.F (e t)) (g.F1 (e 0) * e') 0 := (hg.d1 (e 0)).comp 0 he
  have hL1 : HasDerivAt (fun t => g.F1 (e t)) (g.F2 (e 0) * e') 0 := (hg.d2 (e 0)).comp 0 he
  have hO : HasDerivAt (fun t => h.F (s t)) (h.F1 (s 0) * s') 0 := (hh.d1 (s 0)).comp 0 hs
  have hd := H.den
  obtain ⟨h1, h2, h3⟩ := H
  by_cases hy : y = 0
  · simp only [zipUp, zipWeta2, zipWetapsi, if_pos hy]
    have ht1 := (hO.const_sub 1).fun_mul hL.fun_neg.exp
    refine (((ht1.const_mul w).fun_mul hL1).fun_div (ht1.fun_add hO) (by rw [add_comm]; exact hd.ne')).congr_deriv ?_
    rw [add_comm ((1 - h.F (s 0)) * _)]
    field_simp
    ring
  · simp only [zipUp, zipWeta2, zipWetapsi, if_neg hy]
    refine ((((hL.sub_const y).const_mul w).fun_mul hL1).fun_div hL h1.ne').congr_deriv ?_
    field_simp
    ring

theorem zip_ub_path (hg : GoodC g) (hh : GoodC h) (he : HasDerivAt e e' 0) (hs : HasDerivAt s s' 0)
    (H : ZDom g h (e 0) (s 0)) : HasDerivAt (fun t => zipUbT g h y w (e t) (s t))
      (zipWetapsi g h y w (e 0) (s 0) * e' + zipWpsi2 g h y w (e 0) (s 0) * s') 0 := by
  have hL : HasDerivAt (fun t => g.F (e t)) (g.F1 (e 0) * e') 0 := (hg.d1 (e 0)).comp 0 he
  have hO : HasDerivAt (fun t => h.F (s t)) (h.F1 (s 0) * s') 0 := (hh.d1 (s 0)).comp 0 hs
  have hO1 : HasDerivAt (fun t => h.F1 (s t)) (h.F2 (s 0) * s') 0 := (hh.d2 (s 0)).comp 0 hs
  have hd := H.den
  obtain ⟨h1, h2, h3⟩ := H
  by_cases hy : y = 0
  · simp only [zipUbT, zipWpsi2, zipWetapsi, if_pos hy]
    have ht1 := (hO.const_sub 1).fun_mul hL.fun_neg.exp
    refine (((hO1.fun_mul (hL.fun_neg.exp.const_sub 1)).const_mul w).fun_neg.fun_div (hO.fun_add ht1) hd.ne').congr_deriv ?_
    rw [add_comm ((1 - h.F (s 0)) * _)]
    field_simp
    ring
  · simp only [zipUbT, zipWpsi2, zipWetapsi, if_neg hy]
    have h4 : 1 - h.F (s 0) ≠ 0 := (sub_pos.2 h3).ne'
    refine ((hO1.const_mul w).fun_div (hO.const_sub 1) h4).congr_deriv ?_
    field_simp
    ring

end

variable {P : ℝ → ℕ → ℝ} {v : ℕ → ℝ}

theorem eta_path (hP : PathN (p + q) P v) (i : ℕ) : HasDerivAt (fun t => zEta d p (P t) i) (dotN p (d.X i) v) 0 :=
  dot_path (fun j hj => hP j (by omega)) _

theorem psi_path (hP : PathN (p + q) P v) (i : ℕ) :
    HasDerivAt (fun t => zPsi d p q (P t) i) (dotN q (d.Z i) fun j => v (p + j)) 0 :=
  dot_path (P := fun t j => P t (p + j)) (fun j hj => hP (p + j) (by omega)) _

/-- Spec: the gradient with the weight on the whole contribution of a zero count. -/
noncomputable def zipGradT (g h : CLink) (d : ZData) (n p q : ℕ) (th : ℕ → ℝ) (j : ℕ) : ℝ :=
  if j < p then ∑ i ∈ Finset.range n, d.X i j * zipUp g h (d.y i) (d.w i) (zEta d p th i) (zPsi d p q th i)
  else ∑ i ∈ Finset.range n, d.Z i (j - p) * zipUbT g h (d.y i) (d.w i) (zEta d p th i) (zPsi d p q th i)

/-- Assembling two blocks. -/
theorem dot_blocks (A B : ℕ → ℝ) : dotN (p + q) (fun j => if j < p then ∑ i ∈ Finset.range n, d.X i j * A i
      else ∑ i ∈ Finset.range n, d.Z i (j - p) * B i) v =
    ∑ i ∈ Finset.range n, (A i * dotN p (d.X i) v + B i * dotN q (d.Z i) fun j => v (p + j)) := by
  rw [dot_split, Finset.sum_add_distrib]
  congr 1
  · have e : dotN p (fun j => if j < p then ∑ i ∈ Finset.range n, d.X i j * A i
        else ∑ i ∈ Finset.range n, d.Z i (j - p) * B i) v =
        ∑ j ∈ Finset.range p, ∑ i ∈ Finset.range n, d.X i j * A i * v j :=
      Finset.sum_congr rfl fun j hj => by simp only [if_pos (Finset.mem_range.1 hj), Finset.sum_mul]
    rw [e, Finset.sum_comm]
    refine Finset.sum_congr rfl fun i _ => ?_
    rw [dotN, Finset.mul_sum]
    exact Finset.sum_congr rfl fun j _ => by ring
  · simp only [show ∀ j, ¬ p + j < p from fun j => by omega, if_false, Nat.add_sub_cancel_left, Finset.sum_mul]
    rw [Finset.sum_comm]
    refine Finset.sum_congr rfl fun i _ => ?_
    rw [dotN, Finset.mul_sum]
    exact Finset.sum_congr rfl fun j _ => by ring

theorem zipGradT_deriv (hg : GoodC g) (hh : GoodC h) (hP : PathN (p + q) P v)
    (H : ∀ i, i < n → ZDom g h (zEta d p (P 0) i) (zPsi d p q (P 0) i)) :
    HasDerivAt (fun t => zipLoglike sp g h d n p q (P t)) (dotN (p + q) (zipGradT g h d n p q (P 0)) v) 0 := by
  simp only [C101_loglike]
  refine (HasDerivAt.fun_sum fun i hi => zip_nll_path hg hh (eta_path hP i) (psi_path hP i)
    (H i (Finset.mem_range.1 hi))).congr_deriv ?_
  exact (dot_blocks _ _).symm

theorem ub_unit {y w eta psi : ℝ} (hw : y = 0 → w = 1) : zipUb g h y w eta psi = zipUbT g h y w eta psi := by
  by_cases hy : y = 0
  · simp only [zipUb, zipUbT, if_pos hy, hw hy]
    rw [add_comm ((1 - h.F psi) * _)]
    congr 1; ring
  · simp only [zipUb, zipUbT, if_neg hy]

theorem gradT_eq (hw : ∀ i, i < n → d.y i = 0 → d.w i = 1) (th : ℕ → ℝ) :
    zipGrad g h d n p q th = zipGradT g h d n p q th := by
  funext j
  simp only [zipGrad, zipGradT]
  congr 1
  exact Finset.sum_congr rfl fun i hi => by rw [ub_unit (hw i (Finset.mem_range.1 hi))]

/-- `gradient` is the gradient of `loglike` when the zero counts have unit weight. -/
theorem C101_gradient_partial (hg : GoodC g) (hh : GoodC h) (hw : ∀ i, i < n → d.y i = 0 → d.w i = 1)
    (hP : PathN (p + q) P v) (H : ∀ i, i < n → ZDom g h (zEta d p (P 0) i) (zPsi d p q (P 0) i)) :
    HasDerivAt (fun t => zipLoglike sp g h d n p q (P t)) (dotN (p + q) (zipGrad g h d n p q (P 0)) v) 0 := by
  rw [gradT_eq hw]; exact zipGradT_deriv hg hh hP H

/-- The block of the Poisson part is right for every weight. -/
theorem C101_gradient_poisson (hg : GoodC g) (hh : GoodC h) (hP : PathN (p + q) P v) (hv : ∀ j, p ≤ j → v j = 0)
    (H : ∀ i, i < n → ZDom g h (zEta d p (P 0) i) (zPsi d p q (P 0) i)) :
    HasDerivAt (fun t => zipLoglike sp g h d n p q (P t)) (dotN (p + q) (zipGrad g h d n p q (P 0)) v) 0 := by
  refine (zipGradT_deriv hg hh hP H).congr_deriv ?_
  refine Finset.sum_congr rfl fun j _ => ?_
  by_cases hj : j < p
  · simp only [zipGrad, zipGradT, if_pos hj]
  · rw [hv j (by omega), mul_zero, mul_zero]

/-- The rows of `gradient_i` add up to `gradient`. -/
theorem C101_gradient_i (th : ℕ → ℝ) (j : ℕ) :
    ∑ i ∈ Finset.range n, zipGradI g h d p q th i j = zipGrad g h d n p q th j := by
  simp only [zipGrad, zipGradI, zipUp, zipUb]
  by_cases hj : j < p
  · simp only [if_pos hj]
    exact Finset.sum_congr rfl fun i _ => by split_ifs <;> rfl
  · simp only [if_neg hj]
    exact Finset.sum_congr rfl fun i _ => by split_ifs <;> rfl

/-- The log link of the package. -/
noncomputable def logC : CLink := ⟨exp, exp, exp⟩

theorem ofLink_log : OfLink logC Glm.logLink := ⟨rfl, fun _ => rfl, rfl⟩
theorem good_log : GoodC logC := ofLink_log.good Glm.C35_log.2.2

theorem logit_range (x : ℝ) : 0 ≤ logitC.F x ∧ logitC.F x < 1 := by
  have := exp_pos x
  simp only [logitC, Glm.logitLink]
  exact ⟨by positivity, by rw [div_lt_one (by positivity)]; linarith⟩

/-- With the default links every predictor is admissible. -/
theorem zdom_default (eta psi : ℝ) : ZDom logC logitC eta psi :=
  ⟨exp_pos eta, (logit_range psi).1, (logit_range psi).2⟩

/-- In general it is not: the weight multiplies only one of the two terms of the zero part. -/
theorem C101_gradient_violated : ∃ d : ZData, ¬ HasDerivAt
    (fun t => zipLoglike sp logC logitC d 1 0 1 fun _ => t) (zipGrad logC logitC d 1 0 1 (fun _ => 0) 0) 0 := by
  refine ⟨⟨fun _ _ => 0, fun _ _ => 1, fun _ => 0, fun _ => 2⟩, fun hd => ?_⟩
  have hP : PathN (0 + 1) (fun t (_ : ℕ) => t) fun _ => 1 := fun j _ => hasDerivAt_id (0 : ℝ)
  have h2 := zipGradT_deriv (sp := sp) (g := logC) (h := logitC) (n := 1) (p := 0) (q := 1)
    (d := ⟨fun _ _ => 0, fun _ _ => 1, fun _ => 0, fun _ => 2⟩) good_log good_logit hP fun i _ => zdom_default _ _
  have h3 := hd.unique h2
  have e1 : exp (-exp 0) < 1 := by rw [exp_zero]; exact exp_lt_one_iff.2 (by norm_num)
  have e2 := exp_pos (-exp 0)
  simp [zipGrad, zipGradT, zipUb, zipUbT, dotN, zEta, zPsi, logC, logitC, Glm.logitLink] at h3
  rw [exp_zero] at e1 e2
  have hden : (1 + 1 : ℝ)⁻¹ + (1 - (1 + 1)⁻¹) * exp (-1) ≠ 0 := by positivity
  rw [add_comm ((1 - (1 + 1 : ℝ)⁻¹) * exp (-1))] at h3
  rw [div_left_inj' hden] at h3
  linarith

/-! ## Second derivatives -/

theorem block_path {m : ℕ} {a : ℕ → ℕ → ℝ} {u : ℝ → ℕ → ℝ} {A B : ℕ → ℝ} (hu : ∀ i, i < m →
    HasDerivAt (fun t => u t i) (A i * dotN p (d.X i) v + B i * dotN q (d.Z i) fun j => v (p + j)) 0) (j : ℕ) :
    HasDerivAt (fun t => ∑ i ∈ Finset.range m, a i j * u t i)
      (∑ i ∈ Finset.range m, (a i j * A i * dotN p (d.X i) v + a i j * B i * dotN q (d.Z i) fun j => v (p + j))) 0 := by
  refine (HasDerivAt.fun_sum fun i hi => (hu i (Finset.mem_range.1 hi)).const_mul (a i j)).congr_deriv ?_
  exact Finset.sum_congr rfl fun i _ => by ring

/-- `hessian` is the derivative of the true gradient for every weight … -/
theorem C101_hessian (hg : GoodC g) (hh : GoodC h) (hP : PathN (p + q) P v)
    (H : ∀ i, i < n → ZDom g h (zEta d p (P 0) i) (zPsi d p q (P 0) i)) (j : ℕ) :
    HasDerivAt (fun t => zipGradT g h d n p q (P t) j) (dotN (p + q) (zipHess g h d n p q (P 0) j) v) 0 := by
  by_cases hj : j < p
  · simp only [zipGradT, if_pos hj]
    refine (block_path (a := d.X) (fun i hi => zip_up_path hg hh (eta_path hP i) (psi_path hP i) (H i hi)) j).congr_deriv ?_
    rw [← dot_blocks]
    refine Finset.sum_congr rfl fun c _ => ?_
    simp only [zipHess, if_pos hj]
    congr 1
    split_ifs
    · exact Finset.sum_congr rfl fun i _ => by ring
    · exact Finset.sum_congr rfl fun i _ => by ring
  · simp only [zipGradT, if_neg hj]
    refine (block_path (a := fun i j => d.Z i (j - p))
      (fun i hi => zip_ub_path hg hh (eta_path hP i) (psi_path hP i) (H i hi)) j).congr_deriv ?_
    rw [← dot_blocks]
    refine Finset.sum_congr rfl fun c _ => ?_
    simp only [zipHess, if_neg hj]
    congr 1
    split_ifs
    · exact Finset.sum_congr rfl fun i _ => by ring
    · exact Finset.sum_congr rfl fun i _ => by ring

/-- … and of `gradient` when the zero counts have unit weight. -/
theorem C101_hessian_partial (hg : GoodC g) (hh : GoodC h) (hw : ∀ i, i < n → d.y i = 0 → d.w i = 1)
    (hP : PathN (p + q) P v) (H : ∀ i, i < n → ZDom g h (zEta d p (P 0) i) (zPsi d p q (P 0) i)) (j : ℕ) :
    HasDerivAt (fun t => zipGrad g h d n p q (P t) j) (dotN (p + q) (zipHess g h d n p q (P 0) j) v) 0 := by
  simp only [gradT_eq hw]
  exact C101_hessian hg hh hP H j

/-- The Hessian is symmetric. -/
theorem C101_hessian_symm (th : ℕ → ℝ) (j c : ℕ) : zipHess g h d n p q th j c = zipHess g h d n p q th c j := by
  simp only [zipHess]
  split_ifs <;> first | rfl | exact Finset.sum_congr rfl fun i _ => by ring

example : ∃ sp, Glm.IsSp sp := Glm.C67_contract

end Verif.Like
