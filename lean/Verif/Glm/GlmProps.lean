import Verif.Glm.Model
import Verif.Glm.TauProps
/-!
# C65: the gradient and Hessian of a generalised linear model are derivatives of its objective
-/
namespace Verif.Glm
open Real Set

variable {n p : ℕ}

/-- The linear predictor. -/
def eta (d : Dat n p) (beta : Fin p → ℝ) (i : Fin n) : ℝ := ∑ j, d.X i j * beta j

/-- The data lie in the sample space, the linear predictors in the range of the link, the means in
the mean space, and the weights are positive. -/
structure Admissible (f : Fam) (Y M E : Set ℝ) (d : Dat n p) (beta : Fin p → ℝ) : Prop where
  y : ∀ i, d.y i ∈ Y
  w : ∀ i, 0 < d.w i
  eta : ∀ i, eta d beta i ∈ E
  mu : ∀ i, f.l.inv (Glm.eta d beta i) ∈ M

/-- Derivative of the linear predictor in direction `v`. -/
theorem eta_line (d : Dat n p) (beta v : Fin p → ℝ) (i : Fin n) :
    HasDerivAt (fun t : ℝ => eta d (fun j => beta j + t * v j) i) (eta d v i) 0 := by
  unfold eta
  refine HasDerivAt.fun_sum fun j _ => ?_
  have := (((hasDerivAt_id (0 : ℝ)).mul_const (v j)).const_add (beta j)).const_mul (d.X i j)
  refine this.congr_deriv ?_
  simp

theorem eta_zero (d : Dat n p) (beta v : Fin p → ℝ) (i : Fin n) :
    eta d (fun j => beta j + 0 * v j) i = eta d beta i := by
  simp

theorem scales_const {f : Fam} {est : Scale} (he : est ≠ .M) (d : Dat n p) (b b' : Fin p → ℝ)
    (tau : ℝ) : scales f est d b tau = scales f est d b' tau := by
  simp [scales, he]

theorem scales_pos {f : Fam} {est : Scale} (he : est ≠ .M) (d : Dat n p) (b : Fin p → ℝ)
    (tau : ℝ) : 0 < (scales f est d b tau).1 ∧ 0 < (scales f est d b tau).2 ∧
      (f.isNB = true → (scales f est d b tau).1 = 1) := by
  have := exp_pos tau
  cases est <;> cases hb : f.isNB <;> simp_all [scales]

/-- **Gradient in the coefficients**: for fixed and Newton-Raphson scale, the gradient gives the
derivative of the objective in every direction. -/
theorem C65_gradient {f : Fam} {Y M Ml E : Set ℝ} {P : ℝ → Prop} (hW : WeightsOK f.F Y M P)
    (hl : GoodLink f.l Ml E) {est : Scale} (he : est ≠ .M) (d : Dat n p) (beta v : Fin p → ℝ)
    (tau : ℝ) (hP : P (scales f est d beta tau).1) (hA : Admissible f Y M E d beta) :
    HasDerivAt (fun t : ℝ => loglike f est d (fun j => beta j + t * v j) tau)
      (∑ j, gradBeta f est d beta tau j * v j) 0 := by
  obtain ⟨p1, p2, -⟩ := scales_pos (f := f) he d beta tau
  have h1 : HasDerivAt (fun t : ℝ => loglike f est d (fun j => beta j + t * v j) tau)
      (∑ i, gw f.F f.l (d.y i) (fitted f d beta i) (d.w i) (scales f est d beta tau).1
        (scales f est d beta tau).2 * eta d v i) 0 := by
    simp only [loglike, scales_const he d _ beta tau]
    refine HasDerivAt.fun_sum fun i _ => ?_
    have h := (hW f.l Ml E hl _ (hA.y i) _ (hA.eta i) (hA.mu i) _ (hA.w i) _ p1 hP _ p2).1
    rw [← eta_zero d beta v i] at h
    have := h.comp 0 (eta_line d beta v i)
    refine this.congr_deriv ?_
    rw [eta_zero]; rfl
  refine h1.congr_deriv ?_
  simp only [gradBeta, eta, Finset.sum_mul, Finset.mul_sum]
  rw [Finset.sum_comm]
  exact Finset.sum_congr rfl fun j _ => Finset.sum_congr rfl fun i _ => by ring

/-- **Hessian in the coefficients**: each row is the derivative of the corresponding entry of the
gradient. -/
theorem C65_hessian {f : Fam} {Y M Ml E : Set ℝ} {P : ℝ → Prop} (hW : WeightsOK f.F Y M P)
    (hl : GoodLink f.l Ml E) {est : Scale} (he : est ≠ .M) (d : Dat n p) (beta v : Fin p → ℝ)
    (tau : ℝ) (hP : P (scales f est d beta tau).1) (hA : Admissible f Y M E d beta) (j : Fin p) :
    HasDerivAt (fun t : ℝ => gradBeta f est d (fun j => beta j + t * v j) tau j)
      (∑ k, hessBeta f est d beta tau j k * v k) 0 := by
  obtain ⟨p1, p2, -⟩ := scales_pos (f := f) he d beta tau
  have h1 : HasDerivAt (fun t : ℝ => gradBeta f est d (fun j => beta j + t * v j) tau j)
      (∑ i, d.X i j * ((getGhw f.F f.l (d.y i) (fitted f d beta i) (d.w i)
        (scales f est d beta tau).1 (scales f est d beta tau).2).2 * eta d v i)) 0 := by
    simp only [gradBeta, scales_const he d _ beta tau]
    refine HasDerivAt.fun_sum fun i _ => HasDerivAt.const_mul _ ?_
    obtain ⟨-, h, e⟩ :=
      hW f.l Ml E hl _ (hA.y i) _ (hA.eta i) (hA.mu i) _ (hA.w i) _ p1 hP _ p2
    rw [← eta_zero d beta v i] at h
    have := h.comp 0 (eta_line d beta v i)
    refine this.congr_deriv ?_
    rw [eta_zero]
    change _ = (getGhw f.F f.l (d.y i) (f.l.inv (eta d beta i)) _ _ _).2 * _
    rw [e]
  refine h1.congr_deriv ?_
  simp only [hessBeta, eta, Finset.sum_mul, Finset.mul_sum]
  rw [Finset.sum_comm]
  exact Finset.sum_congr rfl fun j _ => Finset.sum_congr rfl fun i _ => by ring

/-- The coefficient block of the Hessian is symmetric. -/
theorem C65_hessian_symm (f : Fam) (est : Scale) (d : Dat n p) (beta : Fin p → ℝ) (tau : ℝ)
    (j k : Fin p) : hessBeta f est d beta tau j k = hessBeta f est d beta tau k j :=
  Finset.sum_congr rfl fun i _ => by ring

/-- **Casewise gradients** sum to the gradient. -/
theorem C65_gradient_i (f : Fam) (est : Scale) (d : Dat n p) (beta : Fin p → ℝ) (tau : ℝ)
    (j : Fin p) : ∑ i, gradIBeta f est d beta tau i j = gradBeta f est d beta tau j := rfl

theorem mapM_some' {α β : Type} (g : α → β) (l : List α) :
    l.mapM (fun a => some (g a)) = some (l.map g) := by
  induction l with
  | nil => rfl
  | cons a t ih => simp [List.mapM_cons, ih]

theorem sum_finRange (g : Fin n → ℝ) : ((List.finRange n).map g).sum = ∑ i, g i := by
  rw [← List.ofFn_eq_map, List.sum_ofFn]

/-- **Gradient and Hessian in the log scale** (`NR`, families other than negative binomial). -/
theorem C65_tau {f : Fam} {Y M E : Set ℝ} (hT : TauOK f.F Y M) (hnb : f.isNB = false)
    (d : Dat n p) (beta : Fin p → ℝ) (tau : ℝ) (hA : Admissible f Y M E d beta) :
    ∃ g : ℝ → ℝ, (∀ t, gradTau f d beta t = some (g t)) ∧
      HasDerivAt (fun t => loglike f .NR d beta t) (g tau) tau ∧
      ∃ h, hessTau f d beta tau = some h ∧ HasDerivAt g h tau := by
  obtain ⟨g, h, e, hd⟩ := hT
  refine ⟨fun t => ∑ i, g t (d.y i) (fitted f d beta i) (d.w i), fun t => ?_, ?_,
    ∑ i, h tau (d.y i) (fitted f d beta i) (d.w i), ?_, ?_⟩
  · simp only [gradTau, fun t i => (e t (d.y i) (fitted f d beta i) (d.w i)).1]
    rw [mapM_some']
    simp only [Option.bind_eq_bind, Option.bind_some, sum_finRange]
  · simp only [loglike, scales, hnb]
    simp only [if_true, reduceCtorEq, if_false, ne_eq, not_true_eq_false, Bool.false_eq_true]
    refine HasDerivAt.fun_sum fun i _ => ?_
    exact (hd _ (hA.y i) _ (hA.mu i) _ (hA.w i) tau).1
  · simp only [hessTau, fun i => (e tau (d.y i) (fitted f d beta i) (d.w i)).2]
    rw [mapM_some']
    simp only [Option.bind_eq_bind, Option.bind_some, sum_finRange]
  · refine HasDerivAt.fun_sum fun i _ => ?_
    exact (hd _ (hA.y i) _ (hA.mu i) _ (hA.w i) tau).2

/-- The same for the negative binomial family, whose log scale is the log dispersion. -/
theorem C65_tau_nb {f : Fam} {Y M E : Set ℝ} (hT : TauOKDisp f.F Y M) (hnb : f.isNB = true)
    (d : Dat n p) (beta : Fin p → ℝ) (tau : ℝ) (hA : Admissible f Y M E d beta) :
    ∃ g : ℝ → ℝ, (∀ t, gradTau f d beta t = some (g t)) ∧
      HasDerivAt (fun t => loglike f .NR d beta t) (g tau) tau ∧
      ∃ h, hessTau f d beta tau = some h ∧ HasDerivAt g h tau := by
  obtain ⟨g, h, e, hd⟩ := hT
  refine ⟨fun t => ∑ i, g t (d.y i) (fitted f d beta i) (d.w i), fun t => ?_, ?_,
    ∑ i, h tau (d.y i) (fitted f d beta i) (d.w i), ?_, ?_⟩
  · simp only [gradTau, fun t i => (e t (d.y i) (fitted f d beta i) (d.w i)).1]
    rw [mapM_some']
    simp only [Option.bind_eq_bind, Option.bind_some, sum_finRange]
  · simp only [loglike, scales, hnb]
    simp only [if_true, reduceCtorEq, if_false, ne_eq, not_true_eq_false]
    refine HasDerivAt.fun_sum fun i _ => ?_
    exact (hd _ (hA.y i) _ (hA.mu i) _ (hA.w i) tau).1
  · simp only [hessTau, fun i => (e tau (d.y i) (fitted f d beta i) (d.w i)).2]
    rw [mapM_some']
    simp only [Option.bind_eq_bind, Option.bind_some, sum_finRange]
  · refine HasDerivAt.fun_sum fun i _ => ?_
    exact (hd _ (hA.y i) _ (hA.mu i) _ (hA.w i) tau).2

/-- **Cross block** (`NR`, families other than negative binomial): the derivative of the
coefficient gradient in the log scale. -/
theorem C65_cross {f : Fam} {Y M Ml E : Set ℝ} {P : ℝ → Prop} (hW : WeightsOK f.F Y M P)
    (hP : ∀ t, P t) (hl : GoodLink f.l Ml E) (hnb : f.isNB = false)
    (d : Dat n p) (beta : Fin p → ℝ) (tau : ℝ) (hA : Admissible f Y M E d beta) (j : Fin p) :
    HasDerivAt (fun t => gradBeta f .NR d beta t j) (hessCross f d beta tau j) tau := by
  have e : ∀ t, scales f .NR d beta t = (exp t, 1) := by intro t; simp [scales, hnb]
  have h1 : HasDerivAt (fun t => gradBeta f .NR d beta t j)
      (∑ i, d.X i j * -(gw f.F f.l (d.y i) (fitted f d beta i) (d.w i) (exp tau) 1)) tau := by
    simp only [gradBeta, e]
    refine HasDerivAt.fun_sum fun i _ => HasDerivAt.const_mul _ ?_
    have e2 : ∀ t, gw f.F f.l (d.y i) (fitted f d beta i) (d.w i) (exp t) 1 =
        (-(d.y i - fitted f d beta i) / (f.F.var (fitted f d beta i) 1 / d.w i *
          f.l.d1 (fitted f d beta i))) / exp t := by
      intro t
      simp only [gw, variance]
      rw [div_div]
      congr 1
      ring
    simp only [e2]
    exact hasDerivAt_div_exp _ tau
  refine h1.congr_deriv ?_
  simp only [hessCross, hnb, Bool.false_eq_true, if_false]
  rw [← Finset.sum_neg_distrib]
  refine Finset.sum_congr rfl fun i _ => ?_
  have p1 : 0 < (scales f .NR d beta tau).1 := by rw [e]; exact exp_pos _
  have p2 : 0 < (scales f .NR d beta tau).2 := by rw [e]; exact one_pos
  have h := (hW f.l Ml E hl _ (hA.y i) _ (hA.eta i) (hA.mu i) _ (hA.w i) _ p1 (hP _) _ p2).2.2
  have h' : getGhw f.F f.l (d.y i) (fitted f d beta i) (d.w i) (scales f .NR d beta tau).1
    (scales f .NR d beta tau).2 = _ := h
  rw [h', e]
  simp only [mul_neg]
  rfl

theorem nb_cross (sp : Sp) (l : LinkFns) (y mu w tau : ℝ) (hm : 0 < mu) :
    HasDerivAt (fun t => gw (negBinomial sp) l y mu w 1 (exp t))
      (w * (exp tau * (y - mu) / ((1 + exp tau * mu) ^ 2 * l.d1 mu))) tau := by
  have he := exp_pos tau
  have e2 : ∀ t, gw (negBinomial sp) l y mu w 1 (exp t) =
      (-(y - mu) * w / (mu * l.d1 mu)) / (1 + exp t * mu) := by
    intro t
    simp only [gw, variance, negBinomial]
    have : mu + mu ^ 2 * exp t = mu * (1 + exp t * mu) := by ring
    rw [this, div_div, mul_one, div_mul_eq_mul_div, div_div_eq_mul_div]
    congr 1
    ring
  simp only [e2]
  have hne : 1 + exp tau * mu ≠ 0 := by positivity
  refine ((hasDerivAt_const tau _).fun_div (((hasDerivAt_exp tau).mul_const mu).const_add 1)
    hne).congr_deriv ?_
  rcases eq_or_ne (l.d1 mu) 0 with h | h
  · simp [h]
  · field_simp
    ring

/-- Negative binomial cross block: right when all weights are one … -/
theorem C65_cross_nb_partial (sp : Sp) (l : LinkFns) {Y E : Set ℝ}
    (d : Dat n p) (beta : Fin p → ℝ) (tau : ℝ)
    (hA : Admissible ⟨negBinomial sp, l, true⟩ Y (Ioi 0) E d beta) (hw : ∀ i, d.w i = 1)
    (j : Fin p) :
    HasDerivAt (fun t => gradBeta ⟨negBinomial sp, l, true⟩ .NR d beta t j)
      (hessCross ⟨negBinomial sp, l, true⟩ d beta tau j) tau := by
  have e : ∀ t, scales ⟨negBinomial sp, l, true⟩ .NR d beta t = (1, exp t) := by
    intro t; simp [scales]
  simp only [gradBeta, hessCross, e, if_true, neg_neg]
  refine HasDerivAt.fun_sum fun i _ => HasDerivAt.const_mul _ ?_
  rw [hw i]
  refine (nb_cross sp l _ _ 1 tau (hA.mu i)).congr_deriv ?_
  rw [one_mul]; rfl

/-- … but the weights are left out of it: with one observation of weight two (log link, `y = 0`,
`X = 1`, `beta = 0`) it is wrong at every log dispersion. -/
theorem C65_cross_nb_violated (sp : Sp) (tau : ℝ) :
    ∃ d : Dat 1 1, Admissible ⟨negBinomial sp, logLink, true⟩ (Ici 0) (Ioi 0) univ d 0 ∧
      ¬ HasDerivAt (fun t => gradBeta ⟨negBinomial sp, logLink, true⟩ .NR d 0 t 0)
        (hessCross ⟨negBinomial sp, logLink, true⟩ d 0 tau 0) tau := by
  let d : Dat 1 1 := ⟨fun _ _ => 1, fun _ => 0, fun _ => 2⟩
  have hA : Admissible ⟨negBinomial sp, logLink, true⟩ (Ici 0) (Ioi 0) univ d 0 :=
    ⟨fun _ => mem_Ici.2 le_rfl, fun _ => two_pos, fun _ => trivial, fun _ => exp_pos _⟩
  refine ⟨d, hA, fun h => ?_⟩
  have e : ∀ t, scales ⟨negBinomial sp, logLink, true⟩ .NR d 0 t = (1, exp t) := by
    intro t; simp [scales]
  have ef : fitted ⟨negBinomial sp, logLink, true⟩ d 0 0 = 1 := by simp [fitted, logLink]
  have h1 : HasDerivAt (fun t => gradBeta ⟨negBinomial sp, logLink, true⟩ .NR d 0 t 0)
      (2 * (exp tau * (0 - 1) / ((1 + exp tau * 1) ^ 2 * logLink.d1 1))) tau := by
    simp only [gradBeta, e, Finset.univ_unique, Finset.sum_singleton, Fin.default_eq_zero, ef]
    have := nb_cross sp logLink 0 1 2 tau one_pos
    simpa [d] using this
  have h2 := h.unique h1
  simp only [hessCross, e, Finset.univ_unique, Finset.sum_singleton, Fin.default_eq_zero, ef,
    if_true, neg_neg] at h2
  have he := exp_pos tau
  simp only [d, logLink] at h2
  have hne : (1 + exp tau) ≠ 0 := by positivity
  field_simp at h2
  linarith

/-- With the moment estimator of the scale the objective depends on the coefficients through `phi`
as well, and the gradient is not its derivative: for two Gaussian observations `y = (1, 2)` and an
intercept at zero the derivative is twice the reported value. -/
theorem C65_M_violated :
    ∃ d : Dat 2 1, (∀ i, d.w i = 1) ∧
      ¬ HasDerivAt (fun t : ℝ => loglike ⟨gaussian, identityLink, false⟩ .M d (fun _ => t) 0)
        (gradBeta ⟨gaussian, identityLink, false⟩ .M d (fun _ => 0) 0 0) 0 := by
  let d : Dat 2 1 := ⟨fun _ _ => 1, ![1, 2], fun _ => 1⟩
  refine ⟨d, fun _ => rfl, fun h => ?_⟩
  have ef : ∀ (t : ℝ) (i : Fin 2),
      fitted ⟨gaussian, identityLink, false⟩ d (fun _ => t) i = t := by
    intro t i; simp [fitted, identityLink, d]
  have es : ∀ t : ℝ, scales ⟨gaussian, identityLink, false⟩ .M d (fun _ => t) 0 =
      ((1 - t) ^ 2 + (2 - t) ^ 2, 1) := by
    intro t
    simp only [scales, ef]
    norm_num [pearsonChi2, gaussian, d, List.ofFn_succ]
  have e1 : ∀ t : ℝ, loglike ⟨gaussian, identityLink, false⟩ .M d (fun _ => t) 0 =
      1 / 2 + log ((1 - t) ^ 2 + (2 - t) ^ 2) := by
    intro t
    have hpos : (1 - t) ^ 2 + (2 - t) ^ 2 ≠ 0 := by nlinarith [sq_nonneg (2 * t - 3)]
    simp only [loglike, ef, es, Fin.sum_univ_two]
    simp only [gaussian, d, Matrix.cons_val_zero, Matrix.cons_val_one, one_div, inv_inv]
    generalize log ((1 - t) ^ 2 + (2 - t) ^ 2) = L
    field_simp
    ring
  have h1 : HasDerivAt (fun t : ℝ => loglike ⟨gaussian, identityLink, false⟩ .M d (fun _ => t) 0)
      (-6 / 5) 0 := by
    simp only [e1]
    have h2 := (((hasDerivAt_id (0 : ℝ)).const_sub 1).fun_pow 2).fun_add
      (((hasDerivAt_id (0 : ℝ)).const_sub 2).fun_pow 2)
    refine ((h2.log (by norm_num)).const_add (1 / 2)).congr_deriv ?_
    norm_num
  have h3 := h.unique h1
  simp only [gradBeta, es, ef, Fin.sum_univ_two] at h3
  simp only [gw, variance, gaussian, identityLink, d,
    Matrix.cons_val_zero, Matrix.cons_val_one] at h3
  norm_num at h3

end Verif.Glm
