import Verif.Gam.Gaus
import Verif.Gam.GcvProps
import Mathlib.Analysis.SpecialFunctions.Log.Deriv

namespace Verif.Gam
open Matrix Verif.Fa Verif.Calc

variable {n p s : ℕ} (m : Gaus n p s)

/-- The penalised Gram matrix. -/
noncomputable def Gaus.gram (rho : Fin s → ℝ) : Matrix (Fin p) (Fin p) ℝ := m.Xᵀ * m.X + m.pen (expv rho)

/-- The penalised least squares coefficients. -/
noncomputable def Gaus.coef (rho : Fin s → ℝ) : Fin p → ℝ := (m.gram rho)⁻¹ *ᵥ (m.Xᵀ *ᵥ m.y)

/-- The penalised sum of squares at a coefficient vector. -/
noncomputable def Gaus.crit (lam : Fin s → ℝ) (b : Fin p → ℝ) : ℝ :=
  (m.y - m.X *ᵥ b) ⬝ᵥ (m.y - m.X *ᵥ b) + b ⬝ᵥ (m.pen lam *ᵥ b)

/-- Symmetric penalties and an invertible penalised Gram matrix. -/
structure Gaus.Ok (rho : Fin s → ℝ) : Prop where
  symm : ∀ i, (m.S i)ᵀ = m.S i
  unit : IsUnit (m.gram rho).det

variable {m}

theorem beta_eq {rho : Fin s → ℝ} (h : IsUnit (m.gram rho).det) : m.beta (expv rho) = some (m.coef rho) := by
  rw [Gaus.beta, inv?_unit (by exact h)]; rfl

theorem pen_symm (hs : ∀ i, (m.S i)ᵀ = m.S i) (lam : Fin s → ℝ) : (m.pen lam)ᵀ = m.pen lam := by
  simp only [Gaus.pen, Matrix.transpose_sum, Matrix.transpose_smul, hs]

theorem gram_symm (hs : ∀ i, (m.S i)ᵀ = m.S i) (rho : Fin s → ℝ) : (m.gram rho)ᵀ = m.gram rho := by
  rw [Gaus.gram, Matrix.transpose_add, pen_symm hs, Matrix.transpose_mul, Matrix.transpose_transpose]

theorem gramInv_symm (hs : ∀ i, (m.S i)ᵀ = m.S i) (rho : Fin s → ℝ) : ((m.gram rho)⁻¹)ᵀ = (m.gram rho)⁻¹ := by
  rw [Matrix.transpose_nonsing_inv, gram_symm hs]

theorem dot_symm {A : Matrix (Fin p) (Fin p) ℝ} (hA : Aᵀ = A) (v w : Fin p → ℝ) : v ⬝ᵥ (A *ᵥ w) = w ⬝ᵥ (A *ᵥ v) := by
  rw [Matrix.dotProduct_mulVec, ← Matrix.mulVec_transpose, hA, dotProduct_comm]

theorem normal_eq {rho : Fin s → ℝ} (h : IsUnit (m.gram rho).det) : m.gram rho *ᵥ m.coef rho = m.Xᵀ *ᵥ m.y := by
  rw [Gaus.coef, Matrix.mulVec_mulVec, Matrix.mul_nonsing_inv _ h, Matrix.one_mulVec]

/-- The criterion at the solution. -/
theorem crit_eq {rho : Fin s → ℝ} (h : IsUnit (m.gram rho).det) :
    m.crit (expv rho) (m.coef rho) = m.y ⬝ᵥ m.y - m.coef rho ⬝ᵥ (m.Xᵀ *ᵥ m.y) := by
  have h1 : m.coef rho ⬝ᵥ (m.gram rho *ᵥ m.coef rho) = m.coef rho ⬝ᵥ (m.Xᵀ *ᵥ m.y) := by rw [normal_eq h]
  rw [Gaus.gram, Matrix.add_mulVec, dotProduct_add, gram_dot] at h1
  have h2 : (m.X *ᵥ m.coef rho) ⬝ᵥ m.y = m.coef rho ⬝ᵥ (m.Xᵀ *ᵥ m.y) := by
    rw [Matrix.dotProduct_mulVec, Matrix.vecMul_transpose]
  rw [Gaus.crit, sub_dotProduct, dotProduct_sub, dotProduct_sub, dotProduct_comm m.y (m.X *ᵥ m.coef rho), h2]
  linarith

/-! ### Along a line -/

/-- The parameters on a line. -/
def onLine (rho d : Fin s → ℝ) (t : ℝ) : Fin s → ℝ := fun i => rho i + t * d i

theorem onLine_zero (rho d : Fin s → ℝ) : onLine rho d 0 = rho := by funext i; simp [onLine]

theorem lam_deriv (rho d : Fin s → ℝ) (i : Fin s) :
    HasDerivAt (fun t => expv (onLine rho d t) i) (d i * expv rho i) 0 := by
  have h : HasDerivAt (fun t : ℝ => rho i + t * d i) (d i) 0 := by
    simpa using ((hasDerivAt_id (0 : ℝ)).mul_const (d i)).const_add (rho i)
  refine h.exp.congr_deriv ?_
  simp [expv, mul_comm]

/-- Derivative of the penalty. -/
noncomputable def Gaus.dpen (m : Gaus n p s) (rho d : Fin s → ℝ) : Matrix (Fin p) (Fin p) ℝ := m.pen fun i => d i * expv rho i

theorem gram_deriv (rho d : Fin s → ℝ) : MD (fun t => m.gram (onLine rho d t)) (m.dpen rho d) := by
  intro i j
  have h := HasDerivAt.fun_sum (u := Finset.univ) fun k _ => (lam_deriv rho d k).mul_const (m.S k i j)
  have h2 := h.const_add ((m.Xᵀ * m.X) i j)
  refine (h2.congr_deriv ?_).congr_of_eventuallyEq (Filter.Eventually.of_forall fun t => ?_)
  · simp only [Gaus.dpen, Gaus.pen, Matrix.sum_apply, Matrix.smul_apply, smul_eq_mul]
  · simp only [Gaus.gram, Gaus.pen, Matrix.add_apply, Matrix.sum_apply, Matrix.smul_apply, smul_eq_mul]

variable {rho : Fin s → ℝ}

theorem gram_unit0 (h : IsUnit (m.gram rho).det) (d : Fin s → ℝ) : IsUnit (m.gram (onLine rho d 0)).det := by rwa [onLine_zero]

theorem gram_units (h : IsUnit (m.gram rho).det) (d : Fin s → ℝ) : ∀ᶠ t in nhds (0 : ℝ), IsUnit (m.gram (onLine rho d t)).det :=
  (gram_deriv rho d).eventually_isUnit (gram_unit0 h d)

theorem gramInv_deriv (h : IsUnit (m.gram rho).det) (d : Fin s → ℝ) :
    MD (fun t => (m.gram (onLine rho d t))⁻¹) (-((m.gram rho)⁻¹ * m.dpen rho d * (m.gram rho)⁻¹)) := by
  have := (gram_deriv (m := m) rho d).inv (gram_unit0 h d)
  simpa only [onLine_zero] using this

theorem coef_deriv (h : IsUnit (m.gram rho).det) (d : Fin s → ℝ) :
    VD (fun t => m.coef (onLine rho d t)) (-((m.gram rho)⁻¹ *ᵥ (m.dpen rho d *ᵥ m.coef rho))) := by
  refine (VD.mulVec (gramInv_deriv h d) (VD.const (m.Xᵀ *ᵥ m.y))).congr ?_
  rw [Matrix.mulVec_zero, add_zero, Matrix.neg_mulVec, ← Matrix.mulVec_mulVec, ← Matrix.mulVec_mulVec]
  rfl

theorem dpen_mulVec (d : Fin s → ℝ) (b : Fin p → ℝ) : m.dpen rho d *ᵥ b = ∑ i, (d i * expv rho i) • (m.S i *ᵥ b) := by
  simp only [Gaus.dpen, Gaus.pen, Matrix.sum_mulVec, Matrix.smul_mulVec]

/-- The criterion: only the explicit dependence on the penalty counts. -/
theorem crit_deriv (h : m.Ok rho) (d : Fin s → ℝ) :
    HasDerivAt (fun t => m.y ⬝ᵥ m.y - m.coef (onLine rho d t) ⬝ᵥ (m.Xᵀ *ᵥ m.y))
      (∑ i, d i * (expv rho i * (m.coef rho ⬝ᵥ (m.S i *ᵥ m.coef rho)))) 0 := by
  have h1 := (dot_deriv (coef_deriv h.unit d) (VD.const (m.Xᵀ *ᵥ m.y))).const_sub (m.y ⬝ᵥ m.y)
  refine h1.congr_deriv ?_
  rw [dotProduct_zero, add_zero, neg_dotProduct, neg_neg, dotProduct_comm, dot_symm (gramInv_symm h.symm rho)]
  change (m.dpen rho d *ᵥ m.coef rho) ⬝ᵥ m.coef rho = _
  rw [dpen_mulVec, sum_dotProduct]
  refine Finset.sum_congr rfl fun i _ => ?_
  rw [smul_dotProduct, dotProduct_comm, smul_eq_mul, mul_assoc]

theorem trace_dpen (A : Matrix (Fin p) (Fin p) ℝ) (d : Fin s → ℝ) :
    (A * m.dpen rho d).trace = ∑ i, d i * (expv rho i * (A * m.S i).trace) := by
  simp only [Gaus.dpen, Gaus.pen, Matrix.mul_sum, Matrix.trace_sum, Matrix.mul_smul, Matrix.trace_smul, smul_eq_mul, mul_assoc]

/-! ### The criterion -/

/-- The criterion written out. -/
noncomputable def Gaus.remlV (m : Gaus n p s) (rho : Fin s → ℝ) (tau : ℝ) : ℝ :=
  ((m.y ⬝ᵥ m.y - m.coef rho ⬝ᵥ (m.Xᵀ *ᵥ m.y)) * Real.exp (-tau) + (Real.log |(m.gram rho).det| - p * tau)
    - ∑ i, (m.ranks i * (rho i - tau) + m.ldS i) + n * (Real.log (2 * Real.pi) + tau)) / 2

theorem reml_eq (h : IsUnit (m.gram rho).det) (tau : ℝ) : m.reml rho tau = some (m.remlV rho tau) := by
  have hd : Real.log |((1 / Real.exp tau) • (m.Xᵀ * m.X) + (1 / Real.exp tau) • m.pen (expv rho)).det| =
      Real.log |(m.gram rho).det| - p * tau := by
    rw [← smul_add, Matrix.det_smul, Fintype.card_fin, Real.log_abs, Real.log_abs]
    change Real.log ((1 / Real.exp tau) ^ p * (m.gram rho).det) = _
    rw [Real.log_mul (by positivity) h.ne_zero, Real.log_pow, one_div, Real.log_inv, Real.log_exp]
    ring
  have hl : m.logdetS (expv rho) (Real.exp tau) = ∑ i, (m.ranks i * (rho i - tau) + m.ldS i) := by
    refine Finset.sum_congr rfl fun i _ => ?_
    rw [expv, Real.log_div (Real.exp_ne_zero _) (Real.exp_ne_zero _), Real.log_exp, Real.log_exp]
  have hq := crit_eq h
  rw [Gaus.crit] at hq
  rw [Gaus.reml, beta_eq h]
  simp only [Option.bind_eq_bind, Option.bind_some]
  rw [hd, hl, hq, Gaus.remlV, Real.log_mul (by positivity) (Real.exp_ne_zero _), Real.log_exp, Real.exp_neg]
  congr 1
  rw [div_eq_mul_inv (m.y ⬝ᵥ m.y - _) (Real.exp tau)]
  ring

/-- The gradient written out. -/
theorem gradient_eq (h : IsUnit (m.gram rho).det) (tau : ℝ) : m.gradient rho tau = some
    (fun i => ((m.coef rho ⬝ᵥ (m.S i *ᵥ m.coef rho)) * expv rho i / Real.exp tau + ((m.gram rho)⁻¹ * m.S i).trace * expv rho i - m.ranks i) / 2,
      (-(m.y ⬝ᵥ m.y - m.coef rho ⬝ᵥ (m.Xᵀ *ᵥ m.y)) / Real.exp tau + n - m.mp) / 2) := by
  have hq := crit_eq h
  rw [Gaus.crit] at hq
  rw [Gaus.gradient, beta_eq h]
  simp only [Option.bind_eq_bind, Option.bind_some]
  rw [inv?_unit (by exact h)]
  simp only [Option.bind_some]
  rw [hq]
  rfl

/-- **C126** `gradient` is the gradient of `reml`: in any direction of the parameters its product with the
direction is the derivative. -/
theorem C126_gradient (h : m.Ok rho) (tau : ℝ) (d : Fin s → ℝ) (e : ℝ) : ∃ g, m.gradient rho tau = some g ∧
    HasDerivAt (fun t => (m.reml (onLine rho d t) (tau + t * e)).getD 0) (∑ i, g.1 i * d i + g.2 * e) 0 := by
  refine ⟨_, gradient_eq h.unit tau, ?_⟩
  have hev : (fun t => (m.reml (onLine rho d t) (tau + t * e)).getD 0) =ᶠ[nhds 0] fun t => m.remlV (onLine rho d t) (tau + t * e) :=
    (gram_units h.unit d).mono fun t ht => by simp only [reml_eq ht, Option.getD_some]
  refine HasDerivAt.congr_of_eventuallyEq ?_ hev
  have ht : HasDerivAt (fun t : ℝ => tau + t * e) e 0 := by
    simpa using ((hasDerivAt_id (0 : ℝ)).mul_const e).const_add tau
  have h1 := (crit_deriv h d).mul (ht.neg.exp)
  have h2 := (logdet_deriv (gram_deriv (m := m) rho d) (gram_unit0 h.unit d)).sub (ht.const_mul (p : ℝ))
  have h3 := HasDerivAt.fun_sum (u := Finset.univ) fun i (_ : i ∈ (Finset.univ : Finset (Fin s))) =>
    ((((((hasDerivAt_id (0 : ℝ)).mul_const (d i)).const_add (rho i)).sub ht).const_mul (m.ranks i)).add_const (m.ldS i))
  have h4 := (ht.const_add (Real.log (2 * Real.pi))).const_mul (n : ℝ)
  have h5 := (((h1.add h2).sub h3).add h4).div_const 2
  refine h5.congr_deriv ?_
  simp only [onLine_zero, zero_mul, add_zero, one_mul, trace_dpen, Gaus.mp, Real.exp_neg, Pi.neg_apply]
  have e1 : ∑ i, ((m.coef rho ⬝ᵥ (m.S i *ᵥ m.coef rho)) * expv rho i / Real.exp tau + ((m.gram rho)⁻¹ * m.S i).trace * expv rho i - m.ranks i) / 2 * d i =
      ((∑ i, d i * (expv rho i * (m.coef rho ⬝ᵥ (m.S i *ᵥ m.coef rho)))) * (Real.exp tau)⁻¹ +
        ∑ i, d i * (expv rho i * ((m.gram rho)⁻¹ * m.S i).trace) - ∑ i, m.ranks i * d i) / 2 := by
    rw [Finset.sum_mul, ← Finset.sum_add_distrib, ← Finset.sum_sub_distrib, Finset.sum_div]
    refine Finset.sum_congr rfl fun i _ => ?_
    rw [div_eq_mul_inv _ (Real.exp tau)]; ring
  have e2 : ∑ i, m.ranks i * (d i - e) = ∑ i, m.ranks i * d i - (∑ i, m.ranks i) * e := by
    rw [Finset.sum_mul, ← Finset.sum_sub_distrib]
    exact Finset.sum_congr rfl fun i _ => by ring
  rw [e1, e2, div_eq_mul_inv _ (Real.exp tau)]
  ring

/-! ### The second derivatives -/

theorem gradBeta_eq (h : IsUnit (m.gram rho).det) (b : Fin p → ℝ) :
    m.gradBeta b (expv rho) = some fun i => -(expv rho i • ((m.gram rho)⁻¹ *ᵥ (m.S i *ᵥ b))) := by
  have e : (2 : ℝ) • (m.Xᵀ * m.X) + (2 : ℝ) • m.pen (expv rho) = (2 : ℝ) • m.gram rho := by rw [Gaus.gram, smul_add]
  have hu : IsUnit ((2 : ℝ) • m.gram rho).det := by
    rw [Matrix.det_smul]
    exact (IsUnit.mk0 _ (by positivity)).mul h
  have hi : ((2 : ℝ) • m.gram rho)⁻¹ = (1 / 2 : ℝ) • (m.gram rho)⁻¹ := by
    refine Matrix.inv_eq_right_inv ?_
    rw [Matrix.smul_mul, Matrix.mul_smul, Matrix.mul_nonsing_inv _ h, smul_smul]
    norm_num
  rw [Gaus.gradBeta, e, inv?_unit hu, hi]
  simp only [Option.map_some]
  congr 1
  funext i
  rw [Matrix.smul_mulVec, smul_smul, smul_smul, ← neg_smul]
  congr 1
  ring

/-- **C126** `grad_beta_rho` is the derivative of the coefficients. -/
theorem C126_coef (h : IsUnit (m.gram rho).det) (d : Fin s → ℝ) : ∃ G, m.gradBeta (m.coef rho) (expv rho) = some G ∧
    VD (fun t => ((m.beta (expv (onLine rho d t))).getD 0)) (∑ i, d i • G i) := by
  refine ⟨_, gradBeta_eq h _, fun k => ?_⟩
  have hev : (fun t => ((m.beta (expv (onLine rho d t))).getD 0) k) =ᶠ[nhds 0] fun t => m.coef (onLine rho d t) k :=
    (gram_units h d).mono fun t ht => by simp only [beta_eq ht, Option.getD_some]
  refine HasDerivAt.congr_of_eventuallyEq ((coef_deriv h d k).congr_deriv ?_) hev
  refine congrFun ?_ k
  rw [dpen_mulVec, Matrix.mulVec_sum, ← Finset.sum_neg_distrib]
  refine Finset.sum_congr rfl fun i _ => ?_
  rw [Matrix.mulVec_smul, smul_neg, smul_smul]

/-- One entry of the second derivatives. -/
noncomputable def Gaus.hEntry (m : Gaus n p s) (rho : Fin s → ℝ) (tau : ℝ) (i j : Fin s) : ℝ :=
  (if i = j then (m.coef rho ⬝ᵥ (m.S i *ᵥ m.coef rho)) * expv rho i / (2 * Real.exp tau) else 0)
  - expv rho i * expv rho j / Real.exp tau * ((m.S i *ᵥ m.coef rho) ⬝ᵥ ((m.gram rho)⁻¹ *ᵥ (m.S j *ᵥ m.coef rho)))
  - expv rho i * expv rho j / 2 * ((m.gram rho)⁻¹ * m.S i * (m.gram rho)⁻¹ * m.S j).trace
  + (if i = j then expv rho i / 2 * ((m.gram rho)⁻¹ * m.S i).trace else 0)

theorem hEntry_comm (hs : ∀ i, (m.S i)ᵀ = m.S i) (tau : ℝ) (i j : Fin s) : m.hEntry rho tau i j = m.hEntry rho tau j i := by
  have h1 : ((m.gram rho)⁻¹ * m.S i * (m.gram rho)⁻¹ * m.S j).trace = ((m.gram rho)⁻¹ * m.S j * (m.gram rho)⁻¹ * m.S i).trace := by
    rw [Matrix.mul_assoc, Matrix.trace_mul_comm, ← Matrix.mul_assoc]
  rw [Gaus.hEntry, Gaus.hEntry, h1, dot_symm (gramInv_symm hs rho), mul_comm (expv rho i) (expv rho j)]
  by_cases hij : i = j
  · subst hij; rfl
  · simp only [if_neg hij, if_neg (Ne.symm hij)]

theorem hessian_eq (h : m.Ok rho) (tau : ℝ) : m.hessian rho tau = some (m.hEntry rho tau,
    fun j => -((m.coef rho ⬝ᵥ (m.S j *ᵥ m.coef rho)) * expv rho j / (2 * Real.exp tau)),
    (m.y ⬝ᵥ m.y - m.coef rho ⬝ᵥ (m.Xᵀ *ᵥ m.y)) / (Real.exp tau * 2)) := by
  have hq := crit_eq h.unit
  rw [Gaus.crit] at hq
  rw [Gaus.hessian, beta_eq h.unit]
  simp only [Option.bind_eq_bind, Option.bind_some]
  rw [inv?_unit (by exact h.unit)]
  simp only [Option.bind_some]
  rw [gradBeta_eq h.unit]
  simp only [Option.bind_some]
  rw [hq]
  change some (_, _, _) = _
  have key : ∀ i j : Fin s, (if i = j then (m.coef rho ⬝ᵥ (m.S i *ᵥ m.coef rho)) * expv rho i / (2 * Real.exp tau) else 0) +
      expv rho i / (2 * Real.exp tau) * (-(expv rho j • ((m.gram rho)⁻¹ *ᵥ (m.S j *ᵥ m.coef rho))) ⬝ᵥ (m.S i *ᵥ m.coef rho) +
        (m.S i *ᵥ m.coef rho) ⬝ᵥ -(expv rho j • ((m.gram rho)⁻¹ *ᵥ (m.S j *ᵥ m.coef rho)))) +
      -expv rho i * expv rho j / 2 * ((m.gram rho)⁻¹ * m.S i * (m.gram rho)⁻¹ * m.S j).trace +
      (if i = j then expv rho i / 2 * ((m.gram rho)⁻¹ * m.S i).trace else 0) = m.hEntry rho tau i j := by
    intro i j
    rw [dotProduct_comm (-(expv rho j • _)), dotProduct_neg, dotProduct_smul, smul_eq_mul, Gaus.hEntry]
    have := Real.exp_ne_zero tau
    field_simp
    ring
  congr 1
  refine Prod.ext ?_ (Prod.ext ?_ rfl)
  · funext i j
    by_cases hij : i ≤ j
    · exact (if_pos hij).trans (key i j)
    · exact (if_neg hij).trans ((key j i).trans (hEntry_comm h.symm tau j i))
  · funext j
    dsimp only
    rw [Finset.sum_eq_single j]
    · rw [if_pos le_rfl, if_pos rfl]
    · intro i _ hij
      rw [if_neg hij, neg_zero, ite_self]
    · intro hj; exact absurd (Finset.mem_univ j) hj

theorem htau (tau e : ℝ) : HasDerivAt (fun t : ℝ => Real.exp (-(tau + t * e))) (-(e * Real.exp (-tau))) 0 := by
  have ht : HasDerivAt (fun t : ℝ => -(tau + t * e)) (-e) 0 := by
    simpa using (((hasDerivAt_id (0 : ℝ)).mul_const e).const_add tau).fun_neg
  refine ht.exp.congr_deriv ?_
  rw [zero_mul, add_zero]; ring

/-- **C126** `hessian` is the Jacobian of `gradient`, in any direction of the parameters. -/
theorem C126_hessian (h : m.Ok rho) (tau : ℝ) (d : Fin s → ℝ) (e : ℝ) : ∃ H, m.hessian rho tau = some H ∧
    (∀ i, HasDerivAt (fun t => ((m.gradient (onLine rho d t) (tau + t * e)).getD (0, 0)).1 i) (∑ j, H.1 i j * d j + H.2.1 i * e) 0) ∧
    HasDerivAt (fun t => ((m.gradient (onLine rho d t) (tau + t * e)).getD (0, 0)).2) (∑ j, H.2.1 j * d j + H.2.2 * e) 0 := by
  refine ⟨_, hessian_eq h tau, ?_, ?_⟩
  · intro i
    have hev : (fun t => ((m.gradient (onLine rho d t) (tau + t * e)).getD (0, 0)).1 i) =ᶠ[nhds 0] fun t =>
        ((m.coef (onLine rho d t) ⬝ᵥ (m.S i *ᵥ m.coef (onLine rho d t))) * expv (onLine rho d t) i * Real.exp (-(tau + t * e)) +
          ((m.gram (onLine rho d t))⁻¹ * m.S i).trace * expv (onLine rho d t) i - m.ranks i) / 2 :=
      (gram_units h.unit d).mono fun t ht => by
        simp only [gradient_eq ht, Option.getD_some, Real.exp_neg, div_eq_mul_inv]
    refine HasDerivAt.congr_of_eventuallyEq ?_ hev
    have hb := coef_deriv h.unit d
    have h1 := dot_deriv hb (VD.mulVec (MD.const (m.S i)) hb)
    have h2 := trace_deriv ((gramInv_deriv h.unit d).mul (MD.const (m.S i)))
    have h3 := (((h1.mul (lam_deriv rho d i)).mul (htau tau e)).add (h2.mul (lam_deriv rho d i))).sub_const (m.ranks i)
    refine (h3.div_const 2).congr_deriv ?_
    simp only [onLine_zero, Pi.mul_apply, zero_mul, add_zero, Matrix.zero_mulVec, zero_add, Matrix.mul_zero]
    rw [dotProduct_comm (-_) (m.S i *ᵥ m.coef rho), dot_symm (h.symm i) (m.coef rho), dotProduct_comm (-_) (m.S i *ᵥ m.coef rho), dotProduct_neg, dpen_mulVec,
      Matrix.mulVec_sum, dotProduct_sum, Matrix.neg_mul, Matrix.trace_neg]
    have e1 : ((m.gram rho)⁻¹ * m.dpen rho d * (m.gram rho)⁻¹ * m.S i).trace =
        ∑ j, d j * (expv rho j * ((m.gram rho)⁻¹ * m.S i * (m.gram rho)⁻¹ * m.S j).trace) := by
      rw [← trace_dpen, Matrix.mul_assoc, Matrix.trace_mul_comm, ← Matrix.mul_assoc]
    have e2 : ∑ j, m.hEntry rho tau i j * d j = ((m.coef rho ⬝ᵥ (m.S i *ᵥ m.coef rho)) * expv rho i / (2 * Real.exp tau) + expv rho i / 2 * ((m.gram rho)⁻¹ * m.S i).trace) * d i
        - expv rho i / Real.exp tau * (∑ j, (m.S i *ᵥ m.coef rho) ⬝ᵥ ((m.gram rho)⁻¹ *ᵥ ((d j * expv rho j) • (m.S j *ᵥ m.coef rho))))
        - expv rho i / 2 * ∑ j, d j * (expv rho j * ((m.gram rho)⁻¹ * m.S i * (m.gram rho)⁻¹ * m.S j).trace) := by
      have : ∀ j, m.hEntry rho tau i j * d j = (if i = j then ((m.coef rho ⬝ᵥ (m.S i *ᵥ m.coef rho)) * expv rho i / (2 * Real.exp tau) + expv rho i / 2 * ((m.gram rho)⁻¹ * m.S i).trace) * d i else 0)
          - expv rho i / Real.exp tau * ((m.S i *ᵥ m.coef rho) ⬝ᵥ ((m.gram rho)⁻¹ *ᵥ ((d j * expv rho j) • (m.S j *ᵥ m.coef rho))))
          - expv rho i / 2 * (d j * (expv rho j * ((m.gram rho)⁻¹ * m.S i * (m.gram rho)⁻¹ * m.S j).trace)) := by
        intro j
        rw [Gaus.hEntry, Matrix.mulVec_smul, dotProduct_smul, smul_eq_mul]
        by_cases hij : i = j
        · subst hij; simp only [if_true]; ring
        · simp only [if_neg hij]; ring
      rw [Finset.sum_congr rfl fun j _ => this j, Finset.sum_sub_distrib, Finset.sum_sub_distrib, Finset.sum_ite_eq, if_pos (Finset.mem_univ _),
        ← Finset.mul_sum, ← Finset.mul_sum]
    rw [e1, e2, Real.exp_neg]
    have := Real.exp_ne_zero tau
    field_simp
    ring
  · have hev : (fun t => ((m.gradient (onLine rho d t) (tau + t * e)).getD (0, 0)).2) =ᶠ[nhds 0] fun t =>
        (-((m.y ⬝ᵥ m.y - m.coef (onLine rho d t) ⬝ᵥ (m.Xᵀ *ᵥ m.y)) * Real.exp (-(tau + t * e))) + n - m.mp) / 2 :=
      (gram_units h.unit d).mono fun t ht => by
        simp only [gradient_eq ht, Option.getD_some, Real.exp_neg, div_eq_mul_inv, neg_mul]
    refine HasDerivAt.congr_of_eventuallyEq ?_ hev
    have h1 := ((((crit_deriv h d).mul (htau tau e)).neg.add_const (n : ℝ)).sub_const m.mp).div_const 2
    refine h1.congr_deriv ?_
    simp only [onLine_zero, zero_mul, add_zero]
    have e1 : ∑ j, -((m.coef rho ⬝ᵥ (m.S j *ᵥ m.coef rho)) * expv rho j / (2 * Real.exp tau)) * d j =
        -((∑ j, d j * (expv rho j * (m.coef rho ⬝ᵥ (m.S j *ᵥ m.coef rho)))) * (Real.exp tau)⁻¹) / 2 := by
      rw [Finset.sum_mul, ← Finset.sum_neg_distrib, Finset.sum_div]
      refine Finset.sum_congr rfl fun j _ => ?_
      have := Real.exp_ne_zero tau
      field_simp
    rw [e1, Real.exp_neg]
    have := Real.exp_ne_zero tau
    field_simp
    ring

/-- **C126** The matrix returned by `hessian` is symmetric. -/
theorem C126_symmetric (h : m.Ok rho) (tau : ℝ) : ∃ H, m.hessian rho tau = some H ∧ ∀ i j, H.1 i j = H.1 j i :=
  ⟨_, hessian_eq h tau, hEntry_comm h.symm tau⟩

/-! ### Positive semidefinite penalties -/

theorem psd_symm {A : Matrix (Fin p) (Fin p) ℝ} (hA : A.PosSemidef) : Aᵀ = A := by
  have := hA.1.eq
  rwa [Matrix.conjTranspose_eq_transpose_of_trivial] at this

theorem pen_dot (lam : Fin s → ℝ) (v : Fin p → ℝ) : v ⬝ᵥ (m.pen lam *ᵥ v) = ∑ i, lam i * (v ⬝ᵥ (m.S i *ᵥ v)) := by
  simp only [Gaus.pen, Matrix.sum_mulVec, Matrix.smul_mulVec, dotProduct_sum, dotProduct_smul, smul_eq_mul]

theorem psd_dot {A : Matrix (Fin p) (Fin p) ℝ} (hA : A.PosSemidef) (v : Fin p → ℝ) : 0 ≤ v ⬝ᵥ (A *ᵥ v) := by
  simpa using hA.dotProduct_mulVec_nonneg v

theorem pen_psd (hS : ∀ i, (m.S i).PosSemidef) (rho : Fin s → ℝ) : (m.pen (expv rho)).PosSemidef := by
  refine Matrix.PosSemidef.of_dotProduct_mulVec_nonneg ?_ fun v => ?_
  · rw [Matrix.IsHermitian, Matrix.conjTranspose_eq_transpose_of_trivial]
    exact pen_symm (fun i => psd_symm (hS i)) _
  · rw [star_trivial, pen_dot]
    exact Finset.sum_nonneg fun i _ => mul_nonneg (Real.exp_pos _).le (psd_dot (hS i) v)

/-- **C126** When the penalties are positive semidefinite and together with the data see every direction, all of
the functions are defined for all smoothing parameters. -/
theorem C126_defined (hS : ∀ i, (m.S i).PosSemidef) (hi : ∀ v, m.X *ᵥ v = 0 → (∀ i, m.S i *ᵥ v = 0) → v = 0) (rho : Fin s → ℝ) : m.Ok rho := by
  refine ⟨fun i => psd_symm (hS i), ?_⟩
  have hid : Ident m.X (m.pen (expv rho)) := by
    intro v h1 h2
    refine hi v h1 fun i => psd_zero (hS i) ?_
    have h3 : ∑ i, expv rho i * (v ⬝ᵥ (m.S i *ᵥ v)) = 0 := by rw [← pen_dot, h2, dotProduct_zero]
    have h4 := (Finset.sum_eq_zero_iff_of_nonneg fun i _ => mul_nonneg (Real.exp_pos _).le (psd_dot (hS i) v)).1 h3 i (Finset.mem_univ i)
    exact (mul_eq_zero.1 h4).resolve_left (Real.exp_ne_zero _)
  have := gram_posDef (pen_psd hS rho) hid one_pos
  rw [one_smul] at this
  exact (Matrix.isUnit_iff_isUnit_det _).1 this.isUnit

theorem crit_diff (h : m.Ok rho) (b : Fin p → ℝ) :
    m.crit (expv rho) b = m.crit (expv rho) (m.coef rho) + (b - m.coef rho) ⬝ᵥ (m.gram rho *ᵥ (b - m.coef rho)) := by
  have hn := normal_eq h.unit
  have e1 : m.crit (expv rho) b = m.y ⬝ᵥ m.y - 2 * (b ⬝ᵥ (m.Xᵀ *ᵥ m.y)) + b ⬝ᵥ (m.gram rho *ᵥ b) := by
    have h2 : (m.X *ᵥ b) ⬝ᵥ m.y = b ⬝ᵥ (m.Xᵀ *ᵥ m.y) := by rw [Matrix.dotProduct_mulVec, Matrix.vecMul_transpose]
    rw [Gaus.crit, sub_dotProduct, dotProduct_sub, dotProduct_sub, dotProduct_comm m.y (m.X *ᵥ b), h2, Gaus.gram, Matrix.add_mulVec, dotProduct_add, gram_dot]
    ring
  rw [e1, crit_eq h.unit, Matrix.mulVec_sub, hn, dotProduct_sub, sub_dotProduct, sub_dotProduct, dot_symm (gram_symm h.symm rho) (m.coef rho) b, hn]
  ring

/-- **C126** The coefficients minimise the penalised sum of squares. -/
theorem C126_minimum (hS : ∀ i, (m.S i).PosSemidef) (h : IsUnit (m.gram rho).det) (b : Fin p → ℝ) :
    ∃ c, m.beta (expv rho) = some c ∧ m.crit (expv rho) c ≤ m.crit (expv rho) b := by
  refine ⟨_, beta_eq h, ?_⟩
  have hk : m.Ok rho := ⟨fun i => psd_symm (hS i), h⟩
  rw [crit_diff hk b, Gaus.gram, Matrix.add_mulVec, dotProduct_add, gram_dot]
  have h1 : 0 ≤ (m.X *ᵥ (b - m.coef rho)) ⬝ᵥ (m.X *ᵥ (b - m.coef rho)) := Finset.sum_nonneg fun i _ => mul_self_nonneg _
  have h2 := psd_dot (pen_psd hS rho) (b - m.coef rho)
  linarith

/-! ### `pirls` -/

theorem loop_zero (b : Fin p → ℝ) (tol : ℝ) (hd : m.dev b = 0) : ∀ k, m.pirlsLoop tol b k b (m.dev b) = (b, m.dev b, false)
  | 0 => rfl
  | k + 1 => by rw [Gaus.pirlsLoop, if_neg (lt_irrefl _), if_neg fun h => h.1 hd, loop_zero b tol hd k]

/-- The deviance of the solution is at most that of the start. -/
theorem dev_le (hS : ∀ i, (m.S i).PosSemidef) (h : IsUnit (m.gram rho).det) : m.dev (m.coef rho) ≤ m.dev 0 := by
  obtain ⟨c, hc, hle⟩ := C126_minimum hS h 0
  rw [beta_eq h] at hc
  obtain rfl := Option.some.inj hc
  have h2 := psd_dot (pen_psd hS rho) (m.coef rho)
  simp only [Gaus.crit, Matrix.mulVec_zero, dotProduct_zero, add_zero] at hle
  simp only [Gaus.dev, Matrix.mulVec_zero]
  linarith

/-- **C126** Unless the first step already changes the deviance by less than the tolerance, `pirls` returns the
penalised least squares coefficients; it says so unless the fit is perfect. -/
theorem C126_pirls_partial (hS : ∀ i, (m.S i).PosSemidef) (h : IsUnit (m.gram rho).det) {tol : ℝ} (ht : 0 < tol) {N : ℕ} (hN : 2 ≤ N)
    (hf : ¬ (m.dev (m.coef rho) ≠ 0 ∧ |m.dev 0 - m.dev (m.coef rho)| / m.dev (m.coef rho) < tol)) :
    ∃ ok, m.pirls (expv rho) N tol = some (m.coef rho, m.dev (m.coef rho), ok) ∧ (ok = true ↔ m.dev (m.coef rho) ≠ 0) := by
  obtain ⟨k, rfl⟩ : ∃ k, N = k + 2 := ⟨N - 2, by omega⟩
  have h1 : m.pirlsLoop tol (m.coef rho) (k + 2) 0 (m.dev 0) = m.pirlsLoop tol (m.coef rho) (k + 1) (m.coef rho) (m.dev (m.coef rho)) := by
    rw [Gaus.pirlsLoop, if_neg (not_lt.2 (dev_le hS h)), if_neg hf]
  rw [Gaus.pirls, beta_eq h, Option.map_some, h1]
  by_cases hd : m.dev (m.coef rho) = 0
  · exact ⟨false, by rw [loop_zero _ _ hd], by simp [hd]⟩
  · refine ⟨true, ?_, by simp [hd]⟩
    rw [Gaus.pirlsLoop, if_neg (lt_irrefl _), if_pos ⟨hd, by rw [sub_self, abs_zero, zero_div]; exact ht⟩]

/-- A response with little to explain. -/
noncomputable def tiny : Gaus 2 1 1 where
  X := !![1; 0]
  y := ![1 / 10000, 1]
  S := fun _ => 1
  ranks := fun _ => 1
  ldS := fun _ => 0

theorem tiny_gram : tiny.gram (fun _ => 0) = !![2] := by
  ext i j
  have hi : i = 0 := Subsingleton.elim _ _
  have hj : j = 0 := Subsingleton.elim _ _
  subst hi hj
  simp [Gaus.gram, Gaus.pen, tiny, expv, Matrix.mul_apply, Fin.sum_univ_two]
  norm_num

theorem tiny_coef : tiny.coef (fun _ => 0) = ![1 / 20000] := by
  have hu : IsUnit (tiny.gram fun _ => 0).det := by rw [tiny_gram]; simp
  have h := normal_eq hu
  rw [tiny_gram] at h
  have h0 := congrFun h 0
  simp [Matrix.mulVec, dotProduct, tiny, Fin.sum_univ_two] at h0
  funext i
  have hi : i = 0 := Subsingleton.elim _ _
  subst hi
  simp only [Matrix.cons_val_zero]
  have h0' : 2 * tiny.coef (fun _ => 0) 0 = 1 / 10000 := by simpa [tiny] using h0
  linarith

/-- **C126** When the first step changes the deviance by less than the tolerance, `pirls` returns zero and reports
success, although the coefficients are not zero. -/
theorem C126_pirls_violated : ∃ d, tiny.pirls (expv fun _ => 0) 200 (1 / 10 ^ 7) = some (0, d, true) ∧ tiny.beta (expv fun _ => 0) = some ![1 / 20000] := by
  have hu : IsUnit (tiny.gram fun _ => 0).det := by rw [tiny_gram]; simp
  have hb : tiny.beta (expv fun _ => 0) = some ![1 / 20000] := by rw [beta_eq hu, tiny_coef]
  refine ⟨tiny.dev 0, ?_, hb⟩
  have h0 : tiny.dev 0 = 1 + 1 / 10 ^ 8 := by
    simp only [Gaus.dev, tiny, Matrix.mulVec_zero, sub_zero, dotProduct, Fin.sum_univ_two, Matrix.cons_val_zero, Matrix.cons_val_one]
    norm_num
  have h1 : tiny.dev ![1 / 20000] = 1 + 1 / (4 * 10 ^ 8) := by
    simp [Gaus.dev, tiny, Matrix.mulVec, dotProduct, Fin.sum_univ_two]
    norm_num
  rw [Gaus.pirls, hb, Option.map_some, Gaus.pirlsLoop, if_neg, if_pos]
  · rw [h0, h1]
    norm_num
  · rw [h0, h1]; norm_num

/-! ### Covariances and degrees of freedom -/

/-- **C126** `Vb` is the scale times the inverse of the penalised Gram matrix. -/
theorem C126_covariance (h : IsUnit (m.gram rho).det) (scale : ℝ) : m.covB (expv rho) scale = some (scale • (m.gram rho)⁻¹) := by
  rw [Gaus.covB, inv?_unit (by exact h)]; rfl

/-- The covariance of the coefficients `(K⁻¹ X') y` for errors of variance `scale`. -/
noncomputable def Gaus.sampCov (m : Gaus n p s) (rho : Fin s → ℝ) (scale : ℝ) : Matrix (Fin p) (Fin p) ℝ :=
  ((m.gram rho)⁻¹ * m.Xᵀ) * (scale • (1 : Matrix (Fin n) (Fin n) ℝ)) * ((m.gram rho)⁻¹ * m.Xᵀ)ᵀ

theorem covF_eq (hs : ∀ i, (m.S i)ᵀ = m.S i) (scale : ℝ) :
    m.covF (scale • (m.gram rho)⁻¹) scale = scale ^ 2 • m.sampCov rho scale := by
  rw [Gaus.covF, Gaus.sampCov, Matrix.transpose_mul, Matrix.transpose_transpose, gramInv_symm hs]
  simp only [Matrix.smul_mul, Matrix.mul_smul, Matrix.mul_one, smul_smul, Matrix.mul_assoc]
  congr 1
  ring

/-- **C126** The first term of `Vf` is the sampling covariance of the coefficients when the scale is one. -/
theorem C126_frequentist_partial (hs : ∀ i, (m.S i)ᵀ = m.S i) : m.covF ((1 : ℝ) • (m.gram rho)⁻¹) 1 = m.sampCov rho 1 := by
  rw [covF_eq hs, one_pow, one_smul]

/-- **C126** For another scale it is off by the square of the scale. -/
theorem C126_frequentist_violated (hs : ∀ i, (m.S i)ᵀ = m.S i) {scale : ℝ} (h0 : 0 < scale) (h1 : scale ≠ 1) (hv : m.sampCov rho scale ≠ 0) :
    m.covF (scale • (m.gram rho)⁻¹) scale ≠ m.sampCov rho scale := by
  rw [covF_eq hs]
  intro h
  have h2 : (scale ^ 2 - 1) • m.sampCov rho scale = 0 := by rw [sub_smul, h, one_smul, sub_self]
  rcases smul_eq_zero.1 h2 with h3 | h3
  · exact h1 (by nlinarith [sq_nonneg (scale - 1)])
  · exact hv h3

/-- **C126** `edf` is not the trace of the hat matrix: here it is two, and the hat matrix has trace one half. -/
theorem C126_edf_violated : ((tiny.covB (expv fun _ => 0) 1).bind fun V => tiny.edf V 1) = some 2 ∧
    (tiny.X * (tiny.gram fun _ => 0)⁻¹ * tiny.Xᵀ).trace = 1 / 2 := by
  have hu : IsUnit (tiny.gram fun _ => 0).det := by rw [tiny_gram]; simp
  have hi : (tiny.gram fun _ => 0)⁻¹ = !![1 / 2] := by
    refine Matrix.inv_eq_right_inv ?_
    rw [tiny_gram]
    ext i j
    have hi : i = 0 := Subsingleton.elim _ _
    have hj : j = 0 := Subsingleton.elim _ _
    subst hi hj
    simp
  have hx : tiny.Xᵀ * tiny.X = !![1] := by
    ext i j
    have hi : i = 0 := Subsingleton.elim _ _
    have hj : j = 0 := Subsingleton.elim _ _
    subst hi hj
    simp [tiny, Matrix.mul_apply, Fin.sum_univ_two]
  constructor
  · rw [C126_covariance hu, Option.bind_some, hi, Gaus.edf, hx]
    have e : (fun i j : Fin 1 => ((1 : ℝ) • !![(1 / 2 : ℝ)]) i j * (!![(1 : ℝ)] : Matrix (Fin 1) (Fin 1) ℝ) i j / 1) = !![1 / 2] := by
      funext i j
      have hi : i = 0 := Subsingleton.elim _ _
      have hj : j = 0 := Subsingleton.elim _ _
      subst hi hj
      simp
    have hv : (!![1 / 2] : Matrix (Fin 1) (Fin 1) ℝ)⁻¹ = !![2] := by
      refine Matrix.inv_eq_right_inv ?_
      ext i j
      have hi : i = 0 := Subsingleton.elim _ _
      have hj : j = 0 := Subsingleton.elim _ _
      subst hi hj
      simp
    rw [e, inv?_unit (by simp), hv]
    simp
  · rw [hi, Matrix.trace_mul_comm, ← Matrix.mul_assoc, hx]
    simp [Matrix.trace]

/-- The hypotheses hold for a penalty that is positive definite. -/
example : tiny.Ok fun _ => 0 := C126_defined (fun _ => Matrix.PosSemidef.one) (fun v _ h => by simpa [tiny] using h 0) _

end Verif.Gam
