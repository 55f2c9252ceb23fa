import Verif.Gam.GamThirdProps

namespace Verif.Gam
open Matrix Verif.Fa Verif.Calc

variable {n p s : ℕ} {m : Add n p s} {rho d : Fin s → ℝ} {beta : ℝ → Fin p → ℝ}

/-! ### First derivatives of the criterion -/

/-- The scale functions are derivatives of one another. -/
structure ScaleOk (sc : Scale) (phi : ℝ) : Prop where
  d1 : HasDerivAt sc.ll (sc.d1 phi) phi
  d2 : HasDerivAt sc.d1 (sc.d2 phi) phi

/-- The derivative of the penalised second derivative in one parameter. -/
noncomputable def Add.Mi (m : Add n p s) (b : Fin p → ℝ) (rho : Fin s → ℝ) (i : Fin s) : Matrix (Fin p) (Fin p) ℝ :=
  m.cross (fun k => m.w1 b k * (m.X *ᵥ m.B1 b rho i) k) + expv rho i • m.S i

/-- `q = np.sum((X A) * X, axis=1)`. -/
noncomputable def Add.q (m : Add n p s) (b : Fin p → ℝ) (rho : Fin s → ℝ) (k : Fin n) : ℝ := ∑ j, (m.X * m.A b rho) k j * m.X k j

theorem trace_cross (b : Fin p → ℝ) (v : Fin n → ℝ) : (m.A b rho * m.cross v).trace = ∑ k, v k * m.q b rho k := by
  rw [Add.cross, ← Matrix.mul_assoc, Matrix.trace_mul_comm, ← Matrix.mul_assoc, ← Matrix.mul_assoc]
  simp only [Matrix.trace, Matrix.diag, Matrix.mul_diagonal, Add.q]
  refine Finset.sum_congr rfl fun k _ => ?_
  rw [mul_comm, Matrix.mul_apply]
  rfl

theorem trace_S (A S : Matrix (Fin p) (Fin p) ℝ) : ∑ k, ∑ j, A k j * S j k = (A * S).trace := by
  simp only [Matrix.trace, Matrix.diag, Matrix.mul_apply]

theorem cross_sum (v : Fin s → Fin n → ℝ) : m.cross (fun k => ∑ i, d i * v i k) = ∑ i, d i • m.cross (v i) := by
  ext a b
  simp only [Add.cross, Matrix.mul_apply (N := m.X), Matrix.mul_diagonal, Matrix.transpose_apply, Matrix.sum_apply, Matrix.smul_apply, smul_eq_mul, Finset.mul_sum, Finset.sum_mul]
  rw [Finset.sum_comm]
  exact Finset.sum_congr rfl fun i _ => Finset.sum_congr rfl fun k _ => by ring

theorem Md_eq (b : Fin p → ℝ) : m.Md b rho d = ∑ i, d i • m.Mi b rho i := by
  have e : (fun k => m.w1 b k * (m.X *ᵥ m.Bd b rho d) k) = fun k => ∑ i, d i * (m.w1 b k * (m.X *ᵥ m.B1 b rho i) k) := by
    funext k
    rw [X_Bd, Finset.mul_sum]
    exact Finset.sum_congr rfl fun i _ => by ring
  rw [Add.Md, e, cross_sum, Add.pen, ← Finset.sum_add_distrib]
  exact Finset.sum_congr rfl fun i _ => by rw [Add.Mi, smul_add, smul_smul]

theorem trace_Mi (b : Fin p → ℝ) (i : Fin s) : (m.A b rho * m.Mi b rho i).trace =
    expv rho i * (∑ k, ∑ j, m.A b rho k j * m.S i j k) + (m.X *ᵥ m.B1 b rho i) ⬝ᵥ fun k => m.w1 b k * m.q b rho k := by
  rw [Add.Mi, Matrix.mul_add, Matrix.trace_add, trace_cross, Matrix.mul_smul, Matrix.trace_smul, trace_S, smul_eq_mul, add_comm]
  congr 1
  exact Finset.sum_congr rfl fun k _ => by ring

/-- The gradient in closed form. -/
noncomputable def Add.gI (m : Add n p s) (b : Fin p → ℝ) (rho : Fin s → ℝ) (tau : ℝ) (i : Fin s) : ℝ :=
  (b ⬝ᵥ (m.S i *ᵥ b) * expv rho i / Real.exp tau + (m.A b rho * m.Mi b rho i).trace - m.ranks i) / 2

noncomputable def Add.gL (m : Add n p s) (b : Fin p → ℝ) (rho : Fin s → ℝ) (tau : ℝ) : ℝ :=
  (-m.penDev (m.pen (expv rho)) b / Real.exp tau + m.sc.d1 (Real.exp tau) * 2 * Real.exp tau - m.mp) / 2

theorem gradient_some {b : Fin p → ℝ} (h : IsUnit (m.hessDev b (m.pen (expv rho))).det) (tau : ℝ) :
    m.gradient b rho tau = some (m.gI b rho tau, m.gL b rho tau) := by
  have h1 : inv? (m.hessDev b (m.pen fun i => Real.exp (rho i))) = some (m.A b rho) := inv?_unit h
  have h2 : m.gradBeta b (fun i => Real.exp (rho i)) = some (m.B1 b rho) := gradBeta_some h
  simp only [Add.gradient, h1, h2, Option.bind_eq_bind, Option.bind_some]
  congr 2
  funext i
  rw [Add.gI, trace_Mi, ← add_assoc]
  rfl

theorem dev_deriv (h : Branch m rho d beta) :
    HasDerivAt (fun t => m.penDev (m.penL rho d t) (beta t)) (∑ i, d i * (expv rho i * (beta 0 ⬝ᵥ (m.S i *ᵥ beta 0)))) 0 := by
  have h1 := HasDerivAt.fun_sum (u := Finset.univ) fun k (_ : k ∈ (Finset.univ : Finset (Fin n))) =>
    HasDerivAt.comp (h₂ := fun e => m.f.dev (m.y k) (m.f.invLink e)) (h := fun t => (m.X *ᵥ beta t) k) (0 : ℝ) (h.fam k).dev_eta (eta_deriv h k)
  have h2 := dot_deriv (branch_deriv h) (VD.mulVec (penL_deriv (m := m) (rho := rho) (d := d)) (branch_deriv h))
  refine (h1.add h2).congr_deriv ?_
  have hst := h.stat.self_of_nhds
  rw [penL_zero] at hst
  obtain ⟨B, hB⟩ : ∃ B, B = m.Bd (beta 0) rho d := ⟨_, rfl⟩
  have e1 : ∑ k, -2 * m.f.gw (m.y k) (m.f.invLink ((m.X *ᵥ beta 0) k)) * (m.X *ᵥ B) k =
      -2 * (B ⬝ᵥ (m.Xᵀ *ᵥ fun k => m.f.gw (m.y k) (m.mu (beta 0) k))) := by
    rw [Matrix.mulVec_transpose, dotProduct_comm, ← Matrix.dotProduct_mulVec, dotProduct, Finset.mul_sum]
    exact Finset.sum_congr rfl fun k _ => by rw [Add.mu]; ring
  have e2 : m.Xᵀ *ᵥ (fun k => m.f.gw (m.y k) (m.mu (beta 0) k)) = m.pen (expv rho) *ᵥ beta 0 := neg_add_eq_zero.1 hst
  have e3 : beta 0 ⬝ᵥ (m.pen (expv rho) *ᵥ B) = B ⬝ᵥ (m.pen (expv rho) *ᵥ beta 0) := dot_symm (Add.pen_symm h.symm _) _ _
  have e4 : beta 0 ⬝ᵥ (m.pen (fun i => d i * expv rho i) *ᵥ beta 0) = ∑ i, d i * (expv rho i * (beta 0 ⬝ᵥ (m.S i *ᵥ beta 0))) := by
    rw [Add.pen_mulVec, dotProduct_sum]
    exact Finset.sum_congr rfl fun i _ => by rw [dotProduct_smul, smul_eq_mul, mul_assoc]
  rw [← hB, e1, e2, dotProduct_add, penL_zero, e3, e4]
  ring

theorem logdet_scaled (M : Matrix (Fin p) (Fin p) ℝ) (h : IsUnit M.det) (tau : ℝ) :
    Real.log |((1 / Real.exp tau) • M).det| = Real.log |M.det| - p * tau := by
  rw [Matrix.det_smul, Fintype.card_fin, abs_mul, Real.log_mul, abs_of_pos (by positivity), Real.log_pow, Real.log_div one_ne_zero (Real.exp_ne_zero _),
    Real.log_one, Real.log_exp]
  · ring
  · exact abs_ne_zero.2 (by positivity)
  · exact abs_ne_zero.2 h.ne_zero

/-- **C127** `gradient` is the derivative of `reml` along any line of smoothing parameters and log scale, the
coefficients following a continuous branch of stationary points. -/
theorem C127_gradient (h : Branch m rho d beta) {tau : ℝ} (hs : ScaleOk m.sc (Real.exp tau)) (e : ℝ) : ∃ g, m.gradient (beta 0) rho tau = some g ∧
    HasDerivAt (fun t => m.reml (beta t) (onLine rho d t) (tau + t * e)) (∑ i, g.1 i * d i + g.2 * e) 0 := by
  refine ⟨_, gradient_some h.unit tau, ?_⟩
  have ht : HasDerivAt (fun t : ℝ => tau + t * e) e 0 := by
    simpa using ((hasDerivAt_id (0 : ℝ)).mul_const e).const_add tau
  have hev : (fun t => m.reml (beta t) (onLine rho d t) (tau + t * e)) =ᶠ[nhds 0] fun t =>
      (m.penDev (m.penL rho d t) (beta t) * Real.exp (-(tau + t * e)) + ((Real.log |(m.hessDev (beta t) (m.penL rho d t)).det| - p * (tau + t * e))
        - (∑ i, m.ranks i * ((rho i + id t * d i) - (tau + t * e)) + ∑ i, m.ldS i)) + m.sc.ll (Real.exp (tau + t * e)) * 2) / 2 := by
    refine (units h).mono fun t hu => ?_
    have e1 := logdet_scaled _ hu (tau + t * e)
    have e2 : m.logdetS (expv (onLine rho d t)) (Real.exp (tau + t * e)) = ∑ i, m.ranks i * ((rho i + id t * d i) - (tau + t * e)) + ∑ i, m.ldS i := by
      simp only [Add.logdetS, expv, Real.log_exp, onLine, id]
    beta_reduce
    rw [Real.exp_neg, ← div_eq_mul_inv, ← e2, Add.penL, ← e1]
    rfl
  refine HasDerivAt.congr_of_eventuallyEq ?_ hev
  have h1 := (dev_deriv h).mul (htau tau e)
  have h2 := (logdet_deriv (hessDev_deriv h) (unit0 h)).sub (ht.const_mul (p : ℝ))
  have h3 := (HasDerivAt.fun_sum (u := Finset.univ) fun i (_ : i ∈ (Finset.univ : Finset (Fin s))) =>
    ((((hasDerivAt_id (0 : ℝ)).mul_const (d i)).const_add (rho i)).sub ht).const_mul (m.ranks i)).add_const (∑ i, m.ldS i)
  have hs1 : HasDerivAt m.sc.ll (m.sc.d1 (Real.exp tau)) (Real.exp (tau + 0 * e)) := by rw [zero_mul, add_zero]; exact hs.d1
  have h4 := (HasDerivAt.comp (h := fun t : ℝ => Real.exp (tau + t * e)) (0 : ℝ) hs1 ht.exp).mul_const 2
  have h5 := ((h1.add (h2.sub h3)).add h4).div_const 2
  refine h5.congr_deriv ?_
  simp only [zero_mul, add_zero, one_mul]
  have e1 : ∑ i, m.gI (beta 0) rho tau i * d i =
      ((∑ i, d i * (expv rho i * (beta 0 ⬝ᵥ (m.S i *ᵥ beta 0)))) * Real.exp (-tau) + (m.A (beta 0) rho * m.Md (beta 0) rho d).trace - ∑ i, m.ranks i * d i) / 2 := by
    rw [Md_eq, Matrix.mul_sum, Matrix.trace_sum, Finset.sum_mul, ← Finset.sum_add_distrib, ← Finset.sum_sub_distrib, Finset.sum_div]
    refine Finset.sum_congr rfl fun i _ => ?_
    rw [Add.gI, Matrix.mul_smul, Matrix.trace_smul, smul_eq_mul, Real.exp_neg, div_eq_mul_inv _ (Real.exp tau)]
    ring
  have e2 : ∑ i, m.ranks i * (d i - e) = ∑ i, m.ranks i * d i - (∑ i, m.ranks i) * e := by
    rw [Finset.sum_mul, ← Finset.sum_sub_distrib]
    exact Finset.sum_congr rfl fun i _ => by ring
  have e3 : (m.hessDev (beta 0) (m.penL rho d 0))⁻¹ = m.A (beta 0) rho := by rw [penL_zero]; rfl
  rw [e1, e2, e3, Add.gL, Add.mp, penL_zero, Real.exp_neg, div_eq_mul_inv _ (Real.exp tau)]
  ring

/-! ### Second derivatives of the criterion -/

/-- The derivative of `Mi`. -/
noncomputable def Add.Mid (m : Add n p s) (b : Fin p → ℝ) (rho d : Fin s → ℝ) (i : Fin s) : Matrix (Fin p) (Fin p) ℝ :=
  m.cross (fun k => m.w2 b k * (m.X *ᵥ m.Bd b rho d) k * (m.X *ᵥ m.B1 b rho i) k + m.w1 b k * (m.X *ᵥ m.B2d b rho d i) k) + (d i * expv rho i) • m.S i

theorem Mi_deriv (h : Branch m rho d beta) (i : Fin s) : MD (fun t => m.Mi (beta t) (onLine rho d t) i) (m.Mid (beta 0) rho d i) := by
  have h1 : VD (fun t k => m.w1 (beta t) k * (m.X *ᵥ m.B1 (beta t) (onLine rho d t) i) k) fun k =>
      m.w2 (beta 0) k * (m.X *ᵥ m.Bd (beta 0) rho d) k * (m.X *ᵥ m.B1 (beta 0) rho i) k + m.w1 (beta 0) k * (m.X *ᵥ m.B2d (beta 0) rho d i) k := by
    intro k
    refine ((w1_deriv h k).mul (const_VD m.X (B1_deriv h i) k)).congr_deriv ?_
    simp only [onLine_zero]
  have h2 : MD (fun t => expv (onLine rho d t) i • m.S i) ((d i * expv rho i) • m.S i) := fun a b => (lam_deriv rho d i).mul_const (m.S i a b)
  exact (cross_deriv h1).add h2

/-- An entry of the second derivatives in closed form. -/
noncomputable def Add.H2 (m : Add n p s) (b : Fin p → ℝ) (rho : Fin s → ℝ) (tau : ℝ) (i j : Fin s) : ℝ :=
  (-((m.A b rho * m.Mi b rho i * (m.A b rho * m.Mi b rho j)).trace
      - ((∑ k, (m.w2 b k * (m.X *ᵥ m.B1 b rho j) k * (m.X *ᵥ m.B1 b rho i) k + m.w1 b k * (m.X *ᵥ m.B2 b rho i j) k) * m.q b rho k)
        + if i = j then expv rho i * (m.A b rho * m.S i).trace else 0))) / 2
    + expv rho i * (m.B1 b rho j ⬝ᵥ (m.S i *ᵥ b)) / Real.exp tau
    + if i = j then expv rho i * (b ⬝ᵥ (m.S i *ᵥ b)) / (2 * Real.exp tau) else 0

theorem hessian_some {b : Fin p → ℝ} (h : IsUnit (m.hessDev b (m.pen (expv rho))).det) (tau : ℝ) (hd : (m.hessDev b (m.pen (expv rho)))ᵀ = m.hessDev b (m.pen (expv rho))) :
    m.hessian b rho tau = some (m.H2 b rho tau, fun i => -(b ⬝ᵥ (m.S i *ᵥ b)) * expv rho i / (2 * Real.exp tau),
      m.penDev (m.pen (expv rho)) b / (2 * Real.exp tau) + m.sc.d1 (Real.exp tau) * Real.exp tau + m.sc.d2 (Real.exp tau) * Real.exp tau ^ 2) := by
  have h1 : inv? (m.hessDev b (m.pen fun i => Real.exp (rho i))) = some (m.A b rho) := inv?_unit h
  have h2 : m.gradBeta b (fun i => Real.exp (rho i)) = some (m.B1 b rho) := gradBeta_some h
  have h3 : m.hessBeta b (fun i => Real.exp (rho i)) = some (m.B2 b rho) := hessBeta_some h
  simp only [Add.hessian, h1, h2, h3, Option.bind_eq_bind, Option.bind_some]
  congr 2
  funext i j
  have e1 : m.B1 b rho i ⬝ᵥ (m.hessDev b (m.pen fun i => Real.exp (rho i)) *ᵥ m.B1 b rho j) = -(expv rho i * (m.B1 b rho j ⬝ᵥ (m.S i *ᵥ b))) := by
    have : m.hessDev b (m.pen (expv rho)) *ᵥ m.B1 b rho i = (-expv rho i) • (m.S i *ᵥ b) := by
      rw [Add.B1, Matrix.mulVec_smul, Matrix.mulVec_mulVec, Add.A, Matrix.mul_nonsing_inv _ h, Matrix.one_mulVec]
    change m.B1 b rho i ⬝ᵥ (m.hessDev b (m.pen (expv rho)) *ᵥ m.B1 b rho j) = _
    rw [dot_symm hd, this, dotProduct_smul, smul_eq_mul]
    ring
  have e2 : ((m.X *ᵥ m.B1 b rho i) ⬝ᵥ fun k => (m.X *ᵥ m.B1 b rho j) k * (m.w2 b k * m.q b rho k)) + m.B2 b rho i j ⬝ᵥ (m.Xᵀ *ᵥ fun k => m.w1 b k * m.q b rho k) =
      ∑ k, (m.w2 b k * (m.X *ᵥ m.B1 b rho j) k * (m.X *ᵥ m.B1 b rho i) k + m.w1 b k * (m.X *ᵥ m.B2 b rho i j) k) * m.q b rho k := by
    rw [Matrix.mulVec_transpose, dotProduct_comm (m.B2 b rho i j), ← Matrix.dotProduct_mulVec]
    simp only [dotProduct]
    rw [← Finset.sum_add_distrib]
    exact Finset.sum_congr rfl fun k _ => by ring
  have e3 := trace_S (m.A b rho * m.Mi b rho i) (m.A b rho * m.Mi b rho j)
  rw [Add.H2, ← e2, ← e3, ← trace_S (m.A b rho) (m.S i), e1, neg_div (Real.exp tau) (expv rho i * (m.B1 b rho j ⬝ᵥ (m.S i *ᵥ b))), sub_neg_eq_add]
  rfl

theorem H2_sum (b : Fin p → ℝ) (tau : ℝ) (i : Fin s) : ∑ j, m.H2 b rho tau i j * d j =
    (-((m.A b rho * m.Md b rho d * (m.A b rho * m.Mi b rho i)).trace - (m.A b rho * m.Mid b rho d i).trace)) / 2
    + expv rho i * (m.Bd b rho d ⬝ᵥ (m.S i *ᵥ b)) / Real.exp tau + d i * (expv rho i * (b ⬝ᵥ (m.S i *ᵥ b)) / (2 * Real.exp tau)) := by
  have e1 : (m.A b rho * m.Md b rho d * (m.A b rho * m.Mi b rho i)).trace = ∑ j, d j * (m.A b rho * m.Mi b rho i * (m.A b rho * m.Mi b rho j)).trace := by
    rw [Matrix.trace_mul_comm, Md_eq, Matrix.mul_sum, Matrix.mul_sum, Matrix.trace_sum]
    exact Finset.sum_congr rfl fun j _ => by rw [Matrix.mul_smul, Matrix.mul_smul, Matrix.trace_smul, smul_eq_mul]
  have e2 : (m.A b rho * m.Mid b rho d i).trace = ∑ j, d j * ((∑ k, (m.w2 b k * (m.X *ᵥ m.B1 b rho j) k * (m.X *ᵥ m.B1 b rho i) k + m.w1 b k * (m.X *ᵥ m.B2 b rho i j) k) * m.q b rho k)
        + if i = j then expv rho i * (m.A b rho * m.S i).trace else 0) := by
    rw [Add.Mid, Matrix.mul_add, Matrix.trace_add, trace_cross, Matrix.mul_smul, Matrix.trace_smul, smul_eq_mul]
    simp only [mul_add, Finset.sum_add_distrib, mul_ite, mul_zero, Finset.sum_ite_eq, Finset.mem_univ, if_true, X_Bd, X_B2d]
    congr 1
    · simp only [Finset.mul_sum, Finset.sum_mul, add_mul, ← Finset.sum_add_distrib]
      rw [Finset.sum_comm]
      exact Finset.sum_congr rfl fun j _ => Finset.sum_congr rfl fun k _ => by ring
    · ring
  have e3 : m.Bd b rho d ⬝ᵥ (m.S i *ᵥ b) = ∑ j, d j * (m.B1 b rho j ⬝ᵥ (m.S i *ᵥ b)) := by
    rw [Add.Bd, sum_dotProduct]
    exact Finset.sum_congr rfl fun j _ => by rw [smul_dotProduct, smul_eq_mul]
  have e4 : d i * (expv rho i * (b ⬝ᵥ (m.S i *ᵥ b)) / (2 * Real.exp tau)) = ∑ j, d j * if i = j then expv rho i * (b ⬝ᵥ (m.S i *ᵥ b)) / (2 * Real.exp tau) else 0 := by
    simp only [mul_ite, mul_zero, Finset.sum_ite_eq, Finset.mem_univ, if_true]
  rw [e1, e2, e3, e4, Finset.mul_sum, ← Finset.sum_sub_distrib, ← Finset.sum_neg_distrib, Finset.sum_div, Finset.sum_div, ← Finset.sum_add_distrib, ← Finset.sum_add_distrib]
  refine Finset.sum_congr rfl fun j _ => ?_
  rw [Add.H2]
  ring

/-- **C127** `hessian` is the derivative of `gradient` along any line of smoothing parameters and log scale. -/
theorem C127_hessian (h : Branch m rho d beta) {tau : ℝ} (hs : ScaleOk m.sc (Real.exp tau)) (e : ℝ) : ∃ H, m.hessian (beta 0) rho tau = some H ∧
    (∀ i, HasDerivAt (fun t => ((m.gradient (beta t) (onLine rho d t) (tau + t * e)).getD 0).1 i) (∑ j, H.1 i j * d j + H.2.1 i * e) 0) ∧
    HasDerivAt (fun t => ((m.gradient (beta t) (onLine rho d t) (tau + t * e)).getD 0).2) (∑ j, H.2.1 j * d j + H.2.2 * e) 0 := by
  refine ⟨_, hessian_some h.unit tau (hessDev_symm h.symm _ _), fun i => ?_, ?_⟩
  · have hev : (fun t => ((m.gradient (beta t) (onLine rho d t) (tau + t * e)).getD 0).1 i) =ᶠ[nhds 0] fun t =>
        ((beta t ⬝ᵥ (m.S i *ᵥ beta t)) * expv (onLine rho d t) i * Real.exp (-(tau + t * e)) + (m.A (beta t) (onLine rho d t) * m.Mi (beta t) (onLine rho d t) i).trace - m.ranks i) / 2 := by
      refine (units h).mono fun t hu => ?_
      simp only [gradient_some hu, Option.getD_some, Add.gI, Real.exp_neg, div_eq_mul_inv _ (Real.exp _)]
    refine HasDerivAt.congr_of_eventuallyEq ?_ hev
    have h1 := ((dot_deriv (branch_deriv h) (const_VD (m.S i) (branch_deriv h))).mul (lam_deriv rho d i)).mul (htau tau e)
    have h2 := trace_deriv ((A_deriv h).mul (Mi_deriv h i))
    have h3 := ((h1.add h2).sub_const (m.ranks i)).div_const 2
    refine h3.congr_deriv ?_
    simp only [onLine_zero, zero_mul, add_zero, Pi.mul_apply]
    have e1 : beta 0 ⬝ᵥ (m.S i *ᵥ m.Bd (beta 0) rho d) = m.Bd (beta 0) rho d ⬝ᵥ (m.S i *ᵥ beta 0) := dot_symm (h.symm i) _ _
    have e2 : (-(m.A (beta 0) rho * m.Md (beta 0) rho d * m.A (beta 0) rho) * m.Mi (beta 0) rho i + m.A (beta 0) rho * m.Mid (beta 0) rho d i).trace =
        -(m.A (beta 0) rho * m.Md (beta 0) rho d * (m.A (beta 0) rho * m.Mi (beta 0) rho i)).trace + (m.A (beta 0) rho * m.Mid (beta 0) rho d i).trace := by
      rw [Matrix.trace_add, Matrix.neg_mul, Matrix.trace_neg, ← Matrix.mul_assoc]
    rw [H2_sum, e1, e2, Real.exp_neg]
    field_simp
    ring
  · have hev : (fun t => ((m.gradient (beta t) (onLine rho d t) (tau + t * e)).getD 0).2) =ᶠ[nhds 0] fun t =>
        (-m.penDev (m.penL rho d t) (beta t) * Real.exp (-(tau + t * e)) + m.sc.d1 (Real.exp (tau + t * e)) * 2 * Real.exp (tau + t * e) - m.mp) / 2 := by
      refine (units h).mono fun t hu => ?_
      simp only [gradient_some hu, Option.getD_some, Add.gL, Add.penL, Real.exp_neg, div_eq_mul_inv _ (Real.exp _)]
    refine HasDerivAt.congr_of_eventuallyEq ?_ hev
    have ht : HasDerivAt (fun t : ℝ => tau + t * e) e 0 := by
      simpa using ((hasDerivAt_id (0 : ℝ)).mul_const e).const_add tau
    have hs1 : HasDerivAt m.sc.d1 (m.sc.d2 (Real.exp tau)) (Real.exp (tau + 0 * e)) := by rw [zero_mul, add_zero]; exact hs.d2
    have h4 := ((HasDerivAt.comp (h := fun t : ℝ => Real.exp (tau + t * e)) (0 : ℝ) hs1 ht.exp).mul_const 2).mul ht.exp
    have h1 := (dev_deriv h).fun_neg.mul (htau tau e)
    refine (((h1.add h4).sub_const m.mp).div_const 2).congr_deriv ?_
    have e1 : ∑ j, -(beta 0 ⬝ᵥ (m.S j *ᵥ beta 0)) * expv rho j / (2 * Real.exp tau) * d j =
        -(∑ i, d i * (expv rho i * (beta 0 ⬝ᵥ (m.S i *ᵥ beta 0)))) / (2 * Real.exp tau) := by
      rw [← Finset.sum_neg_distrib, Finset.sum_div]
      exact Finset.sum_congr rfl fun j _ => by ring
    rw [e1]
    simp only [Function.comp_apply, zero_mul, add_zero, penL_zero, Real.exp_neg]
    field_simp
    ring

/-- A Gaussian response with the identity link. -/
noncomputable def gausId : Family where
  link := id
  invLink := id
  var := fun _ => 1
  dvar := fun _ => 0
  dlink := fun _ => 1
  d2link := fun _ => 0
  dev := fun y mu => (y - mu) ^ 2
  dw := fun _ _ => 0
  d2w := fun _ _ => 0

theorem gausId_ok (y eta : ℝ) : FamOk gausId y eta where
  inv := by simpa [gausId] using hasDerivAt_id eta
  var := hasDerivAt_const _ _
  dlink := hasDerivAt_const _ _
  var0 := one_ne_zero
  dlink0 := one_ne_zero
  dev := by
    refine (((hasDerivAt_id eta).const_sub y).pow 2).congr_deriv ?_
    simp [gausId]
  dw := by
    have h : (fun e => gausId.w y (gausId.invLink e)) = fun _ => 1 := by
      funext e; simp [Family.w, Family.a, gausId]
    rw [h]; exact hasDerivAt_const _ _
  d2w := hasDerivAt_const _ _

/-- A branch exists: the mean of one observation shrunk by a ridge. -/
example : Branch (n := 1) (p := 1) (s := 1) ⟨gausId, ⟨fun _ => 0, fun _ => 0, fun _ => 0⟩, 1, fun _ => 1, fun _ => 1, fun _ => 1, fun _ => 0⟩
    (fun _ => 0) (fun _ => 1) (fun t _ => 1 / (1 + Real.exp t)) where
  fam := fun _ => gausId_ok _ _
  stat := Filter.Eventually.of_forall fun t => by
    funext i
    have : 0 < 1 + Real.exp t := by positivity
    simp [Add.gradDev, Add.penL, Add.pen, expv, onLine, Family.gw, gausId, Add.mu, Matrix.smul_mulVec]
    field_simp
    ring
  cont := by
    refine continuousAt_pi.2 fun _ => ?_
    exact ContinuousAt.div continuousAt_const (continuousAt_const.add Real.continuous_exp.continuousAt) (by positivity)
  unit := by
    simp [Add.hessDev, Add.pen, expv, Add.cross, Family.w, Family.a, gausId]
  symm := fun _ => Matrix.transpose_one

theorem U2_comm (b : Fin p → ℝ) (i j : Fin s) : m.U2 b rho i j = m.U2 b rho j i := by
  rw [Add.U2, Add.U2, add_right_comm]
  congr 3
  funext k
  ring

theorem B2_comm (b : Fin p → ℝ) (i j : Fin s) : m.B2 b rho i j = m.B2 b rho j i := by
  rw [Add.B2, Add.B2, U2_comm]
  by_cases hij : i = j
  · subst hij; rfl
  · rw [if_neg hij, if_neg (Ne.symm hij)]

/-- **C127** The matrix of second derivatives is symmetric. -/
theorem C127_symmetric {b : Fin p → ℝ} (h : IsUnit (m.hessDev b (m.pen (expv rho))).det) (hs : ∀ i, (m.S i)ᵀ = m.S i) (tau : ℝ) :
    ∃ H, m.hessian b rho tau = some H ∧ ∀ i j, H.1 i j = H.1 j i := by
  refine ⟨_, hessian_some h tau (hessDev_symm hs _ _), fun i j => ?_⟩
  have hA : (m.A b rho)ᵀ = m.A b rho := by rw [Add.A, Matrix.transpose_nonsing_inv, hessDev_symm hs]
  have e1 : expv rho i * (m.B1 b rho j ⬝ᵥ (m.S i *ᵥ b)) = expv rho j * (m.B1 b rho i ⬝ᵥ (m.S j *ᵥ b)) := by
    rw [Add.B1, Add.B1, smul_dotProduct, smul_dotProduct, dotProduct_comm, dot_symm hA, dotProduct_comm (m.A b rho *ᵥ (m.S i *ᵥ b))]
    simp only [smul_eq_mul]
    ring
  by_cases hij : i = j
  · subst hij; rfl
  · simp only [Add.H2, if_neg hij, if_neg (Ne.symm hij), e1, B2_comm b j i]
    rw [Matrix.trace_mul_comm]
    congr 6
    refine Finset.sum_congr rfl fun k _ => by ring

end Verif.Gam
