import Verif.Gam.GamLemmas

namespace Verif.Gam
open Matrix Verif.Fa Verif.Calc

variable {n p s : ℕ} {m : Add n p s} {rho d : Fin s → ℝ} {beta : ℝ → Fin p → ℝ}

/-! ### Closed forms -/

/-- The inverse of the penalised second derivative. -/
noncomputable def Add.A (m : Add n p s) (b : Fin p → ℝ) (rho : Fin s → ℝ) : Matrix (Fin p) (Fin p) ℝ := (m.hessDev b (m.pen (expv rho)))⁻¹

/-- First derivative of the coefficients. -/
noncomputable def Add.B1 (m : Add n p s) (b : Fin p → ℝ) (rho : Fin s → ℝ) (i : Fin s) : Fin p → ℝ := (-expv rho i) • (m.A b rho *ᵥ (m.S i *ᵥ b))

/-- What is solved for in the second derivative. -/
noncomputable def Add.U2 (m : Add n p s) (b : Fin p → ℝ) (rho : Fin s → ℝ) (i j : Fin s) : Fin p → ℝ :=
  (m.Xᵀ *ᵥ fun k => m.w1 b k * ((m.X *ᵥ m.B1 b rho i) k * (m.X *ᵥ m.B1 b rho j) k)) + expv rho i • (m.S i *ᵥ m.B1 b rho j) + expv rho j • (m.S j *ᵥ m.B1 b rho i)

/-- Second derivative of the coefficients. -/
noncomputable def Add.B2 (m : Add n p s) (b : Fin p → ℝ) (rho : Fin s → ℝ) (i j : Fin s) : Fin p → ℝ :=
  -(m.A b rho *ᵥ m.U2 b rho i j) + if i = j then m.B1 b rho i else 0

theorem gradBeta_some {b : Fin p → ℝ} (h : IsUnit (m.hessDev b (m.pen (expv rho))).det) : m.gradBeta b (expv rho) = some (m.B1 b rho) := by
  rw [Add.gradBeta, inv?_unit h]; rfl

theorem hessBeta_some {b : Fin p → ℝ} (h : IsUnit (m.hessDev b (m.pen (expv rho))).det) : m.hessBeta b (expv rho) = some (m.B2 b rho) := by
  rw [Add.hessBeta, gradBeta_some h, inv?_unit h]; rfl

/-! ### Along a branch -/

/-- The derivative of the coefficients in the direction. -/
noncomputable def Add.Bd (m : Add n p s) (b : Fin p → ℝ) (rho d : Fin s → ℝ) : Fin p → ℝ := ∑ i, d i • m.B1 b rho i

theorem Bd_eq (b : Fin p → ℝ) : m.Bd b rho d = -(m.A b rho *ᵥ (m.pen (fun i => d i * expv rho i) *ᵥ b)) := by
  rw [Add.pen_mulVec, Matrix.mulVec_sum, ← Finset.sum_neg_distrib, Add.Bd]
  refine Finset.sum_congr rfl fun i _ => ?_
  rw [Add.B1, Matrix.mulVec_smul, smul_smul, ← neg_smul]
  congr 1
  ring

theorem branch_deriv (h : Branch m rho d beta) : VD beta (m.Bd (beta 0) rho d) := by
  rw [Bd_eq]; exact beta_deriv h

theorem eta_deriv (h : Branch m rho d beta) : VD (fun t => m.X *ᵥ beta t) (m.X *ᵥ m.Bd (beta 0) rho d) := by
  refine (VD.mulVec (MD.const m.X) (branch_deriv h)).congr ?_
  rw [Matrix.zero_mulVec, zero_add]

theorem w_deriv (h : Branch m rho d beta) :
    VD (fun t k => m.f.w (m.y k) (m.mu (beta t) k)) fun k => m.w1 (beta 0) k * (m.X *ᵥ m.Bd (beta 0) rho d) k :=
  fun k => HasDerivAt.comp (h₂ := fun e => m.f.w (m.y k) (m.f.invLink e)) (h := fun t => (m.X *ᵥ beta t) k) (0 : ℝ) (h.fam k).dw (eta_deriv h k)

theorem w1_deriv (h : Branch m rho d beta) : VD (fun t => m.w1 (beta t)) fun k => m.w2 (beta 0) k * (m.X *ᵥ m.Bd (beta 0) rho d) k :=
  fun k => HasDerivAt.comp (h₂ := fun e => m.f.dw (m.y k) (m.f.invLink e)) (h := fun t => (m.X *ᵥ beta t) k) (0 : ℝ) (h.fam k).d2w (eta_deriv h k)

/-- The derivative of the penalised second derivative. -/
noncomputable def Add.Md (m : Add n p s) (b : Fin p → ℝ) (rho d : Fin s → ℝ) : Matrix (Fin p) (Fin p) ℝ :=
  m.cross (fun k => m.w1 b k * (m.X *ᵥ m.Bd b rho d) k) + m.pen fun i => d i * expv rho i

theorem hessDev_deriv (h : Branch m rho d beta) : MD (fun t => m.hessDev (beta t) (m.penL rho d t)) (m.Md (beta 0) rho d) :=
  (cross_deriv (w_deriv h)).add penL_deriv

theorem unit0 (h : Branch m rho d beta) : IsUnit (m.hessDev (beta 0) (m.penL rho d 0)).det := by rw [penL_zero]; exact h.unit

theorem units (h : Branch m rho d beta) : ∀ᶠ t in nhds (0 : ℝ), IsUnit (m.hessDev (beta t) (m.pen (expv (onLine rho d t)))).det :=
  (hessDev_deriv h).eventually_isUnit (unit0 h)

theorem A_deriv (h : Branch m rho d beta) :
    MD (fun t => m.A (beta t) (onLine rho d t)) (-(m.A (beta 0) rho * m.Md (beta 0) rho d * m.A (beta 0) rho)) := by
  have := (hessDev_deriv h).inv (unit0 h)
  rw [penL_zero] at this
  exact this

/-- **C127** Along any line of smoothing parameters a continuous branch of stationary coefficients is differentiable,
and `grad_beta_rho` holds its derivatives. -/
theorem C127_coef (h : Branch m rho d beta) : ∃ b1, m.gradBeta (beta 0) (expv rho) = some b1 ∧ VD beta (∑ i, d i • b1 i) :=
  ⟨_, gradBeta_some h.unit, branch_deriv h⟩

theorem smul_VD {c : ℝ → ℝ} {c' : ℝ} {v : ℝ → Fin p → ℝ} {v' : Fin p → ℝ} (hc : HasDerivAt c c' 0) (hv : VD v v') :
    VD (fun t => c t • v t) (c' • v 0 + c 0 • v') := fun i => hc.mul (hv i)

/-- The second derivative in the direction. -/
noncomputable def Add.B2d (m : Add n p s) (b : Fin p → ℝ) (rho d : Fin s → ℝ) (i : Fin s) : Fin p → ℝ := ∑ j, d j • m.B2 b rho i j

theorem X_Bd (b : Fin p → ℝ) (k : Fin n) : (m.X *ᵥ m.Bd b rho d) k = ∑ j, d j * (m.X *ᵥ m.B1 b rho j) k := by
  simp only [Add.Bd, Matrix.mulVec_sum, Matrix.mulVec_smul, Finset.sum_apply, Pi.smul_apply, smul_eq_mul]

theorem mulVec_fun_sum {ι : Type*} (u : Finset ι) (M : Matrix (Fin p) (Fin n) ℝ) (v : ι → Fin n → ℝ) (c : ι → ℝ) :
    M *ᵥ (fun k => ∑ j ∈ u, c j * v j k) = ∑ j ∈ u, c j • (M *ᵥ v j) := by
  have : (fun k => ∑ j ∈ u, c j * v j k) = ∑ j ∈ u, c j • v j := by
    funext k; simp only [Finset.sum_apply, Pi.smul_apply, smul_eq_mul]
  rw [this, Matrix.mulVec_sum]
  simp only [Matrix.mulVec_smul]

theorem sum_U2 (b : Fin p → ℝ) (i : Fin s) : ∑ j, d j • m.U2 b rho i j = m.Md b rho d *ᵥ m.B1 b rho i + expv rho i • (m.S i *ᵥ m.Bd b rho d) := by
  have e1 : m.cross (fun k => m.w1 b k * (m.X *ᵥ m.Bd b rho d) k) *ᵥ m.B1 b rho i =
      ∑ j, d j • (m.Xᵀ *ᵥ fun k => m.w1 b k * ((m.X *ᵥ m.B1 b rho i) k * (m.X *ᵥ m.B1 b rho j) k)) := by
    rw [cross_mulVec, ← mulVec_fun_sum]
    congr 1
    funext k
    rw [X_Bd, Finset.mul_sum, Finset.sum_mul]
    exact Finset.sum_congr rfl fun j _ => by ring
  rw [Add.Md, Matrix.add_mulVec, e1, Add.pen_mulVec, Add.Bd, Matrix.mulVec_sum, Finset.smul_sum, ← Finset.sum_add_distrib, ← Finset.sum_add_distrib]
  refine Finset.sum_congr rfl fun j _ => ?_
  rw [Add.U2, smul_add, smul_add, Matrix.mulVec_smul, smul_smul, smul_smul, smul_smul, mul_comm (expv rho i) (d j)]
  abel

theorem B2d_eq (b : Fin p → ℝ) (i : Fin s) : m.B2d b rho d i =
    -(m.A b rho *ᵥ (m.Md b rho d *ᵥ m.B1 b rho i + expv rho i • (m.S i *ᵥ m.Bd b rho d))) + d i • m.B1 b rho i := by
  rw [← sum_U2, Matrix.mulVec_sum, Add.B2d]
  simp only [Add.B2, smul_add, Finset.sum_add_distrib, smul_neg, Finset.sum_neg_distrib, Matrix.mulVec_smul, smul_ite, smul_zero, Finset.sum_ite_eq, Finset.mem_univ, if_true]

theorem B1_deriv (h : Branch m rho d beta) (i : Fin s) : VD (fun t => m.B1 (beta t) (onLine rho d t) i) (m.B2d (beta 0) rho d i) := by
  have h1 := VD.mulVec (A_deriv h) (VD.mulVec (MD.const (m.S i)) (branch_deriv h))
  have h2 := smul_VD (lam_deriv rho d i).neg h1
  refine h2.congr ?_
  simp only [onLine_zero, Pi.neg_apply, Matrix.zero_mulVec, zero_add]
  rw [B2d_eq]
  have e1 : (-(m.A (beta 0) rho * m.Md (beta 0) rho d * m.A (beta 0) rho)) *ᵥ (m.S i *ᵥ beta 0) =
      -(m.A (beta 0) rho *ᵥ (m.Md (beta 0) rho d *ᵥ (m.A (beta 0) rho *ᵥ (m.S i *ᵥ beta 0)))) := by
    rw [Matrix.neg_mulVec, ← Matrix.mulVec_mulVec, ← Matrix.mulVec_mulVec]
  rw [e1, Matrix.mulVec_add, Add.B1]
  simp only [Matrix.mulVec_smul, smul_add, smul_neg, neg_smul, Matrix.mulVec_neg, neg_neg, neg_add, mul_smul]
  abel

/-- **C127** `hess_beta_rho` holds the derivatives of `grad_beta_rho`. -/
theorem C127_hess_beta (h : Branch m rho d beta) (i : Fin s) : ∃ b2, m.hessBeta (beta 0) (expv rho) = some b2 ∧
    VD (fun t => (m.gradBeta (beta t) (expv (onLine rho d t))).getD 0 i) (∑ j, d j • b2 i j) := by
  refine ⟨_, hessBeta_some h.unit, fun k => ?_⟩
  refine (B1_deriv h i k).congr_of_eventuallyEq ((units h).mono fun t ht => ?_)
  simp only [gradBeta_some ht, Option.getD_some]

end Verif.Gam
