import Verif.Gam.GamProps

namespace Verif.Gam
open Matrix Verif.Fa Verif.Calc

variable {n p s : ℕ} {m : Add n p s} {rho d : Fin s → ℝ} {beta : ℝ → Fin p → ℝ}

/-! ### Third derivatives of the coefficients -/

/-- What is solved for in the third derivative. -/
noncomputable def Add.U3 (m : Add n p s) (b : Fin p → ℝ) (rho : Fin s → ℝ) (i j k : Fin s) : Fin p → ℝ :=
  (m.Xᵀ *ᵥ fun l => m.w2 b l * (m.X *ᵥ m.B1 b rho i) l * (m.X *ᵥ m.B1 b rho j) l * (m.X *ᵥ m.B1 b rho k) l)
    + (m.Xᵀ *ᵥ fun l => m.w1 b l * (m.X *ᵥ m.B2 b rho i j) l * (m.X *ᵥ m.B1 b rho k) l)
    + (m.Xᵀ *ᵥ fun l => m.w1 b l * (m.X *ᵥ m.B2 b rho i k) l * (m.X *ᵥ m.B1 b rho j) l)
    + (m.Xᵀ *ᵥ fun l => m.w1 b l * (m.X *ᵥ m.B2 b rho j k) l * (m.X *ᵥ m.B1 b rho i) l)
    + expv rho i • (m.S i *ᵥ m.B2 b rho j k) + expv rho j • (m.S j *ᵥ m.B2 b rho i k) + expv rho k • (m.S k *ᵥ m.B2 b rho i j)
    + (if i = j then expv rho i • (m.S i *ᵥ m.B1 b rho k) else 0) + (if i = k then expv rho i • (m.S i *ᵥ m.B1 b rho j) else 0)
    + (if j = k then expv rho j • (m.S j *ᵥ m.B1 b rho i) else 0)
    + (if i = j ∧ j = k then expv rho i • (m.S i *ᵥ b) else 0)

theorem dhessBeta_some {b : Fin p → ℝ} (h : IsUnit (m.hessDev b (m.pen (expv rho))).det) :
    m.dhessBeta b (expv rho) = some fun i j k => -(m.A b rho *ᵥ m.U3 b rho i j k) := by
  rw [Add.dhessBeta, gradBeta_some h, hessBeta_some h, inv?_unit h]; rfl

theorem X_B2d (b : Fin p → ℝ) (i : Fin s) (l : Fin n) : (m.X *ᵥ m.B2d b rho d i) l = ∑ j, d j * (m.X *ᵥ m.B2 b rho i j) l := by
  simp only [Add.B2d, Matrix.mulVec_sum, Matrix.mulVec_smul, Finset.sum_apply, Pi.smul_apply, smul_eq_mul]

theorem S_B2d (b : Fin p → ℝ) (i j : Fin s) : expv rho i • (m.S i *ᵥ m.B2d b rho d j) = ∑ k, d k • (expv rho i • (m.S i *ᵥ m.B2 b rho j k)) := by
  rw [Add.B2d, Matrix.mulVec_sum, Finset.smul_sum]
  exact Finset.sum_congr rfl fun k _ => by rw [Matrix.mulVec_smul, smul_comm]

theorem S_Bd (b : Fin p → ℝ) (i : Fin s) : expv rho i • (m.S i *ᵥ m.Bd b rho d) = ∑ k, d k • (expv rho i • (m.S i *ᵥ m.B1 b rho k)) := by
  rw [Add.Bd, Matrix.mulVec_sum, Finset.smul_sum]
  exact Finset.sum_congr rfl fun k _ => by rw [Matrix.mulVec_smul, smul_comm]

/-- The derivative of what is solved for in the second derivative. -/
noncomputable def Add.U2' (m : Add n p s) (b : Fin p → ℝ) (rho d : Fin s → ℝ) (i j : Fin s) : Fin p → ℝ :=
  (m.Xᵀ *ᵥ fun l => m.w2 b l * (m.X *ᵥ m.Bd b rho d) l * ((m.X *ᵥ m.B1 b rho i) l * (m.X *ᵥ m.B1 b rho j) l)
      + m.w1 b l * ((m.X *ᵥ m.B2d b rho d i) l * (m.X *ᵥ m.B1 b rho j) l + (m.X *ᵥ m.B1 b rho i) l * (m.X *ᵥ m.B2d b rho d j) l))
    + ((d i * expv rho i) • (m.S i *ᵥ m.B1 b rho j) + expv rho i • (m.S i *ᵥ m.B2d b rho d j))
    + ((d j * expv rho j) • (m.S j *ᵥ m.B1 b rho i) + expv rho j • (m.S j *ᵥ m.B2d b rho d i))

theorem const_VD {q : ℕ} (M : Matrix (Fin q) (Fin p) ℝ) {v : ℝ → Fin p → ℝ} {v' : Fin p → ℝ} (h : VD v v') : VD (fun t => M *ᵥ v t) (M *ᵥ v') :=
  (VD.mulVec (MD.const M) h).congr (by rw [Matrix.zero_mulVec, zero_add])

theorem lamS_VD {v : ℝ → Fin p → ℝ} {v' : Fin p → ℝ} (h : VD v v') (i : Fin s) :
    VD (fun t => expv (onLine rho d t) i • (m.S i *ᵥ v t)) ((d i * expv rho i) • (m.S i *ᵥ v 0) + expv rho i • (m.S i *ᵥ v')) :=
  (smul_VD (lam_deriv rho d i) (const_VD (m.S i) h)).congr (by simp only [onLine_zero])

theorem U2_deriv (h : Branch m rho d beta) (i j : Fin s) : VD (fun t => m.U2 (beta t) (onLine rho d t) i j) (m.U2' (beta 0) rho d i j) := by
  have h1 : VD (fun t l => m.w1 (beta t) l * ((m.X *ᵥ m.B1 (beta t) (onLine rho d t) i) l * (m.X *ᵥ m.B1 (beta t) (onLine rho d t) j) l)) fun l =>
      m.w2 (beta 0) l * (m.X *ᵥ m.Bd (beta 0) rho d) l * ((m.X *ᵥ m.B1 (beta 0) rho i) l * (m.X *ᵥ m.B1 (beta 0) rho j) l)
      + m.w1 (beta 0) l * ((m.X *ᵥ m.B2d (beta 0) rho d i) l * (m.X *ᵥ m.B1 (beta 0) rho j) l + (m.X *ᵥ m.B1 (beta 0) rho i) l * (m.X *ᵥ m.B2d (beta 0) rho d j) l) := by
    intro l
    have := (w1_deriv h l).mul ((const_VD m.X (B1_deriv h i) l).mul (const_VD m.X (B1_deriv h j) l))
    refine this.congr_deriv ?_
    simp only [onLine_zero, Pi.mul_apply]
  have h2 := lamS_VD (m := m) (rho := rho) (d := d) (B1_deriv h j) i
  have h3 := lamS_VD (m := m) (rho := rho) (d := d) (B1_deriv h i) j
  refine (((const_VD m.Xᵀ h1).add h2).add h3).congr ?_
  simp only [onLine_zero, Add.U2']

theorem sum_ite_and (i j : Fin s) (v : Fin p → ℝ) : ∑ k, d k • (if i = j ∧ j = k then v else 0) = if i = j then d j • v else 0 := by
  by_cases hij : i = j
  · simp only [hij, true_and, if_true, smul_ite, smul_zero, Finset.sum_ite_eq, Finset.mem_univ]
  · simp only [hij, false_and, if_false, smul_zero, Finset.sum_const_zero]

theorem sum_U3 (b : Fin p → ℝ) (i j : Fin s) : ∑ k, d k • m.U3 b rho i j k = m.U2' b rho d i j + m.Md b rho d *ᵥ m.B2 b rho i j
    + if i = j then expv rho i • (m.S i *ᵥ m.Bd b rho d) + (d i * expv rho i) • (m.S i *ᵥ b) else 0 := by
  have c1 : (m.Xᵀ *ᵥ fun l => m.w2 b l * (m.X *ᵥ m.Bd b rho d) l * ((m.X *ᵥ m.B1 b rho i) l * (m.X *ᵥ m.B1 b rho j) l)
      + m.w1 b l * ((m.X *ᵥ m.B2d b rho d i) l * (m.X *ᵥ m.B1 b rho j) l + (m.X *ᵥ m.B1 b rho i) l * (m.X *ᵥ m.B2d b rho d j) l)) =
      ∑ k, d k • (m.Xᵀ *ᵥ fun l => m.w2 b l * (m.X *ᵥ m.B1 b rho i) l * (m.X *ᵥ m.B1 b rho j) l * (m.X *ᵥ m.B1 b rho k) l)
      + ∑ k, d k • (m.Xᵀ *ᵥ fun l => m.w1 b l * (m.X *ᵥ m.B2 b rho i k) l * (m.X *ᵥ m.B1 b rho j) l)
      + ∑ k, d k • (m.Xᵀ *ᵥ fun l => m.w1 b l * (m.X *ᵥ m.B2 b rho j k) l * (m.X *ᵥ m.B1 b rho i) l) := by
    rw [← mulVec_fun_sum, ← mulVec_fun_sum, ← mulVec_fun_sum, ← Matrix.mulVec_add, ← Matrix.mulVec_add]
    congr 1
    funext l
    simp only [Pi.add_apply, X_Bd, X_B2d, Finset.mul_sum, Finset.sum_mul, ← Finset.sum_add_distrib]
    exact Finset.sum_congr rfl fun k _ => by ring
  have c2 : m.cross (fun k => m.w1 b k * (m.X *ᵥ m.Bd b rho d) k) *ᵥ m.B2 b rho i j =
      ∑ k, d k • (m.Xᵀ *ᵥ fun l => m.w1 b l * (m.X *ᵥ m.B2 b rho i j) l * (m.X *ᵥ m.B1 b rho k) l) := by
    rw [cross_mulVec, ← mulVec_fun_sum]
    congr 1
    funext l
    rw [X_Bd, Finset.mul_sum, Finset.sum_mul]
    exact Finset.sum_congr rfl fun k _ => by ring
  have c3 : m.pen (fun i => d i * expv rho i) *ᵥ m.B2 b rho i j = ∑ k, d k • (expv rho k • (m.S k *ᵥ m.B2 b rho i j)) := by
    rw [Add.pen_mulVec]; exact Finset.sum_congr rfl fun k _ => by rw [smul_smul]
  have c4 : ∑ k, d k • (if i = j then expv rho i • (m.S i *ᵥ m.B1 b rho k) else 0) = if i = j then expv rho i • (m.S i *ᵥ m.Bd b rho d) else 0 := by
    rw [S_Bd]
    by_cases hij : i = j
    · simp only [hij, if_true]
    · simp only [hij, if_false, smul_zero, Finset.sum_const_zero]
  have c5 : ∑ k, d k • (if i = k then expv rho i • (m.S i *ᵥ m.B1 b rho j) else 0) = (d i * expv rho i) • (m.S i *ᵥ m.B1 b rho j) := by
    simp only [smul_ite, smul_zero, Finset.sum_ite_eq, Finset.mem_univ, if_true, smul_smul]
  have c6 : ∑ k, d k • (if j = k then expv rho j • (m.S j *ᵥ m.B1 b rho i) else 0) = (d j * expv rho j) • (m.S j *ᵥ m.B1 b rho i) := by
    simp only [smul_ite, smul_zero, Finset.sum_ite_eq, Finset.mem_univ, if_true, smul_smul]
  have c7 : (if i = j then expv rho i • (m.S i *ᵥ m.Bd b rho d) + (d i * expv rho i) • (m.S i *ᵥ b) else 0) =
      (if i = j then expv rho i • (m.S i *ᵥ m.Bd b rho d) else 0) + if i = j then d j • (expv rho i • (m.S i *ᵥ b)) else 0 := by
    by_cases hij : i = j
    · subst hij; simp only [if_true, smul_smul]
    · simp only [hij, if_false, add_zero]
  rw [Add.U2', c1, Add.Md, Matrix.add_mulVec, c2, c3, c7, S_B2d, S_B2d]
  simp only [Add.U3, smul_add, Finset.sum_add_distrib, c4, c5, c6, sum_ite_and]
  abel

theorem B2_deriv (h : Branch m rho d beta) (i j : Fin s) : VD (fun t => m.B2 (beta t) (onLine rho d t) i j)
    (∑ k, d k • (-(m.A (beta 0) rho *ᵥ m.U3 (beta 0) rho i j k))) := by
  have h1 := (VD.mulVec (A_deriv h) (U2_deriv h i j)).neg
  have h2 : VD (fun t => if i = j then m.B1 (beta t) (onLine rho d t) i else 0) (if i = j then m.B2d (beta 0) rho d i else 0) := by
    by_cases hij : i = j
    · simpa only [hij, if_true] using B1_deriv h j
    · simpa only [hij, if_false] using VD.const (0 : Fin p → ℝ)
  refine (h1.add h2).congr ?_
  have e : ∑ k, d k • (-(m.A (beta 0) rho *ᵥ m.U3 (beta 0) rho i j k)) = -(m.A (beta 0) rho *ᵥ ∑ k, d k • m.U3 (beta 0) rho i j k) := by
    rw [Matrix.mulVec_sum, ← Finset.sum_neg_distrib]
    exact Finset.sum_congr rfl fun k _ => by rw [Matrix.mulVec_smul, smul_neg]
  rw [e, sum_U3]
  simp only [onLine_zero]
  have e1 : (-(m.A (beta 0) rho * m.Md (beta 0) rho d * m.A (beta 0) rho)) *ᵥ m.U2 (beta 0) rho i j =
      -(m.A (beta 0) rho *ᵥ (m.Md (beta 0) rho d *ᵥ (m.A (beta 0) rho *ᵥ m.U2 (beta 0) rho i j))) := by
    rw [Matrix.neg_mulVec, ← Matrix.mulVec_mulVec, ← Matrix.mulVec_mulVec]
  rw [e1, Add.B2]
  by_cases hij : i = j
  · subst hij
    simp only [if_true, B2d_eq]
    have e2 : d i • m.B1 (beta 0) rho i = -(m.A (beta 0) rho *ᵥ ((d i * expv rho i) • (m.S i *ᵥ beta 0))) := by
      rw [Add.B1, smul_smul, Matrix.mulVec_smul, ← neg_smul]; congr 1; ring
    rw [e2]
    simp only [Matrix.mulVec_add, Matrix.mulVec_neg]
    abel
  · simp only [hij, if_false, add_zero, Matrix.mulVec_add, Matrix.mulVec_neg]
    abel

/-- **C127** `dhess_beta_rho` holds the derivatives of `hess_beta_rho`. -/
theorem C127_third (h : Branch m rho d beta) (i j : Fin s) : ∃ b3, m.dhessBeta (beta 0) (expv rho) = some b3 ∧
    VD (fun t => (m.hessBeta (beta t) (expv (onLine rho d t))).getD 0 i j) (∑ k, d k • b3 i j k) := by
  refine ⟨_, dhessBeta_some h.unit, fun k => ?_⟩
  refine (B2_deriv h i j k).congr_of_eventuallyEq ((units h).mono fun t ht => ?_)
  simp only [hessBeta_some ht, Option.getD_some]

end Verif.Gam
