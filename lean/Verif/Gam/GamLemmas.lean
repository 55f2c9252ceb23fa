import Verif.Gam.Gam
import Verif.Gam.GausProps
import Mathlib.Analysis.Calculus.DSlope

namespace Verif.Gam
open Matrix Verif.Fa Verif.Calc

variable {n p s : ℕ}

/-- What the class needs of a family at an observation `y` and a linear predictor `eta`: the functions named as
derivatives are derivatives. -/
structure FamOk (f : Family) (y eta : ℝ) : Prop where
  inv : HasDerivAt f.invLink (1 / f.dlink (f.invLink eta)) eta
  var : HasDerivAt f.var (f.dvar (f.invLink eta)) (f.invLink eta)
  dlink : HasDerivAt f.dlink (f.d2link (f.invLink eta)) (f.invLink eta)
  var0 : f.var (f.invLink eta) ≠ 0
  dlink0 : f.dlink (f.invLink eta) ≠ 0
  dev : HasDerivAt (f.dev y) (-2 * (y - f.invLink eta) / f.var (f.invLink eta)) (f.invLink eta)
  dw : HasDerivAt (fun e => f.w y (f.invLink e)) (f.dw y (f.invLink eta)) eta
  d2w : HasDerivAt (fun e => f.dw y (f.invLink e)) (f.d2w y (f.invLink eta)) eta

theorem FamOk.gw {f : Family} {y eta : ℝ} (h : FamOk f y eta) :
    HasDerivAt (fun e => f.gw y (f.invLink e)) (-f.w y (f.invLink eta)) eta := by
  have h1 : HasDerivAt (fun mu => f.gw y mu) (((-1) * (f.var (f.invLink eta) * f.dlink (f.invLink eta)) -
      (y - f.invLink eta) * (f.dvar (f.invLink eta) * f.dlink (f.invLink eta) + f.var (f.invLink eta) * f.d2link (f.invLink eta))) /
      (f.var (f.invLink eta) * f.dlink (f.invLink eta)) ^ 2) (f.invLink eta) :=
    ((hasDerivAt_id _).const_sub y).div (h.var.mul h.dlink) (mul_ne_zero h.var0 h.dlink0)
  refine (h1.comp eta h.inv).congr_deriv ?_
  have h2 := h.var0
  have h3 := h.dlink0
  simp only [Family.w, Family.a]
  field_simp
  ring

theorem FamOk.dev_eta {f : Family} {y eta : ℝ} (h : FamOk f y eta) :
    HasDerivAt (fun e => f.dev y (f.invLink e)) (-2 * f.gw y (f.invLink eta)) eta := by
  refine (h.dev.comp eta h.inv).congr_deriv ?_
  have h2 := h.var0
  have h3 := h.dlink0
  simp only [Family.gw]
  field_simp

/-- Penalties of parameters on a line. -/
noncomputable def Add.penL (m : Add n p s) (rho d : Fin s → ℝ) (t : ℝ) : Matrix (Fin p) (Fin p) ℝ := m.pen (expv (onLine rho d t))

/-- A branch of solutions on a line of parameters: continuous at the point, stationary near it, with an invertible
second derivative. -/
structure Branch (m : Add n p s) (rho d : Fin s → ℝ) (beta : ℝ → Fin p → ℝ) : Prop where
  fam : ∀ k, FamOk m.f (m.y k) ((m.X *ᵥ beta 0) k)
  stat : ∀ᶠ t in nhds 0, m.gradDev (beta t) (m.penL rho d t) = 0
  cont : ContinuousAt beta 0
  unit : IsUnit (m.hessDev (beta 0) (m.pen (expv rho))).det
  symm : ∀ i, (m.S i)ᵀ = m.S i

variable {m : Add n p s} {rho d : Fin s → ℝ} {beta : ℝ → Fin p → ℝ}

theorem penL_zero : m.penL rho d 0 = m.pen (expv rho) := by rw [Add.penL, onLine_zero]

theorem penL_deriv : MD (m.penL rho d) (m.pen fun i => d i * expv rho i) := by
  intro i j
  have h := HasDerivAt.fun_sum (u := Finset.univ) fun k (_ : k ∈ (Finset.univ : Finset (Fin s))) => (lam_deriv rho d k).mul_const (m.S k i j)
  refine (h.congr_deriv ?_).congr_of_eventuallyEq (Filter.Eventually.of_forall fun t => ?_)
  · simp only [Add.pen, Matrix.sum_apply, Matrix.smul_apply, smul_eq_mul]
  · simp only [Add.penL, Add.pen, Matrix.sum_apply, Matrix.smul_apply, smul_eq_mul]

theorem cross_deriv {w : ℝ → Fin n → ℝ} {w' : Fin n → ℝ} (h : VD w w') : MD (fun t => m.cross (w t)) (m.cross w') := by
  have hd : MD (fun t => diagonal (w t)) (diagonal w') := by
    intro i j
    by_cases hij : i = j
    · subst hij; simpa using h i
    · simpa [hij] using hasDerivAt_const (0 : ℝ) (0 : ℝ)
  refine (((MD.const m.Xᵀ).mul hd).mul (MD.const m.X)).congr ?_
  simp [Add.cross]

theorem cross_mulVec (w : Fin n → ℝ) (v : Fin p → ℝ) : m.cross w *ᵥ v = m.Xᵀ *ᵥ fun k => w k * (m.X *ᵥ v) k := by
  rw [Add.cross, ← Matrix.mulVec_mulVec, ← Matrix.mulVec_mulVec]
  congr 1
  funext k
  rw [Matrix.mulVec_diagonal]

theorem cross_symm (w : Fin n → ℝ) : (m.cross w)ᵀ = m.cross w := by
  rw [Add.cross, Matrix.transpose_mul, Matrix.transpose_mul, Matrix.transpose_transpose, Matrix.diagonal_transpose, Matrix.mul_assoc]

theorem Add.pen_symm (hs : ∀ i, (m.S i)ᵀ = m.S i) (lam : Fin s → ℝ) : (m.pen lam)ᵀ = m.pen lam := by
  simp only [Add.pen, Matrix.transpose_sum, Matrix.transpose_smul, hs]

theorem hessDev_symm (hs : ∀ i, (m.S i)ᵀ = m.S i) (b : Fin p → ℝ) (lam : Fin s → ℝ) : (m.hessDev b (m.pen lam))ᵀ = m.hessDev b (m.pen lam) := by
  rw [Add.hessDev, Matrix.transpose_add, cross_symm, Add.pen_symm hs]

theorem Add.pen_mulVec (lam : Fin s → ℝ) (b : Fin p → ℝ) : m.pen lam *ᵥ b = ∑ i, lam i • (m.S i *ᵥ b) := by
  simp only [Add.pen, Matrix.sum_mulVec, Matrix.smul_mulVec]

theorem inv_cont {A : ℝ → Matrix (Fin p) (Fin p) ℝ} (hA : ContinuousAt A 0) (h0 : IsUnit (A 0).det) (i j : Fin p) :
    ContinuousAt (fun t => (A t)⁻¹ i j) 0 := by
  have hc : ContinuousAt (fun t => (A t).det) 0 :=
    (Continuous.matrix_det (A := fun M : Matrix (Fin p) (Fin p) ℝ => M) continuous_id).continuousAt.comp hA
  have ha : ContinuousAt (fun t => (A t).adjugate) 0 :=
    (Continuous.matrix_adjugate (A := fun M : Matrix (Fin p) (Fin p) ℝ => M) continuous_id).continuousAt.comp hA
  have haij : ContinuousAt (fun t => (A t).adjugate i j) 0 := tendsto_pi_nhds.1 (tendsto_pi_nhds.1 ha i) j
  have he : (fun t => (A t)⁻¹ i j) = fun t => (A t).det⁻¹ * (A t).adjugate i j := by
    funext t
    rw [Matrix.inv_def, Ring.inverse_eq_inv', Matrix.smul_apply, smul_eq_mul]
  rw [he]
  exact (hc.inv₀ h0.ne_zero).mul haij

/-- The slopes of the score between two linear predictors. -/
noncomputable def slopes (m : Add n p s) (beta : ℝ → Fin p → ℝ) (t : ℝ) (k : Fin n) : ℝ :=
  -dslope (fun e => m.f.gw (m.y k) (m.f.invLink e)) ((m.X *ᵥ beta 0) k) ((m.X *ᵥ beta t) k)

theorem slopes_zero (h : ∀ k, FamOk m.f (m.y k) ((m.X *ᵥ beta 0) k)) : slopes m beta 0 = fun k => m.f.w (m.y k) (m.mu (beta 0) k) := by
  funext k
  rw [slopes, dslope_same, (h k).gw.deriv, neg_neg]
  rfl

theorem slopes_cont (h : Branch m rho d beta) (k : Fin n) : ContinuousAt (fun t => slopes m beta t k) 0 := by
  have h1 : ContinuousAt (fun t => (m.X *ᵥ beta t) k) 0 := by
    have : ∀ j, ContinuousAt (fun t => beta t j) 0 := fun j => tendsto_pi_nhds.1 h.cont j
    simp only [Matrix.mulVec, dotProduct]
    exact tendsto_finsetSum _ fun j _ => (this j).const_mul _
  have h2 := continuousAt_dslope_same.2 (h.fam k).gw.differentiableAt
  exact (ContinuousAt.comp (f := fun t => (m.X *ᵥ beta t) k) h2 h1).neg

/-- Newton quotient of the stationarity equations. -/
theorem slope_eq (h : Branch m rho d beta) : ∀ᶠ t in nhds 0,
    (m.cross (slopes m beta t) + m.penL rho d t) *ᵥ (beta t - beta 0) = -((m.penL rho d t - m.penL rho d 0) *ᵥ beta 0) := by
  have h0 := h.stat.self_of_nhds
  filter_upwards [h.stat] with t ht
  have e1 : m.cross (slopes m beta t) *ᵥ (beta t - beta 0) =
      -(m.Xᵀ *ᵥ fun k => m.f.gw (m.y k) (m.mu (beta t) k)) + m.Xᵀ *ᵥ fun k => m.f.gw (m.y k) (m.mu (beta 0) k) := by
    rw [cross_mulVec, ← Matrix.mulVec_neg, ← Matrix.mulVec_add]
    congr 1
    funext k
    have := sub_smul_dslope (fun e => m.f.gw (m.y k) (m.f.invLink e)) ((m.X *ᵥ beta 0) k) ((m.X *ᵥ beta t) k)
    rw [smul_eq_mul] at this
    simp only [slopes, Matrix.mulVec_sub, Pi.sub_apply, Pi.add_apply, Pi.neg_apply, Add.mu]
    linarith
  rw [Add.gradDev] at h0 ht
  have h0' : m.Xᵀ *ᵥ (fun k => m.f.gw (m.y k) (m.mu (beta 0) k)) = m.penL rho d 0 *ᵥ beta 0 := (neg_add_eq_zero.1 h0)
  have ht' : m.Xᵀ *ᵥ (fun k => m.f.gw (m.y k) (m.mu (beta t) k)) = m.penL rho d t *ᵥ beta t := (neg_add_eq_zero.1 ht)
  rw [Matrix.add_mulVec, e1, h0', ht', Matrix.sub_mulVec, Matrix.mulVec_sub]
  abel

/-- The derivative of the coefficients, from their continuity. -/
theorem beta_deriv (h : Branch m rho d beta) :
    VD beta (-((m.hessDev (beta 0) (m.pen (expv rho)))⁻¹ *ᵥ (m.pen (fun i => d i * expv rho i) *ᵥ beta 0))) := by
  have hK0 : m.cross (slopes m beta 0) + m.penL rho d 0 = m.hessDev (beta 0) (m.pen (expv rho)) := by
    rw [slopes_zero h.fam, penL_zero, Add.hessDev]
  have hKc : ContinuousAt (fun t => m.cross (slopes m beta t) + m.penL rho d t) 0 := by
    refine tendsto_pi_nhds.2 fun i => tendsto_pi_nhds.2 fun j => ?_
    refine Filter.Tendsto.add ?_ (penL_deriv i j).continuousAt
    have e : ∀ t, m.cross (slopes m beta t) i j = ∑ k, m.X k i * slopes m beta t k * m.X k j := by
      intro t
      simp only [Add.cross, Matrix.mul_apply (N := m.X), Matrix.mul_diagonal, Matrix.transpose_apply]
    simp only [e]
    exact tendsto_finsetSum _ fun k _ => ((slopes_cont h k).const_mul _).mul_const _
  have hu0 : IsUnit (m.cross (slopes m beta 0) + m.penL rho d 0).det := by rw [hK0]; exact h.unit
  have hu : ∀ᶠ t in nhds (0 : ℝ), IsUnit (m.cross (slopes m beta t) + m.penL rho d t).det := by
    have hc : ContinuousAt (fun t => (m.cross (slopes m beta t) + m.penL rho d t).det) 0 :=
      (Continuous.matrix_det (A := fun M : Matrix (Fin p) (Fin p) ℝ => M) continuous_id).continuousAt.comp hKc
    exact (hc.eventually_ne hu0.ne_zero).mono fun t ht => isUnit_iff_ne_zero.2 ht
  intro j
  have hev : (fun t => beta t j) =ᶠ[nhds 0] fun t => beta 0 j - ∑ l, (m.cross (slopes m beta t) + m.penL rho d t)⁻¹ j l * ((m.penL rho d t - m.penL rho d 0) *ᵥ beta 0) l := by
    filter_upwards [slope_eq h, hu] with t ht hut
    have := congrArg (fun v => (m.cross (slopes m beta t) + m.penL rho d t)⁻¹ *ᵥ v) ht
    simp only [Matrix.mulVec_mulVec, Matrix.nonsing_inv_mul _ hut, Matrix.one_mulVec, Matrix.mulVec_neg] at this
    have hj := congrFun this j
    simp only [Pi.sub_apply, Pi.neg_apply] at hj
    rw [← Matrix.mulVec_mulVec] at hj
    change beta t j - beta 0 j = -∑ l, (m.cross (slopes m beta t) + m.penL rho d t)⁻¹ j l * ((m.penL rho d t - m.penL rho d 0) *ᵥ beta 0) l at hj
    linarith
  refine HasDerivAt.congr_of_eventuallyEq ?_ hev
  have hl : ∀ l, HasDerivAt (fun t => ((m.penL rho d t - m.penL rho d 0) *ᵥ beta 0) l) ((m.pen (fun i => d i * expv rho i) *ᵥ beta 0) l) 0 := by
    intro l
    have := VD.mulVec ((penL_deriv (m := m) (rho := rho) (d := d)).sub (MD.const (m.penL rho d 0))) (VD.const (beta 0)) l
    simpa using this
  have hs := HasDerivAt.fun_sum (u := Finset.univ) fun l (_ : l ∈ (Finset.univ : Finset (Fin p))) =>
    hasDerivAt_mul_of_zero (inv_cont hKc hu0 j l) (hl l) (by simp)
  refine (hs.const_sub (beta 0 j)).congr_deriv ?_
  rw [hK0]
  rfl

end Verif.Gam
