import Verif.Gam.GamLemmas

namespace Verif.Gam
open Matrix Verif.Fa Verif.Calc

variable {n p s : ℕ} {m : Add n p s} {S : Matrix (Fin p) (Fin p) ℝ}

/-! ### Penalised iteratively reweighted least squares -/

theorem newton_rhs {beta : Fin p → ℝ} (ha : ∀ k, m.f.a (m.y k) (m.mu beta k) ≠ 0) (hg : ∀ k, m.f.dlink (m.mu beta k) ≠ 0) :
    ((m.Xᵀ * diagonal fun k => m.f.w (m.y k) (m.f.invLink ((m.X *ᵥ beta) k))) *ᵥ fun k => m.f.z (m.y k) ((m.X *ᵥ beta) k)) =
      m.hessDev beta S *ᵥ beta - m.gradDev beta S := by
  rw [← Matrix.mulVec_mulVec, Add.hessDev, Add.gradDev, Matrix.add_mulVec, cross_mulVec]
  have e : (diagonal fun k => m.f.w (m.y k) (m.f.invLink ((m.X *ᵥ beta) k))) *ᵥ (fun k => m.f.z (m.y k) ((m.X *ᵥ beta) k)) =
      (fun k => m.f.w (m.y k) (m.mu beta k) * (m.X *ᵥ beta) k) + fun k => m.f.gw (m.y k) (m.mu beta k) := by
    funext k
    rw [Matrix.mulVec_diagonal, Family.z, mul_add]
    congr 1
    have h1 := ha k
    have h2 := hg k
    simp only [Add.mu] at h1 h2 ⊢
    rw [Family.w, Family.gw]
    by_cases hv : m.f.var (m.f.invLink ((m.X *ᵥ beta) k)) = 0
    · simp [hv]
    · field_simp
  rw [e, Matrix.mulVec_add]
  abel

/-- **C127** Where no working weight vanishes a step of penalised least squares is the Newton step for the penalised
deviance. -/
theorem C127_newton {beta : Fin p → ℝ} (ha : ∀ k, m.f.a (m.y k) (m.mu beta k) ≠ 0) (hg : ∀ k, m.f.dlink (m.mu beta k) ≠ 0)
    (hu : IsUnit (m.hessDev beta S).det) : m.solvePls (m.X *ᵥ beta) S = some (beta - (m.hessDev beta S)⁻¹ *ᵥ m.gradDev beta S) := by
  have hn : ¬ ∃ k, m.f.a (m.y k) (m.f.invLink ((m.X *ᵥ beta) k)) = 0 := fun ⟨k, hk⟩ => ha k hk
  have h1 : inv? (m.cross (fun k => m.f.w (m.y k) (m.f.invLink ((m.X *ᵥ beta) k))) + S) = some (m.hessDev beta S)⁻¹ := inv?_unit hu
  rw [Add.solvePls, if_neg hn]
  simp only [h1, Option.map_some]
  rw [newton_rhs (S := S) ha hg, Matrix.mulVec_sub, Matrix.mulVec_mulVec, Matrix.nonsing_inv_mul _ hu, Matrix.one_mulVec]

/-- **C127** The fixed points of the step are the stationary points of the penalised deviance. -/
theorem C127_fixed {beta : Fin p → ℝ} (ha : ∀ k, m.f.a (m.y k) (m.mu beta k) ≠ 0) (hg : ∀ k, m.f.dlink (m.mu beta k) ≠ 0)
    (hu : IsUnit (m.hessDev beta S).det) : m.solvePls (m.X *ᵥ beta) S = some beta ↔ m.gradDev beta S = 0 := by
  rw [C127_newton ha hg hu, Option.some_inj, sub_eq_self]
  constructor
  · intro h
    have := congrArg (fun v => m.hessDev beta S *ᵥ v) h
    simpa [Matrix.mulVec_mulVec, Matrix.mul_nonsing_inv _ hu] using this
  · intro h; rw [h, Matrix.mulVec_zero]

theorem gradDev_deriv_dir {beta v : Fin p → ℝ} (hs : Sᵀ = S) (hf : ∀ k, FamOk m.f (m.y k) ((m.X *ᵥ beta) k)) :
    HasDerivAt (fun t : ℝ => m.penDev S (beta + t • v)) (2 * (v ⬝ᵥ m.gradDev beta S)) 0 := by
  have hb : VD (fun t : ℝ => beta + t • v) v := VD.line beta v
  have he : ∀ k, HasDerivAt (fun t : ℝ => (m.X *ᵥ (beta + t • v)) k) ((m.X *ᵥ v) k) 0 := fun k => by
    simpa using VD.mulVec (MD.const m.X) hb k
  have h1 := HasDerivAt.fun_sum (u := Finset.univ) fun k (_ : k ∈ (Finset.univ : Finset (Fin n))) => by
    have hk : HasDerivAt (fun e => m.f.dev (m.y k) (m.f.invLink e)) (-2 * m.f.gw (m.y k) (m.f.invLink ((m.X *ᵥ beta) k))) ((m.X *ᵥ (beta + (0 : ℝ) • v)) k) := by
      rw [zero_smul, add_zero]; exact (hf k).dev_eta
    exact HasDerivAt.comp (h₂ := fun e => m.f.dev (m.y k) (m.f.invLink e)) (h := fun t : ℝ => (m.X *ᵥ (beta + t • v)) k) (0 : ℝ) hk (he k)
  have h2 := dot_deriv hb (VD.mulVec (MD.const S) hb)
  refine (h1.add h2).congr_deriv ?_
  simp only [zero_smul, add_zero, Matrix.zero_mulVec, zero_add]
  rw [Add.gradDev, dotProduct_add, dotProduct_neg, dot_symm hs beta v, Matrix.mulVec_transpose, dotProduct_comm v (Matrix.vecMul _ _), ← Matrix.dotProduct_mulVec]
  have : ∑ k, -2 * m.f.gw (m.y k) (m.f.invLink ((m.X *ᵥ beta) k)) * (m.X *ᵥ v) k = -2 * ((fun k => m.f.gw (m.y k) (m.mu beta k)) ⬝ᵥ (m.X *ᵥ v)) := by
    rw [dotProduct, Finset.mul_sum]
    exact Finset.sum_congr rfl fun k _ => by rw [Add.mu]; ring
  rw [this]
  ring

/-- **C127** `grad_dev_beta` is half the gradient of the penalised deviance, so a minimum is a stationary point. -/
theorem C127_score {beta : Fin p → ℝ} (hs : Sᵀ = S) (hf : ∀ k, FamOk m.f (m.y k) ((m.X *ᵥ beta) k))
    (hm : IsLocalMin (m.penDev S) beta) : m.gradDev beta S = 0 := by
  obtain ⟨g, hg⟩ : ∃ g, g = m.gradDev beta S := ⟨_, rfl⟩
  have hd := gradDev_deriv_dir (v := g) hs hf
  have hc : Continuous fun t : ℝ => beta + t • g := continuous_const.add (continuous_id.smul continuous_const)
  have hl : IsLocalMin (fun t : ℝ => m.penDev S (beta + t • g)) 0 := by
    have ht : Filter.Tendsto (fun t : ℝ => beta + t • g) (nhds 0) (nhds beta) := by
      have := hc.tendsto 0
      simpa using this
    have := ht.eventually hm
    filter_upwards [this] with t h
    simpa using h
  have h0 := hl.hasDerivAt_eq_zero hd
  rw [← hg] at h0 ⊢
  exact dotProduct_self_eq_zero.1 (by linarith)

/-! ### The loop -/

theorem loop_le (tol : ℝ) : ∀ (k : ℕ) (start : Fin p → ℝ) (r : (Fin p → ℝ) × Bool), m.pirlsLoop S tol k start = some r → m.penDev S r.1 ≤ m.penDev S start
  | 0, start, r, h => by rw [← Option.some.inj h]
  | k + 1, start, r, h => by
    simp only [Add.pirlsLoop, Option.bind_eq_bind, Option.bind_eq_some_iff] at h
    obtain ⟨b, hb, h⟩ := h
    by_cases h1 : m.penDev S start < m.penDev S (m.halve S start 15 b)
    · rw [if_pos h1] at h
      rw [← Option.some.inj h]
    · rw [if_neg h1] at h
      by_cases h2 : |m.penDev S (m.halve S start 15 b) - m.penDev S start| / (|m.penDev S start| + 1 / 10 ^ 6) < tol
      · rw [if_pos h2] at h
        rw [← Option.some.inj h]
        exact not_lt.1 h1
      · rw [if_neg h2] at h
        exact (loop_le tol k _ r h).trans (not_lt.1 h1)

/-- **C127** Whatever number of iterations, `pirls` does not end above the penalised deviance of its first step. -/
theorem C127_descent {lam : Fin s → ℝ} {N : ℕ} {tol : ℝ} {r : (Fin p → ℝ) × Bool} (h : m.pirls lam N tol = some r) :
    ∃ b0, m.solvePls (fun k => m.f.link ((m.y k + (∑ k, m.y k) / n) / 2)) (m.pen lam) = some b0 ∧ m.penDev (m.pen lam) r.1 ≤ m.penDev (m.pen lam) b0 := by
  simp only [Add.pirls, Option.bind_eq_bind, Option.bind_eq_some_iff] at h
  obtain ⟨b0, hb, h⟩ := h
  exact ⟨b0, hb, loop_le tol N b0 r h⟩

/-- **C127** At a stationary point the loop stops at once and reports convergence. -/
theorem C127_stationary {beta : Fin p → ℝ} {tol : ℝ} (ht : 0 < tol) (k : ℕ) (ha : ∀ k, m.f.a (m.y k) (m.mu beta k) ≠ 0) (hg : ∀ k, m.f.dlink (m.mu beta k) ≠ 0)
    (hu : IsUnit (m.hessDev beta S).det) (h0 : m.gradDev beta S = 0) : m.pirlsLoop S tol (k + 1) beta = some (beta, true) := by
  have h1 := (C127_fixed ha hg hu).2 h0
  have h2 : m.halve S beta 15 beta = beta := by rw [Add.halve, if_neg (lt_irrefl _)]
  simp only [Add.pirlsLoop, h1, h2, Option.bind_eq_bind, Option.bind_some, lt_irrefl, if_false, sub_self, abs_zero, zero_div, ht, if_true]

/-- **C127** The halvings keep to the segment between the old coefficients and the proposed ones. -/
theorem C127_halving (prev b : Fin p → ℝ) : ∀ j, ∃ i ≤ j, m.halve S prev j b = prev + ((1 / 2 : ℝ) ^ i) • (b - prev) := by
  intro j
  induction j generalizing b with
  | zero => exact ⟨0, le_rfl, by simp [Add.halve]⟩
  | succ j ih =>
    by_cases h : m.penDev S prev < m.penDev S b
    · obtain ⟨i, hi, he⟩ := ih ((1 / 2 : ℝ) • (b + prev))
      refine ⟨i + 1, by omega, ?_⟩
      rw [Add.halve, if_pos h, he]
      congr 1
      rw [pow_succ, mul_smul]
      congr 1
      funext k
      simp only [Pi.sub_apply, Pi.smul_apply, Pi.add_apply, smul_eq_mul]
      ring
    · refine ⟨0, by omega, ?_⟩
      rw [Add.halve, if_neg h]
      simp

/-- A Gaussian response with a log link. -/
noncomputable def gausLog : Family where
  link := Real.log
  invLink := Real.exp
  var := fun _ => 1
  dvar := fun _ => 0
  dlink := fun mu => mu⁻¹
  d2link := fun mu => -(mu ^ 2)⁻¹
  dev := fun y mu => (y - mu) ^ 2
  dw := fun y mu => 4 * mu ^ 2 - y * mu
  d2w := fun y mu => 8 * mu ^ 2 - y * mu

theorem gausLog_w (y : ℝ) {mu : ℝ} (h : mu ≠ 0) : gausLog.w y mu = 2 * mu ^ 2 - y * mu := by
  simp only [Family.w, Family.a, gausLog]
  field_simp
  ring

theorem gausLog_ok (y eta : ℝ) : FamOk gausLog y eta where
  inv := by simpa [gausLog] using Real.hasDerivAt_exp eta
  var := hasDerivAt_const _ _
  dlink := by
    have := hasDerivAt_inv (Real.exp_ne_zero eta)
    simpa [gausLog] using this
  var0 := one_ne_zero
  dlink0 := inv_ne_zero (Real.exp_ne_zero eta)
  dev := by
    have := (((hasDerivAt_id (Real.exp eta)).const_sub y).pow 2)
    refine this.congr_deriv ?_
    simp [gausLog]
  dw := by
    have h : (fun e => gausLog.w y (gausLog.invLink e)) = fun e => 2 * Real.exp e ^ 2 - y * Real.exp e := by
      funext e; exact gausLog_w y (Real.exp_ne_zero e)
    rw [h]
    refine ((((Real.hasDerivAt_exp eta).pow 2).const_mul 2).sub ((Real.hasDerivAt_exp eta).const_mul y)).congr_deriv ?_
    simp only [gausLog]; push_cast; ring
  d2w := by
    refine ((((Real.hasDerivAt_exp eta).pow 2).const_mul 4).sub ((Real.hasDerivAt_exp eta).const_mul y)).congr_deriv ?_
    simp only [gausLog]; push_cast; ring

/-- One observation `2` with a constant and a ridge. -/
noncomputable def single : Add 1 1 1 where
  f := gausLog
  sc := ⟨fun _ => 0, fun _ => 0, fun _ => 0⟩
  X := 1
  y := fun _ => 2
  S := fun _ => 1
  ranks := fun _ => 1
  ldS := fun _ => 0

/-- **C127** Violated: where a working weight vanishes the working response is not finite and the step fails, though
the Newton step exists. -/
theorem C127_newton_violated : single.solvePls (single.X *ᵥ 0) 1 = none ∧ IsUnit (single.hessDev 0 1).det ∧
    ∀ k, FamOk single.f (single.y k) ((single.X *ᵥ 0) k) := by
  refine ⟨?_, ?_, fun k => gausLog_ok _ _⟩
  · rw [Add.solvePls, if_pos]
    refine ⟨0, ?_⟩
    simp only [single, gausLog, Family.a, Matrix.mulVec_zero, Pi.zero_apply, Real.exp_zero]
    norm_num
  · have hw : single.f.w (single.y 0) (single.mu 0 0) = 0 := by
      simp only [single, Add.mu, Matrix.mulVec_zero, Pi.zero_apply]
      change gausLog.w 2 (Real.exp 0) = 0
      rw [gausLog_w 2 (Real.exp_ne_zero 0), Real.exp_zero]
      norm_num
    have : single.hessDev 0 1 = 1 := by
      have hz : (fun k => single.f.w (single.y k) (single.mu 0 k)) = 0 := by
        funext k; rw [Subsingleton.elim k 0]; exact hw
      rw [Add.hessDev, hz, Add.cross]
      simp
    rw [this, Matrix.det_one]
    exact isUnit_one

/-! ### Covariances and tests -/

/-- **C127** `Vb` is the scale times the inverse penalised Hessian, `Vs` the sampling covariance of the penalised
estimate, `F` free of the scale. -/
theorem C127_covariance {w : Fin n → ℝ} {lam : Fin s → ℝ} {scale : ℝ} (h0 : scale ≠ 0) (hu : IsUnit (m.cross w + m.pen lam).det) :
    m.covs w lam scale = some (scale • (m.cross w + m.pen lam)⁻¹,
      scale • ((m.cross w + m.pen lam)⁻¹ * m.cross w * (m.cross w + m.pen lam)⁻¹), (m.cross w + m.pen lam)⁻¹ * m.cross w) := by
  have hi : ((1 / scale) • m.cross w + (1 / scale) • m.pen lam) * (scale • (m.cross w + m.pen lam)⁻¹) = 1 := by
    rw [← smul_add, Matrix.smul_mul, Matrix.mul_smul, Matrix.mul_nonsing_inv _ hu, smul_smul, one_div, inv_mul_cancel₀ h0, one_smul]
  have hu' : IsUnit ((1 / scale) • m.cross w + (1 / scale) • m.pen lam).det := by
    have := congrArg Matrix.det hi
    rw [Matrix.det_mul, Matrix.det_one] at this
    exact IsUnit.of_mul_eq_one _ this
  have he : ((1 / scale) • m.cross w + (1 / scale) • m.pen lam)⁻¹ = scale • (m.cross w + m.pen lam)⁻¹ := Matrix.inv_eq_right_inv hi
  have h1 := inv?_unit hu'
  rw [he] at h1
  simp only [Add.covs, h1, Option.map_some, Matrix.smul_mul, Matrix.mul_smul, smul_smul]
  have e1 : scale * (1 / scale) = 1 := mul_one_div_cancel h0
  have e3 : 1 / scale * (scale * scale) = scale := by rw [← mul_assoc, mul_comm (1 / scale), e1, one_mul]
  have e4 : 1 / scale * scale = 1 := by rw [mul_comm, e1]
  simp only [e3, e4, one_smul]

/-- **C127** Violated: the p-value is that of one tail, never above a half. -/
theorem C127_pvalue_violated {sf : ℝ → ℝ} (ha : Antitone sf) (h0 : sf 0 = 1 / 2) (t : ℝ) : pval sf t ≤ 1 / 2 := by
  rw [pval, ← h0]; exact ha (abs_nonneg t)

/-- **C127** The degrees of freedom of the test are within one of the effective ones. -/
theorem C127_rank_partial (edf : ℝ) : |(rdf edf : ℝ) - edf| < 1 := by
  have h1 := Int.floor_le edf
  have h2 := Int.lt_floor_add_one edf
  have h3 := Int.le_ceil edf
  have h4 := Int.ceil_lt_add_one edf
  rw [rdf]
  split_ifs with h
  · rw [abs_lt]; constructor <;> linarith
  · rw [abs_lt]; constructor <;> linarith

/-- **C127** Violated: a smooth shrunk to less than a twentieth of a degree of freedom is tested on none. -/
theorem C127_rank_violated {edf : ℝ} (h0 : 0 ≤ edf) (h1 : edf < 1 / 20) : rdf edf = 0 := by
  have : ⌊edf⌋ = 0 := Int.floor_eq_zero_iff.2 ⟨h0, by linarith⟩
  rw [rdf, this, if_pos]
  simpa using h1

end Verif.Gam
