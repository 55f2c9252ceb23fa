import Verif.Gam.GaulsLemmas

namespace Verif.Gam.Gauls
open Matrix Verif.Calc

variable {n p q s r : ℕ} {g : Ls n p q s r}

/-- The linear parts of `b ⬝ᵥ S b / 2`. -/
theorem quad_fderiv {ι : Type*} [Fintype ι] [DecidableEq ι] {S : Matrix ι ι ℝ} (hs : Sᵀ = S) (b : ι → ℝ) :
    HasFDerivAt (fun b => b ⬝ᵥ (S *ᵥ b) / 2) (dotL (S *ᵥ b)) b := by
  have h1 : ∀ i, HasFDerivAt (fun b : ι → ℝ => b i * (S *ᵥ b) i) _ b := fun i =>
    ((ContinuousLinearMap.proj (R := ℝ) (φ := fun _ : ι => ℝ) i).hasFDerivAt (x := b)).mul
      (((ContinuousLinearMap.proj (R := ℝ) (φ := fun _ : ι => ℝ) i).comp (mv S)).hasFDerivAt (x := b))
  have h2 := (HasFDerivAt.fun_sum (u := Finset.univ) fun i _ => h1 i).mul_const (1 / 2)
  have e : (fun b : ι → ℝ => b ⬝ᵥ (S *ᵥ b) / 2) = fun b => (∑ i, b i * (S *ᵥ b) i) * (1 / 2) := by
    funext b; rw [dotProduct]; ring
  rw [e]
  refine h2.congr_fderiv ?_
  ext x
  simp only [_root_.sum_apply, _root_.smul_apply, _root_.add_apply, ContinuousLinearMap.comp_apply, ContinuousLinearMap.proj_apply, mv_apply, smul_eq_mul,
    dotL_apply, Finset.sum_add_distrib]
  have e1 : ∑ i, b i * (S *ᵥ x) i = (S *ᵥ b) ⬝ᵥ x := by
    have : b ⬝ᵥ (S *ᵥ x) = (S *ᵥ b) ⬝ᵥ x := by rw [Matrix.dotProduct_mulVec, ← Matrix.mulVec_transpose, hs]
    exact this
  have e2 : ∑ i, (S *ᵥ b) i * x i = (S *ᵥ b) ⬝ᵥ x := rfl
  rw [e1, e2]
  ring

/-- **C157** `grad_pll_beta` is the gradient of `penalized_loglike`, for all links that meet the contract and all weights. -/
theorem C157_gradient (h : g.Ok) {S : CM p q} (hs : Sᵀ = S) (b : Cf p q → ℝ) : HasFDerivAt (fun b => g.pll b S) (dotL (g.gradP b S)) b := by
  refine ((loglike_fderiv h b).add (quad_fderiv hs b)).congr_fderiv ?_
  ext x
  simp only [Ls.gradP, _root_.add_apply, dotL_apply, add_dotProduct]

/-- **C157** `hess_pll_beta` is the Jacobian of `grad_pll_beta` and is symmetric. -/
theorem C157_hessian (h : g.Ok) {S : CM p q} (hs : Sᵀ = S) (b : Cf p q → ℝ) :
    HasFDerivAt (fun b => g.gradP b S) (mv (g.hessP b S)) b ∧ (g.hessP b S)ᵀ = g.hessP b S := by
  refine ⟨((grad_fderiv h b).add (mv S).hasFDerivAt).congr_fderiv ?_, ?_⟩
  · ext x : 1
    simp only [Ls.hessP, _root_.add_apply, mv_apply, Matrix.add_mulVec]
  · rw [Ls.hessP, Matrix.transpose_add, hess_symm, hs]

/-- **C157** Weights rescale: the derivatives of a weighted observation are those of the observation times its weight, and weights of
one change nothing. -/
theorem C157_weights (w : Fin n → ℝ) (hw : g.w = none) (h1 : ∀ k, w k = 1) (b : Cf p q → ℝ) :
    let g' : Ls n p q s r := { g with w := some w }
    g'.loglike b = g.loglike b ∧ g'.grad b = g.grad b ∧ g'.hess b = g.hess b := by
  intro g'
  have e : ∀ k x, g'.wt k x = g.wt k x := fun k x => by
    simp only [Ls.wt, g', hw, h1, one_mul]
  have eD : ∀ k, g'.D b k = g.D b k := fun k => rfl
  refine ⟨?_, ?_, ?_⟩
  · simp only [Ls.loglike, e]; rfl
  · simp only [Ls.grad, e, eD]; rfl
  · simp only [Ls.hess, e, eD]; rfl

/-! ### The Newton step -/

/-- The contract of `np.linalg.eigh`. -/
structure EigOk {ι : Type*} [Fintype ι] [DecidableEq ι] (eigh : Matrix ι ι ℝ → (ι → ℝ) × Matrix ι ι ℝ) : Prop where
  orth : ∀ A : Matrix ι ι ℝ, Aᵀ = A → (eigh A).2ᵀ * (eigh A).2 = 1
  dec : ∀ A : Matrix ι ι ℝ, Aᵀ = A → (eigh A).2 * diagonal (eigh A).1 * (eigh A).2ᵀ = A

theorem lift_ge {etol : ℝ} (u : ℝ) : etol ≤ lift etol u := by
  unfold lift
  split
  · linarith [abs_nonneg u]
  · linarith

theorem inv?_some {ι : Type} [Fintype ι] [DecidableEq ι] {T : Matrix ι ι ℝ} (h : IsUnit T.det) : inv? T = some T⁻¹ := if_pos h

theorem orth_inv {ι : Type} [Fintype ι] [DecidableEq ι] {V : Matrix ι ι ℝ} (hV : Vᵀ * V = 1) {u : ι → ℝ} (hu : ∀ i, u i ≠ 0) :
    inv? (V * diagonal u * Vᵀ) = some (V * diagonal (fun i => (u i)⁻¹) * Vᵀ) := by
  have hV' : V * Vᵀ = 1 := mul_eq_one_comm.1 hV
  have e : (V * diagonal u * Vᵀ) * (V * diagonal (fun i => (u i)⁻¹) * Vᵀ) = 1 := by
    have : (V * diagonal u * Vᵀ) * (V * diagonal (fun i => (u i)⁻¹) * Vᵀ) = V * (diagonal u * ((Vᵀ * V) * diagonal (fun i => (u i)⁻¹))) * Vᵀ := by
      simp only [Matrix.mul_assoc]
    rw [this, hV, Matrix.one_mul, Matrix.diagonal_mul_diagonal]
    have : (fun i => u i * (u i)⁻¹) = fun _ => (1 : ℝ) := funext fun i => mul_inv_cancel₀ (hu i)
    rw [this, Matrix.diagonal_one, Matrix.mul_one, hV']
  have hd : IsUnit (V * diagonal u * Vᵀ).det := (Matrix.isUnit_iff_isUnit_det _).1 (IsUnit.of_mul_eq_one _ e)
  rw [inv?_some hd, Matrix.inv_eq_right_inv e]

variable {eigh : CM p q → (Cf p q → ℝ) × CM p q}

/-- **C157** The step never fails and is a descent direction: its product with the gradient of the penalised likelihood is positive
unless the gradient vanishes, however indefinite the Hessian. -/
theorem C157_direction (he : EigOk eigh) {etol : ℝ} (ht : 0 < etol) {S : CM p q} (hs : Sᵀ = S) (b : Cf p q → ℝ) :
    ∃ d, g.dir eigh etol S b = some d ∧ 0 ≤ g.gradP b S ⬝ᵥ d ∧ (g.gradP b S ⬝ᵥ d = 0 → g.gradP b S = 0) := by
  have hsym : (g.hess b + S)ᵀ = g.hess b + S := by rw [Matrix.transpose_add, hess_symm, hs]
  have hV := he.orth _ hsym
  obtain ⟨u, V⟩ : ∃ u V, eigh (g.hess b + S) = (u, V) := ⟨_, _, rfl⟩
  obtain ⟨V, hEq⟩ := V
  rw [hEq] at hV
  simp only at hV
  have hp : ∀ i, 0 < lift etol (u i) := fun i => lt_of_lt_of_le ht (lift_ge _)
  have hdir : g.dir eigh etol S b = some ((V * diagonal (fun i => (lift etol (u i))⁻¹) * Vᵀ) *ᵥ g.gradP b S) := by
    simp only [Ls.dir, hEq, orth_inv hV (fun i => (hp i).ne'), Option.map_some]
    rfl
  refine ⟨_, hdir, ?_⟩
  obtain ⟨x, hx⟩ : ∃ x, x = g.gradP b S := ⟨_, rfl⟩
  rw [← hx]
  have e : x ⬝ᵥ ((V * diagonal (fun i => (lift etol (u i))⁻¹) * Vᵀ) *ᵥ x) = ∑ i, (lift etol (u i))⁻¹ * (Vᵀ *ᵥ x) i ^ 2 := by
    rw [← Matrix.mulVec_mulVec, ← Matrix.mulVec_mulVec, Matrix.dotProduct_mulVec, ← Matrix.mulVec_transpose, dotProduct]
    exact Finset.sum_congr rfl fun i _ => by rw [Matrix.mulVec_diagonal]; ring
  rw [e]
  have hnn : ∀ i ∈ Finset.univ, 0 ≤ (lift etol (u i))⁻¹ * (Vᵀ *ᵥ x) i ^ 2 := fun i _ => mul_nonneg (inv_nonneg.2 (hp i).le) (sq_nonneg _)
  refine ⟨Finset.sum_nonneg hnn, fun h0 => ?_⟩
  have hz : Vᵀ *ᵥ x = 0 := by
    funext i
    have := (Finset.sum_eq_zero_iff_of_nonneg hnn).1 h0 i (Finset.mem_univ i)
    rcases mul_eq_zero.1 this with h | h
    · exact absurd h (inv_ne_zero (hp i).ne')
    · exact pow_eq_zero_iff (two_ne_zero) |>.1 h
  have := congrArg (fun v => V *ᵥ v) hz
  simpa [Matrix.mulVec_mulVec, mul_eq_one_comm.1 hV] using this

/-- **C157** Where the eigenvalues of the Hessian are all at least the tolerance the step is Newton's. -/
theorem C157_newton (he : EigOk eigh) {etol : ℝ} (ht : 0 < etol) {S : CM p q} (hs : Sᵀ = S) {b : Cf p q → ℝ} (hu : ∀ i, etol ≤ (eigh (g.hess b + S)).1 i) :
    g.dir eigh etol S b = some ((g.hessP b S)⁻¹ *ᵥ g.gradP b S) := by
  have hsym : (g.hess b + S)ᵀ = g.hess b + S := by rw [Matrix.transpose_add, hess_symm, hs]
  have hV := he.orth _ hsym
  have hd := he.dec _ hsym
  have hl : (fun i => lift etol ((eigh (g.hess b + S)).1 i)) = (eigh (g.hess b + S)).1 := funext fun i => if_neg (not_lt.2 (hu i))
  have h1 := orth_inv hV (fun i => (lt_of_lt_of_le ht (hu i)).ne')
  have h2 : IsUnit (g.hess b + S).det := by
    by_contra h
    rw [hd] at h1
    rw [inv?, if_neg h] at h1
    exact absurd h1 (by simp)
  unfold Ls.dir
  dsimp only
  rw [hl, hd, inv?_some h2]
  rfl

theorem halve_le (S : CM p q) (b : Cf p q → ℝ) (prev : ℝ) : ∀ (j : ℕ) (d : Cf p q → ℝ) (d' : Cf p q → ℝ) (k : ℕ),
    g.halve S b prev j d = (d', k + 1) → g.pll (b - d') S ≤ prev
  | 0, d, d', k, h => by simp [Ls.halve] at h
  | j + 1, d, d', k, h => by
    rw [Ls.halve] at h
    split at h
    · exact halve_le S b prev j _ d' k h
    · rename_i hn
      rw [Prod.mk.injEq] at h
      rw [← h.1]
      exact not_lt.1 hn

/-- **C157** The penalised likelihood does not get worse: `outer_step` ends no higher than it began, save for a last step accepted because
the criterion changed by less than the tolerance or the gradient was negligible; only then does it report convergence. -/
theorem C157_descent (etol tol : ℝ) (S : CM p q) : ∀ (k : ℕ) (b : Cf p q → ℝ) (res : (Cf p q → ℝ) × Bool), g.outer eigh etol tol S k b = some res →
    (res.2 = false → g.pll res.1 S ≤ g.pll b S) ∧
    (res.2 = true → ∃ c d, g.pll c S ≤ g.pll b S ∧ g.dir eigh etol S c = some d ∧ res.1 = c - d ∧
      (|g.pll res.1 S - g.pll c S| < (|g.pll c S| + 1 / 10 ^ 6) * tol ∨ ∀ i, |g.gradP c S i| < 1 / 10 ^ 9))
  | 0, b, res, h => by
    simp only [Ls.outer, Option.some.injEq] at h
    subst h
    simp
  | k + 1, b, res, h => by
    rw [Ls.outer] at h
    cases hd : g.dir eigh etol S b with
    | none => simp [hd] at h
    | some d =>
      simp only [hd, Option.bind_eq_bind, Option.bind_some] at h
      split at h
      · rename_i hc
        simp only [Option.some.injEq] at h
        subst h
        exact ⟨by simp, fun _ => ⟨b, d, le_refl _, hd, rfl, hc⟩⟩
      · split at h
        · cases hh : g.halve S b (g.pll b S) 15 d with
          | mk d' j =>
            rw [hh] at h
            cases j with
            | zero =>
              simp only [Option.some.injEq] at h
              subst h
              simp
            | succ j =>
              have hle := halve_le S b _ _ _ _ _ hh
              obtain ⟨h1, h2⟩ := C157_descent etol tol S k _ _ h
              refine ⟨fun hr => (h1 hr).trans hle, fun hr => ?_⟩
              obtain ⟨c, d'', hc, hrest⟩ := h2 hr
              exact ⟨c, d'', hc.trans hle, hrest⟩
        · rename_i hn
          have hle : g.pll (b - d) S ≤ g.pll b S := not_lt.1 hn
          obtain ⟨h1, h2⟩ := C157_descent etol tol S k _ _ h
          refine ⟨fun hr => (h1 hr).trans hle, fun hr => ?_⟩
          obtain ⟨c, d'', hc, hrest⟩ := h2 hr
          exact ⟨c, d'', hc.trans hle, hrest⟩

/-- **C157** `beta_rho` starts from zero coefficients with the penalty at the exponentials of the log penalties: a run that ends for lack
of iterations or of descent is no worse than zero. -/
theorem C157_beta_rho (etol tol : ℝ) (k : ℕ) (rho : Fin s ⊕ Fin r → ℝ) {b : Cf p q → ℝ} (h : g.betaRho eigh etol tol k rho = some (b, false)) :
    g.pll b (∑ i, Real.exp (rho i) • g.S i) ≤ g.pll 0 (∑ i, Real.exp (rho i) • g.S i) :=
  (C157_descent etol tol (∑ i, Real.exp (rho i) • g.S i) k 0 (b, false) h).1 rfl

/-- **C157** Started at a stationary point `outer_step` stays there and reports convergence. -/
theorem C157_stationary (he : EigOk eigh) {etol tol : ℝ} (ht : 0 < etol) {S : CM p q} (hs : Sᵀ = S) {b : Cf p q → ℝ} (h0 : g.gradP b S = 0) (k : ℕ) :
    g.outer eigh etol tol S (k + 1) b = some (b, true) := by
  have hd : g.dir eigh etol S b = some 0 := by
    have hz : g.grad b + S *ᵥ b = 0 := h0
    obtain ⟨d, h1, -, -⟩ := C157_direction (g := g) he ht hs b
    rw [h1]
    unfold Ls.dir at h1
    dsimp only at h1
    rw [hz] at h1
    obtain ⟨M, -, h2⟩ := Option.map_eq_some_iff.1 h1
    rw [← h2, Matrix.mulVec_zero]
  rw [Ls.outer]
  simp only [hd, Option.bind_eq_bind, Option.bind_some, sub_zero]
  rw [if_pos (Or.inr fun i => by rw [h0]; simp)]

/-! ### Derivatives of the coefficients in the smoothing parameters -/

/-- Log smoothing parameters on a line. -/
def onLine {ι : Type} (rho d : ι → ℝ) (t : ℝ) : ι → ℝ := fun i => rho i + t * d i

theorem onLine_zero {ι : Type} (rho d : ι → ℝ) : onLine rho d 0 = rho := by funext i; simp [onLine]

theorem lam_deriv {ι : Type} (rho d : ι → ℝ) (i : ι) : HasDerivAt (fun t => expv (onLine rho d t) i) (d i * expv rho i) 0 := by
  have h : HasDerivAt (fun t : ℝ => rho i + t * d i) (d i) 0 := by
    simpa using ((hasDerivAt_id (0 : ℝ)).mul_const (d i)).const_add (rho i)
  refine h.exp.congr_deriv ?_
  simp [expv, mul_comm]

variable {rho d : Fin s ⊕ Fin r → ℝ} {beta : ℝ → Cf p q → ℝ}

theorem pen_deriv : MD (fun t => g.pen (expv (onLine rho d t))) (g.pen fun i => d i * expv rho i) := by
  intro i j
  have h := HasDerivAt.fun_sum (u := Finset.univ) fun k (_ : k ∈ (Finset.univ : Finset (Fin s ⊕ Fin r))) => (lam_deriv rho d k).mul_const (g.S k i j)
  refine (h.congr_deriv ?_).congr_of_eventuallyEq (Filter.Eventually.of_forall fun t => ?_)
  · simp only [Ls.pen, Matrix.sum_apply, Matrix.smul_apply, smul_eq_mul]
  · simp only [Ls.pen, Matrix.sum_apply, Matrix.smul_apply, smul_eq_mul]

theorem pen_mulVec (lam : Fin s ⊕ Fin r → ℝ) (b : Cf p q → ℝ) : g.pen lam *ᵥ b = ∑ i, lam i • (g.S i *ᵥ b) := by
  simp only [Ls.pen, Matrix.sum_mulVec, Matrix.smul_mulVec]

/-- A branch of coefficients on a line of log smoothing parameters: continuous at the point, stationary near it, with an invertible
penalised Hessian there. -/
structure Branch (g : Ls n p q s r) (rho d : Fin s ⊕ Fin r → ℝ) (beta : ℝ → Cf p q → ℝ) : Prop where
  ok : g.Ok
  stat : ∀ᶠ t in nhds 0, g.gradP (beta t) (g.pen (expv (onLine rho d t))) = 0
  cont : ContinuousAt beta 0
  unit : IsUnit (g.hess (beta 0) + g.pen (expv rho)).det
  symm : ∀ i, (g.S i)ᵀ = g.S i

/-- The inverse of the penalised Hessian. -/
noncomputable def Ls.A (g : Ls n p q s r) (b : Cf p q → ℝ) (rho : Fin s ⊕ Fin r → ℝ) : CM p q := (g.hess b + g.pen (expv rho))⁻¹

/-- `grad_beta_rho`. -/
noncomputable def Ls.B1 (g : Ls n p q s r) (b : Cf p q → ℝ) (rho : Fin s ⊕ Fin r → ℝ) (i : Fin s ⊕ Fin r) : Cf p q → ℝ :=
  (-expv rho i) • (g.A b rho *ᵥ (g.S i *ᵥ b))

/-- The derivative of the coefficients in a direction. -/
noncomputable def Ls.Bd (g : Ls n p q s r) (b : Cf p q → ℝ) (rho d : Fin s ⊕ Fin r → ℝ) : Cf p q → ℝ := ∑ i, d i • g.B1 b rho i

theorem gradBeta_some {b : Cf p q → ℝ} (h : IsUnit (g.hess b + g.pen (expv rho)).det) : g.gradBeta b (expv rho) = some (g.B1 b rho) := by
  rw [Ls.gradBeta, inv?_some h]; rfl

theorem Bd_eq (b : Cf p q → ℝ) : g.Bd b rho d = -(g.A b rho *ᵥ (g.pen (fun i => d i * expv rho i) *ᵥ b)) := by
  rw [pen_mulVec, Matrix.mulVec_sum, ← Finset.sum_neg_distrib, Ls.Bd]
  refine Finset.sum_congr rfl fun i _ => ?_
  rw [Ls.B1, Matrix.mulVec_smul, smul_smul, ← neg_smul]
  congr 1; ring

theorem branch_deriv (h : Branch g rho d beta) : VD beta (g.Bd (beta 0) rho d) := by
  have hu : IsUnit (g.hess (beta 0) + g.pen (expv (onLine rho d 0))).det := by rw [onLine_zero]; exact h.unit
  have := implicit (grad_fderiv h.ok (beta 0)) (pen_deriv (g := g) (rho := rho) (d := d)) h.stat h.cont hu
  refine this.congr ?_
  rw [Bd_eq, Ls.A, onLine_zero]

/-- **C157** Along any line of log smoothing parameters a continuous branch of stationary coefficients is differentiable, and
`grad_beta_rho` holds its partial derivatives. -/
theorem C157_coef (h : Branch g rho d beta) : ∃ b1, g.gradBeta (beta 0) (expv rho) = some b1 ∧ VD beta (∑ i, d i • b1 i) :=
  ⟨_, gradBeta_some h.unit, branch_deriv h⟩

theorem dH_sum (b : Cf p q → ℝ) (v : Fin s ⊕ Fin r → Cf p q → ℝ) (d : Fin s ⊕ Fin r → ℝ) : g.dH b (∑ i, d i • v i) = ∑ i, d i • g.dH b (v i) := by
  have em : ∀ k, g.etam (∑ i, d i • v i) k = ∑ i, d i * g.etam (v i) k := fun k => by
    simp only [etam_apply, Finset.sum_apply, Pi.smul_apply, smul_eq_mul, Finset.mul_sum]
    rw [Finset.sum_comm]
    exact Finset.sum_congr rfl fun i _ => Finset.sum_congr rfl fun j _ => by ring
  have es : ∀ k, g.etas (∑ i, d i • v i) k = ∑ i, d i * g.etas (v i) k := fun k => by
    simp only [etas_apply, Finset.sum_apply, Pi.smul_apply, smul_eq_mul, Finset.mul_sum]
    rw [Finset.sum_comm]
    exact Finset.sum_congr rfl fun i _ => Finset.sum_congr rfl fun j _ => by ring
  ext (i | i) (j | j) <;>
  · simp only [Matrix.sum_apply, Matrix.smul_apply, smul_eq_mul, Ls.dH, blocks_ll, blocks_lr, blocks_rl, blocks_rr, em, es, mul_neg, Finset.sum_neg_distrib, neg_inj,
      Finset.mul_sum, Finset.sum_mul, mul_add, add_mul, Finset.sum_add_distrib]
    congr 1 <;>
    · rw [Finset.sum_comm]
      exact Finset.sum_congr rfl fun _ _ => Finset.sum_congr rfl fun _ _ => by ring

/-- **C157** `dhess` holds the derivatives of the Hessian along the branch. -/
theorem C157_dhess (h : Branch g rho d beta) : ∃ dH, g.dhess (beta 0) (expv rho) = some dH ∧ MD (fun t => g.hess (beta t)) (∑ i, d i • dH i) := by
  refine ⟨_, by rw [Ls.dhess, gradBeta_some h.unit]; rfl, ?_⟩
  refine (hess_deriv h.ok (branch_deriv h)).congr ?_
  rw [Ls.Bd, dH_sum]

/-- The penalised Hessian along the branch. -/
noncomputable def Ls.Hp (g : Ls n p q s r) (rho d : Fin s ⊕ Fin r → ℝ) (beta : ℝ → Cf p q → ℝ) (t : ℝ) : CM p q :=
  g.hess (beta t) + g.pen (expv (onLine rho d t))

/-- Its derivative. -/
noncomputable def Ls.Md (g : Ls n p q s r) (b : Cf p q → ℝ) (rho d : Fin s ⊕ Fin r → ℝ) : CM p q :=
  g.dH b (g.Bd b rho d) + g.pen fun i => d i * expv rho i

theorem Hp_deriv (h : Branch g rho d beta) : MD (g.Hp rho d beta) (g.Md (beta 0) rho d) := (hess_deriv h.ok (branch_deriv h)).add pen_deriv

theorem Hp_zero : g.Hp rho d beta 0 = g.hess (beta 0) + g.pen (expv rho) := by rw [Ls.Hp, onLine_zero]

theorem Hp_unit0 (h : Branch g rho d beta) : IsUnit (g.Hp rho d beta 0).det := by rw [Hp_zero]; exact h.unit

theorem Hp_units (h : Branch g rho d beta) : ∀ᶠ t in nhds 0, IsUnit (g.Hp rho d beta t).det := (Hp_deriv h).eventually_isUnit (Hp_unit0 h)

theorem A_line (t : ℝ) : g.A (beta t) (onLine rho d t) = (g.Hp rho d beta t)⁻¹ := rfl

theorem A_deriv (h : Branch g rho d beta) : MD (fun t => g.A (beta t) (onLine rho d t))
    (-(g.A (beta 0) rho * g.Md (beta 0) rho d * g.A (beta 0) rho)) := by
  refine ((Hp_deriv h).inv (Hp_unit0 h)).congr ?_
  rw [Hp_zero]; rfl

theorem smul_deriv {ι : Type*} {c : ℝ → ℝ} {c' : ℝ} {v : ℝ → ι → ℝ} {v' : ι → ℝ} (hc : HasDerivAt c c' 0) (hv : VD v v') :
    VD (fun t => c t • v t) (c' • v 0 + c 0 • v') := fun i => (hc.mul (hv i))

/-- `hess_beta_rho` above the diagonal. -/
noncomputable def Ls.B2 (g : Ls n p q s r) (b : Cf p q → ℝ) (rho : Fin s ⊕ Fin r → ℝ) (i j : Fin s ⊕ Fin r) : Cf p q → ℝ :=
  (if i = j then g.B1 b rho i else 0) - g.A b rho *ᵥ (g.dH b (g.B1 b rho i) *ᵥ g.B1 b rho j + expv rho i • (g.S i *ᵥ g.B1 b rho j) +
    expv rho j • (g.S j *ᵥ g.B1 b rho i))

theorem B2_symm (b : Cf p q → ℝ) (i j : Fin s ⊕ Fin r) : g.B2 b rho i j = g.B2 b rho j i := by
  unfold Ls.B2
  rw [dH_swap, add_assoc, add_comm (expv rho i • _), ← add_assoc]
  congr 1
  by_cases h : i = j
  · subst h; rfl
  · rw [if_neg h, if_neg (Ne.symm h)]

theorem hessBeta_some {b : Cf p q → ℝ} (h : IsUnit (g.hess b + g.pen (expv rho)).det) : g.hessBeta b (expv rho) = some (g.B2 b rho) := by
  have h1 : g.dhess b (expv rho) = some fun i => g.dH b (g.B1 b rho i) := by rw [Ls.dhess, gradBeta_some h]; rfl
  simp only [Ls.hessBeta, gradBeta_some h, inv?_some h, h1, Option.bind_eq_bind, Option.bind_some]
  congr 1
  funext i j
  split
  · rfl
  · exact B2_symm b j i

theorem B1_deriv (h : Branch g rho d beta) (i : Fin s ⊕ Fin r) :
    VD (fun t => g.B1 (beta t) (onLine rho d t) i) (∑ j, d j • g.B2 (beta 0) rho i j) := by
  have hb := branch_deriv h
  have h1 : VD (fun t => g.S i *ᵥ beta t) (g.S i *ᵥ g.Bd (beta 0) rho d) := by
    refine ((VD.mulVec (MD.const (g.S i)) hb)).congr ?_
    simp
  have h2 := smul_deriv (lam_deriv rho d i).fun_neg (VD.mulVec (A_deriv h) h1)
  refine h2.congr ?_
  simp only [onLine_zero]
  generalize beta 0 = b
  have e1 : ∑ j, d j • g.B2 b rho i j = d i • g.B1 b rho i - g.A b rho *ᵥ (g.Md b rho d *ᵥ g.B1 b rho i + expv rho i • (g.S i *ᵥ g.Bd b rho d)) := by
    simp only [Ls.B2, smul_sub, Finset.sum_sub_distrib]
    congr 1
    · rw [Finset.sum_eq_single i]
      · simp
      · intro j _ hj; simp [Ne.symm hj]
      · simp
    · simp only [← Matrix.mulVec_smul (g.A b rho), ← Matrix.mulVec_sum]
      congr 1
      have e2 : expv rho i • (g.S i *ᵥ g.Bd b rho d) = ∑ j, (d j * expv rho i) • (g.S i *ᵥ g.B1 b rho j) := by
        rw [Ls.Bd, Matrix.mulVec_sum, Finset.smul_sum]
        exact Finset.sum_congr rfl fun j _ => by rw [Matrix.mulVec_smul, smul_smul, mul_comm]
      have e3 : g.dH b (g.Bd b rho d) *ᵥ g.B1 b rho i = ∑ j, d j • (g.dH b (g.B1 b rho i) *ᵥ g.B1 b rho j) := by
        rw [Ls.Bd, dH_sum, Matrix.sum_mulVec]
        exact Finset.sum_congr rfl fun j _ => by rw [Matrix.smul_mulVec, dH_swap]
      rw [Ls.Md, Matrix.add_mulVec, e2, e3, pen_mulVec, ← Finset.sum_add_distrib, ← Finset.sum_add_distrib]
      refine Finset.sum_congr rfl fun j _ => ?_
      rw [smul_add, smul_add, smul_smul, smul_smul]
      abel
  rw [e1]
  have e4 : g.A b rho *ᵥ (g.Md b rho d *ᵥ g.B1 b rho i) = (-expv rho i) • ((g.A b rho * g.Md b rho d * g.A b rho) *ᵥ (g.S i *ᵥ b)) := by
    rw [Ls.B1, Matrix.mulVec_smul, Matrix.mulVec_smul, ← Matrix.mulVec_mulVec, ← Matrix.mulVec_mulVec]
  rw [Matrix.mulVec_add, e4, Matrix.mulVec_smul, Ls.B1, smul_smul, Matrix.neg_mulVec]
  module

/-- **C157** `hess_beta_rho` holds the derivatives of `grad_beta_rho` along the branch. -/
theorem C157_hess_beta (h : Branch g rho d beta) (i : Fin s ⊕ Fin r) : ∃ b2, g.hessBeta (beta 0) (expv rho) = some b2 ∧
    (∀ᶠ t in nhds 0, g.gradBeta (beta t) (expv (onLine rho d t)) = some (g.B1 (beta t) (onLine rho d t))) ∧
    VD (fun t => g.B1 (beta t) (onLine rho d t) i) (∑ j, d j • b2 i j) :=
  ⟨_, hessBeta_some h.unit, (Hp_units h).mono fun _ ht => gradBeta_some ht, B1_deriv h i⟩

end Verif.Gam.Gauls
