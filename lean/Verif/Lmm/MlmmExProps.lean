import Verif.Lmm.MlmmProps
/-!
# C200: two responses with different residual variances

Two observations of two responses in one group, with an intercept in the fixed and in the random effects.
-/
namespace Verif.Lmm.Mlmm
open Matrix Kronecker Verif.Fa Verif.Like Verif.Lmm.Lm Verif.Calc

/-- One group, a random intercept for each of two responses. -/
noncomputable def exT2 : Terms := ⟨1, fun _ => 1, fun _ => 2, fun _ => none⟩

/-- The response of a row. -/
def exOut : Fin 4 → Fin 2 := ![0, 1, 0, 1]

/-- The stacked data. -/
noncomputable def exM : Mme exT2 4 2 :=
  ⟨of fun i j => if exOut i = j then 1 else 0, ![0, 0, 1, 2], of fun i x => if (exOut i).val = x.2.2.val then 1 else 0⟩

/-- The parameters of the identity. -/
def idTri (r : ℕ) : Tri r → ℝ := fun a => if a.1.1 = a.1.2 then 1 else 0

theorem invech_id (r : ℕ) : invech (idTri r) = 1 := by
  ext i j
  rw [invech, of_apply, idTri, tri, Matrix.one_apply]
  split_ifs with h1 h2 h3 <;> simp_all

/-- The identity for every term. -/
noncomputable def exTh : exT2.Par → ℝ := fun a => idTri _ a.2

theorem exT2_pd : exT2.Pd := fun k B h => by simp [exT2] at h

theorem exTh_one (k) : invech (Terms.sl (T := exT2) exTh k) = (1 : Mat 2 2) := invech_id 2

theorem exTh_pd (k) : (invech (Terms.sl (T := exT2) exTh k)).PosDef := by
  have := exTh_one k
  rw [this]
  exact PosDef.one

theorem exG2' : exT2.gcov exTh = 1 := by
  have : (fun k => exT2.A k ⊗ₖ invech (Terms.sl (T := exT2) exTh k)) = fun _ => 1 := by
    funext k
    have := exTh_one k
    rw [this]
    exact one_kronecker_one
  rw [Terms.gcov, this]
  exact blockDiagonal'_one

theorem exM_inj : Function.Injective exM.Xy.mulVec := by
  intro u v huv
  have h0 := congrFun huv 0
  have h1 := congrFun huv 1
  have h2 := congrFun huv 2
  simp [exM, Mme.Xy, mulVec, dotProduct, Fin.sum_univ_succ, Fin.snoc, exOut] at h0 h1 h2
  funext i
  fin_cases i
  · exact h0
  · exact h1
  · have : u 2 = v 2 := by linarith
    exact this

theorem exQ (ω : Fin 2 → ℝ) : (qmat exM exTh fun i => ω (exOut i)).det = (1 + 2 * ω 0) * (1 + 2 * ω 1) := by
  have h : (qmat exM exTh fun i => ω (exOut i)) = diagonal fun x : exT2.RE => 1 + 2 * ω x.2.2 := by
    rw [qmat, exG2', inv_one]
    ext ⟨a, b, c⟩ ⟨a', b', c'⟩
    have ha : a = a' := Subsingleton.elim (α := Fin 1) _ _
    have hb : b = b' := Subsingleton.elim (α := Fin 1) _ _
    subst ha hb
    have hz : ∀ c c' : Fin 2, (∑ i : Fin 4, (if (exOut i).val = c.val then 1 else 0) * (ω (exOut i) * if (exOut i).val = c'.val then 1 else 0)) =
        if c = c' then 2 * ω c else 0 := by
      intro c c'
      rw [Fin.sum_univ_four]
      fin_cases c <;> fin_cases c' <;> simp [exOut] <;> ring
    rw [Matrix.add_apply, Matrix.mul_apply]
    have hs : (∑ i : Fin 4, exM.Zᵀ (⟨a, b, c⟩ : exT2.RE) i * (diagonal (fun i => ω (exOut i)) * exM.Z) i (⟨a, b, c'⟩ : exT2.RE)) =
        if c = c' then 2 * ω c else 0 := by
      simp only [diagonal_mul, transpose_apply]
      exact hz c c'
    rw [hs]
    by_cases hc : c = c'
    · subst hc
      rw [if_pos rfl, Matrix.one_apply_eq, diagonal_apply_eq]
    · have hd : (⟨a, b, c⟩ : exT2.RE) ≠ ⟨a, b, c'⟩ := by simpa using hc
      rw [if_neg hc, Matrix.one_apply_ne hd, diagonal_apply_ne _ hd, add_zero]
  rw [h, det_diagonal, Fintype.prod_sigma]
  show ∏ x : Fin 1, ∏ y : Fin 1 × Fin 2, (1 + 2 * ω y.2) = _
  rw [Fin.prod_univ_one, Fintype.prod_prod_type, Fin.prod_univ_one, Fin.prod_univ_two]

variable {N q : ℕ} {cN : Mat (N + 1) (N + 1) → Option (Mat (N + 1) (N + 1))} {cq : Mat q q → Option (Mat q q)}

/-- The residual variances. -/
noncomputable def exR : Fin 2 → ℝ := ![1, 2]

theorem exR_pos (j) : 0 < exR j := by fin_cases j <;> simp [exR]

/-- With residual variances 1 and 2, `loglike` without `reml` is not the likelihood. -/
theorem C200_ml_violated (hN : CholOk cN) (hq : CholOk cq) {e : Ix exT2 2 ⊕ Unit ≃ Fin (N + 1)}
    (he : e (Sum.inr ()) = Fin.last N) (e' : exT2.RE ≃ Fin q) :
    ∃ v, loglike cN cq e e' exM exOut false exTh exR = some v ∧
      v ≠ devi false exM.X exM.y (mvcov exM exTh fun i => exR (exOut i)) := by
  obtain ⟨v, hv⟩ := C200_defined exT2_pd (fun _ => rfl) hN hq e e' exOut false exR_pos exTh_pd exM_inj
  refine ⟨v, hv, ?_⟩
  rw [C200_ml_value exT2_pd hN hq he exR_pos hv, exQ (fun _ => 1 / exR (Fin.last 1)), exQ (fun j => 1 / exR j)]
  have h1 : ((1 : ℝ) + 2 * (1 / exR (Fin.last 1))) * (1 + 2 * (1 / exR (Fin.last 1))) = 4 := by
    simp [exR, Fin.last]; norm_num
  have h2 : ((1 : ℝ) + 2 * (1 / exR 0)) * (1 + 2 * (1 / exR 1)) = 6 := by
    simp [exR]; norm_num
  rw [h1, h2, abs_of_pos (by norm_num), abs_of_pos (by norm_num)]
  have := Real.log_lt_log (by norm_num : (0 : ℝ) < 4) (by norm_num : (4 : ℝ) < 6)
  intro h
  linarith

theorem exVX : mvcov exM exTh (fun i => exR (exOut i)) * exM.X = exM.X * diagonal (![3, 4] : Fin 2 → ℝ) := by
  unfold mvcov
  rw [exG2', Matrix.mul_one]
  ext i j
  rw [Matrix.mul_apply, mul_diagonal]
  simp only [Matrix.add_apply, Matrix.mul_apply, Fintype.sum_sigma, transpose_apply, diagonal_apply]
  change Fin 2 at j
  have hs : ∀ a b : Fin 4, (∑ x : Fin 1, ∑ y : Fin 1 × Fin 2, exM.Z a (⟨x, y⟩ : exT2.RE) * exM.Z b (⟨x, y⟩ : exT2.RE)) =
      if exOut a = exOut b then 1 else 0 := by
    intro a b
    rw [Fin.sum_univ_one, Fintype.sum_prod_type, Fin.sum_univ_one, Fin.sum_univ_two]
    fin_cases a <;> fin_cases b <;> simp [exM, exOut]
  have hs' : ∀ a b : Fin 4, (∑ x : Fin exT2.K, ∑ y : Fin (exT2.nlv x) × Fin (exT2.nrv x), exM.Z a (⟨x, y⟩ : exT2.RE) *
      exM.Z b (⟨x, y⟩ : exT2.RE)) = if exOut a = exOut b then 1 else 0 := hs
  simp only [hs']
  rw [Fin.sum_univ_four]
  fin_cases i <;> fin_cases j <;> simp [exM, exOut, exR] <;> norm_num

theorem exV_unit : IsUnit (mvcov exM exTh fun i => exR (exOut i)).det := by
  have : (mvcov exM exTh fun i => exR (exOut i)).PosDef := by
    unfold mvcov
    rw [exG2', Matrix.mul_one]
    refine PosDef.posSemidef_add ?_ (PosDef.diagonal fun i => exR_pos _)
    have := posSemidef_self_mul_conjTranspose exM.Z
    rwa [conjTranspose_eq_transpose_of_trivial] at this
  exact this.det_pos.ne'.isUnit

theorem exViX : (mvcov exM exTh fun i => exR (exOut i))⁻¹ * exM.X = exM.X * diagonal (![1 / 3, 1 / 4] : Fin 2 → ℝ) := by
  have h : exM.X = mvcov exM exTh (fun i => exR (exOut i)) * (exM.X * diagonal (![1 / 3, 1 / 4] : Fin 2 → ℝ)) := by
    rw [← Matrix.mul_assoc, exVX, Matrix.mul_assoc, diagonal_mul_diagonal]
    have : (fun i => (![3, 4] : Fin 2 → ℝ) i * (![1 / 3, 1 / 4] : Fin 2 → ℝ) i) = fun _ => 1 := by
      funext i; fin_cases i <;> simp
    rw [this, diagonal_one, Matrix.mul_one]
  conv_lhs => rw [h]
  rw [← Matrix.mul_assoc, nonsing_inv_mul _ exV_unit, Matrix.one_mul]

theorem exXX : exM.Xᵀ * exM.X = diagonal fun _ => 2 := by
  ext i j
  rw [Matrix.mul_apply, Fin.sum_univ_four]
  fin_cases i <;> fin_cases j <;> simp [exM, exOut] <;> norm_num

theorem exXvx : xvx exM.X (mvcov exM exTh fun i => exR (exOut i)) = diagonal (![2 / 3, 1 / 2] : Fin 2 → ℝ) := by
  rw [xvx, Matrix.mul_assoc, exViX, ← Matrix.mul_assoc, exXX, diagonal_mul_diagonal]
  congr 1
  funext i
  fin_cases i <;> simp <;> norm_num

/-- The objective of a fit by maximum likelihood is not the likelihood. -/
theorem C200_objective_violated (hN : CholOk cN) (hq : CholOk cq) {es ed : Ix exT2 2 ⊕ Unit ≃ Fin (N + 1)}
    (hes : es (Sum.inr ()) = Fin.last N) (hed : ed (Sum.inr ()) = Fin.last N) (e' : exT2.RE ≃ Fin q) :
    ∃ v, loglikeC cN cq es ed e' exM exOut false exTh exR = some v ∧
      v ≠ devi false exM.X exM.y (mvcov exM exTh fun i => exR (exOut i)) := by
  obtain ⟨v, hv⟩ := C200_defined exT2_pd (fun _ => rfl) hN hq ed e' exOut true exR_pos exTh_pd exM_inj
  have hv' : loglikeC cN cq es ed e' exM exOut false exTh exR = some v := hv
  refine ⟨v, hv', ?_⟩
  rw [C200_objective_partial exT2_pd hN hq hes hed exR_pos hv']
  unfold devi
  rw [exXvx, det_diagonal, Fin.prod_univ_two]
  simp only [if_true, Bool.false_eq_true, if_false, add_zero]
  have h3 : (![2 / 3, 1 / 2] : Fin 2 → ℝ) 0 * (![2 / 3, 1 / 2] : Fin 2 → ℝ) 1 = 1 / 3 := by simp; norm_num
  rw [h3, abs_of_pos (by norm_num : (0 : ℝ) < 1 / 3)]
  have : Real.log (1 / 3) < 0 := Real.log_neg (by norm_num) (by norm_num)
  intro h
  linarith

/-- In a fit by maximum likelihood the gradient is not that of the objective: the entries for the residual variances of the two
differ. -/
theorem C200_fit_gradient_violated (hq : CholOk cq) (e' : exT2.RE ≃ Fin q) (j : Fin 2) :
    ∃ gG gR hG hR, gradient cq e' exM exOut false exTh exR = some (gG, gR) ∧
      gradient cq e' exM exOut true exTh exR = some (hG, hR) ∧ gR j ≠ hR j := by
  have hX : Function.Injective exM.X.mulVec := by
    intro u v huv
    have h0 := congrFun huv 0
    have h1 := congrFun huv 1
    simp [exM, mulVec, dotProduct, Fin.sum_univ_succ, exOut] at h0 h1
    funext i
    fin_cases i
    · exact h0
    · exact h1
  obtain ⟨⟨gG, gR⟩, hg⟩ := C200_gradient_defined exT2_pd (fun _ => rfl) hq e' exOut false exR_pos exTh_pd hX
  obtain ⟨⟨hG, hR⟩, hh⟩ := C200_gradient_defined exT2_pd (fun _ => rfl) hq e' exOut true exR_pos exTh_pd hX
  refine ⟨gG, gR, hG, hR, hg, hh, ?_⟩
  rw [(C200_gradient_components exT2_pd hq exR_pos hg).2.1, (C200_gradient_components exT2_pd hq exR_pos hh).2.1]
  unfold dform
  have hVt := vinv_symm (mvcov_symm exT2_pd exM exTh fun i => exR (exOut i))
  have ht : exM.Xᵀ * (mvcov exM exTh fun i => exR (exOut i))⁻¹ = diagonal (![1 / 3, 1 / 4] : Fin 2 → ℝ) * exM.Xᵀ := by
    have := congrArg transpose exViX
    rwa [transpose_mul, hVt, transpose_mul, diagonal_transpose] at this
  have hi : (xvx exM.X (mvcov exM exTh fun i => exR (exOut i)))⁻¹ = diagonal ![3 / 2, 2] := by
    rw [exXvx]
    refine inv_eq_right_inv ?_
    rw [diagonal_mul_diagonal, ← diagonal_one]
    congr 1
    funext i
    fin_cases i <;> simp
  have hd : exM.Xᵀ * dR exOut j * exM.X = diagonal fun i => if i = j then 2 else 0 := by
    ext a b
    rw [Matrix.mul_apply]
    simp only [dR, mul_diagonal, transpose_apply, Fin.sum_univ_four]
    fin_cases a <;> fin_cases b <;> fin_cases j <;> simp [exM, exOut] <;> norm_num
  have hm : exM.Xᵀ * (mvcov exM exTh fun i => exR (exOut i))⁻¹ * dR exOut j * (mvcov exM exTh fun i => exR (exOut i))⁻¹ * exM.X =
      diagonal fun i => (![1 / 3, 1 / 4] : Fin 2 → ℝ) i * (if i = j then 2 else 0) * (![1 / 3, 1 / 4] : Fin 2 → ℝ) i := by
    rw [ht, Matrix.mul_assoc _ _ exM.X, exViX, Matrix.mul_assoc (diagonal _) exM.Xᵀ, Matrix.mul_assoc (diagonal _),
      ← Matrix.mul_assoc (exM.Xᵀ * dR exOut j), hd, diagonal_mul_diagonal, diagonal_mul_diagonal]
    congr 1
    funext i
    ring
  rw [hm, hi, diagonal_mul_diagonal, trace_diagonal, Fin.sum_univ_two]
  simp only [if_true, Bool.false_eq_true, if_false, sub_zero]
  intro h
  fin_cases j
  · simp at h
    norm_num at h
    linarith
  · simp at h
    norm_num at h
    linarith

/-- The hypotheses of the theorems on `loglike`, `gradient` and `_compute_effects` can be met. -/
example : (∀ j, 0 < exR j) ∧ (∀ k, (invech (Terms.sl (T := exT2) exTh k)).PosDef) ∧ Function.Injective exM.Xy.mulVec ∧ exT2.Pd :=
  ⟨exR_pos, exTh_pd, exM_inj, exT2_pd⟩

end Verif.Lmm.Mlmm
