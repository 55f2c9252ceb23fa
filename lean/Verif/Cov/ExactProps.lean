import Verif.Cov.PsdProps
import Mathlib.LinearAlgebra.Matrix.PosDef

namespace Verif.Cov
open Matrix Verif.Fa Verif.Like

/-! ### Exact sample covariances -/

section
variable {n p : ℕ}

theorem mean_lin (X : Matrix (Fin n) (Fin p) ℝ) (M : Matrix (Fin p) (Fin p) ℝ) (mu : Fin p → ℝ) (hn : 0 < n) (j : Fin p) :
    mean (addRow mu (X * M)) j = mu j + (mean X ᵥ* M) j := by
  have hn' : (n : ℝ) ≠ 0 := by exact_mod_cast hn.ne'
  simp only [mean, addRow, Finset.sum_add_distrib, Finset.sum_const, Finset.card_univ, Fintype.card_fin, nsmul_eq_mul, Matrix.mul_apply, vecMul, dotProduct]
  rw [Finset.sum_comm, add_div, mul_div_cancel_left₀ _ hn', Finset.sum_div]
  congr 1
  exact Finset.sum_congr rfl fun k _ => by rw [← Finset.sum_mul]; ring

theorem scov_lin (X : Matrix (Fin n) (Fin p) ℝ) (M : Matrix (Fin p) (Fin p) ℝ) (mu : Fin p → ℝ) (hn : 0 < n) :
    scov (addRow mu (X * M)) = Mᵀ * scov X * M := by
  have e : center (addRow mu (X * M)) = center X * M := by
    ext i j
    rw [center, mean_lin X M mu hn]
    simp only [addRow, center, Matrix.mul_apply, vecMul, dotProduct, sub_mul, Finset.sum_sub_distrib]
    ring
  rw [scov, scov, e, transpose_mul, Matrix.mul_smul, Matrix.smul_mul]
  simp only [Matrix.mul_assoc]

theorem whiten_ok {chol : Matrix (Fin p) (Fin p) ℝ → Option (Matrix (Fin p) (Fin p) ℝ)} (hc : CholOk chol) {X : Matrix (Fin n) (Fin p) ℝ} (hX : (scov X).PosDef) (keep : Bool) :
    ∃ C : Matrix (Fin p) (Fin p) ℝ, C * Cᵀ = scov X ∧ IsUnit C.det ∧ (∀ i, 0 < C i i) ∧ whiten chol keep X = some (addRow (if keep then mean X else 0) (X * (C⁻¹)ᵀ)) := by
  obtain ⟨C, hC⟩ := hc.total _ hX
  obtain ⟨h1, h2, h3⟩ := hc.ok _ _ hC
  refine ⟨C, h1, unit_chol h2 h3, h3, ?_⟩
  simp only [whiten, hC, inv?_unit (unit_chol h2 h3), Option.bind_eq_bind, Option.bind_some]

theorem n_pos {X : Matrix (Fin n) (Fin p) ℝ} (hp : 0 < p) (hX : (scov X).PosDef) : 0 < n := by
  rcases Nat.eq_zero_or_pos n with h | h
  · subst h
    have := hX.diag_pos (i := ⟨0, hp⟩)
    simp [scov] at this
  · exact h

/-- **C130** The whitened data have the identity as their covariance matrix. -/
theorem C130_whiten {chol : Matrix (Fin p) (Fin p) ℝ → Option (Matrix (Fin p) (Fin p) ℝ)} (hc : CholOk chol) {X : Matrix (Fin n) (Fin p) ℝ} (hX : (scov X).PosDef) (keep : Bool) :
    ∃ Y, whiten chol keep X = some Y ∧ scov Y = 1 := by
  rcases Nat.eq_zero_or_pos p with hp | hp
  · subst hp
    obtain ⟨C, _, _, _, h⟩ := whiten_ok hc hX keep
    exact ⟨_, h, Subsingleton.elim _ _⟩
  obtain ⟨C, h1, h2, h4, h3⟩ := whiten_ok hc hX keep
  refine ⟨_, h3, ?_⟩
  rw [scov_lin _ _ _ (n_pos hp hX), transpose_transpose, ← h1, ← Matrix.mul_assoc, nonsing_inv_mul _ h2, Matrix.one_mul, ← transpose_mul, nonsing_inv_mul _ h2, transpose_one]

/-- Positive semidefinite matrices with the same square are equal. -/
theorem psd_sq {P Q : Matrix (Fin p) (Fin p) ℝ} (hP : P.PosSemidef) (hQ : Q.PosSemidef) (h : P * P = Q * Q) : P = Q := by
  have hPs : Pᵀ = P := by have := hP.1.eq; rwa [conjTranspose_eq_transpose_of_trivial] at this
  have hQs : Qᵀ = Q := by have := hQ.1.eq; rwa [conjTranspose_eq_transpose_of_trivial] at this
  obtain ⟨E, hE⟩ : ∃ E, E = P - Q := ⟨_, rfl⟩
  have hEs : Eᵀ = E := by rw [hE, transpose_sub, hPs, hQs]
  have hEc : Eᴴ = E := by rw [conjTranspose_eq_transpose_of_trivial, hEs]
  have h1 : P * E + E * Q = 0 := by rw [hE, Matrix.mul_sub, Matrix.sub_mul, h]; abel
  have p1 := hP.conjTranspose_mul_mul_same E
  have p2 := hQ.conjTranspose_mul_mul_same E
  rw [hEc] at p1 p2
  have ht : (E * P * E).trace + (E * Q * E).trace = 0 := by
    have : (E * (P * E + E * Q)).trace = 0 := by rw [h1, Matrix.mul_zero, trace_zero]
    rw [Matrix.mul_add, trace_add, ← Matrix.mul_assoc] at this
    rw [← this]
    congr 1
    rw [Matrix.mul_assoc, trace_mul_comm, Matrix.mul_assoc, trace_mul_comm, Matrix.mul_assoc]
  have t1 := p1.trace_nonneg
  have t2 := p2.trace_nonneg
  have z1 := p1.trace_eq_zero_iff.1 (by linarith)
  have z2 := p2.trace_eq_zero_iff.1 (by linarith)
  have h3 : E * E * E = 0 := by
    have : E * (P - Q) * E = 0 := by rw [Matrix.mul_sub, Matrix.sub_mul, z1, z2, sub_zero]
    rwa [← hE] at this
  have h4 : E * E = 0 := by
    have : (E * E)ᴴ * (E * E) = 0 := by rw [conjTranspose_mul, hEc, ← Matrix.mul_assoc, h3, Matrix.zero_mul]
    exact conjTranspose_mul_self_eq_zero.1 this
  have h5 : E = 0 := conjTranspose_mul_self_eq_zero.1 (by rw [hEc, h4])
  exact sub_eq_zero.1 (hE ▸ h5)

/-- **C130** The factor of a positive semidefinite matrix taken from its singular value decomposition. -/
theorem C130_svd_factor {svd} (hs : SvdOk (m := p) svd) {S : Matrix (Fin p) (Fin p) ℝ} (hS : S.PosSemidef) : svdCov svd S * (svdCov svd S)ᵀ = S := by
  have hSs : Sᵀ = S := by have := hS.1.eq; rwa [conjTranspose_eq_transpose_of_trivial] at this
  have h1 : svdCov svd S * (svdCov svd S)ᵀ = (svd S).1 * diagonal (svd S).2.1 * (svd S).1ᵀ := by
    rw [svdCov, transpose_mul, diagonal_transpose, Matrix.mul_assoc, ← Matrix.mul_assoc (diagonal _), diagonal_mul_diagonal, ← Matrix.mul_assoc]
    congr 3
    funext i
    exact Real.mul_self_sqrt (hs.nonneg S i)
  rw [h1]
  refine psd_sq (spec_psd (hs.nonneg S)) hS ?_
  rw [spec_mul (hs.u S)]
  have e : S * S = S * Sᵀ := by rw [hSs]
  rw [e]
  conv_rhs => rw [← hs.eq S]
  rw [transpose_mul, transpose_mul, diagonal_transpose,
    show (svd S).1 * diagonal (svd S).2.1 * (svd S).2.2 * ((svd S).2.2ᵀ * (diagonal (svd S).2.1 * (svd S).1ᵀ)) =
      (svd S).1 * diagonal (svd S).2.1 * ((svd S).2.2 * (svd S).2.2ᵀ) * diagonal (svd S).2.1 * (svd S).1ᵀ by simp only [Matrix.mul_assoc],
    hs.v, Matrix.mul_one, Matrix.mul_assoc (svd S).1 (diagonal _) (diagonal _), diagonal_mul_diagonal]

/-- **C130** `_exact_cov` gives data whose sample covariance matrix is the one asked for. -/
theorem C130_exact {chol : Matrix (Fin p) (Fin p) ℝ → Option (Matrix (Fin p) (Fin p) ℝ)} (hc : CholOk chol) {svd} (hs : SvdOk (m := p) svd) {X : Matrix (Fin n) (Fin p) ℝ}
    (hX : (scov X).PosDef) {S : Matrix (Fin p) (Fin p) ℝ} (hS : S.PosSemidef) (mu : Fin p → ℝ) (keep : Bool) : ∃ Z, exactCov chol svd mu S keep X = some Z ∧ scov Z = S := by
  obtain ⟨Y, hY, h1⟩ := C130_whiten hc hX keep
  refine ⟨_, by rw [exactCov, hY, Option.map_some], ?_⟩
  rcases Nat.eq_zero_or_pos p with hp | hp
  · subst hp; exact Subsingleton.elim _ _
  rw [scov_lin _ _ _ (n_pos hp hX), h1, Matrix.mul_one, transpose_transpose, C130_svd_factor hs hS]

/-- **C130** Its sample mean is the mean asked for when the data given are centred. -/
theorem C130_exact_mean_partial {chol : Matrix (Fin p) (Fin p) ℝ → Option (Matrix (Fin p) (Fin p) ℝ)} (hc : CholOk chol) {svd} {X : Matrix (Fin n) (Fin p) ℝ}
    (hX : (scov X).PosDef) (h0 : mean X = 0) {S : Matrix (Fin p) (Fin p) ℝ} (mu : Fin p → ℝ) (keep : Bool) : ∃ Z, exactCov chol svd mu S keep X = some Z ∧ mean Z = mu := by
  obtain ⟨C, h1, h2, h4, h3⟩ := whiten_ok hc hX keep
  refine ⟨_, by rw [exactCov, h3, Option.map_some], ?_⟩
  funext j
  have hn := n_pos (lt_of_le_of_lt (Nat.zero_le _) j.2) hX
  rw [mean_lin _ _ _ hn]
  have : mean (addRow (if keep then mean X else 0) (X * (C⁻¹)ᵀ)) = 0 := by
    funext k
    rw [mean_lin _ _ _ hn, h0]
    simp
  rw [this]
  simp

/-- **C130** Violated: data that are not centred, or whose mean is to be kept, miss the mean asked for: two observations
`0` and `2` of one variable, with mean zero and variance one asked for, give the mean one, or two if it is to be kept. -/
theorem C130_exact_violated {chol : Matrix (Fin 1) (Fin 1) ℝ → Option (Matrix (Fin 1) (Fin 1) ℝ)} (hc : CholOk chol) {svd} (hs : SvdOk (m := 1) svd) (keep : Bool) :
    ∃ Z, exactCov chol svd 0 1 keep (!![0; 2] : Matrix (Fin 2) (Fin 1) ℝ) = some Z ∧ mean Z ≠ 0 := by
  have hm : mean (!![0; 2] : Matrix (Fin 2) (Fin 1) ℝ) = fun _ => 1 := by
    funext j; simp [mean, Fin.sum_univ_two]
  have hS : scov (!![0; 2] : Matrix (Fin 2) (Fin 1) ℝ) = 1 := by
    ext i j
    fin_cases i; fin_cases j
    simp [scov, center, hm, Matrix.mul_apply, Fin.sum_univ_two]
    norm_num
  have hX : (scov (!![0; 2] : Matrix (Fin 2) (Fin 1) ℝ)).PosDef := by rw [hS]; exact PosDef.one
  obtain ⟨C, h1, h2, h4, h3⟩ := whiten_ok hc hX keep
  have hC : C = 1 := by
    have e := congrFun (congrFun (h1.trans hS) 0) 0
    simp only [Matrix.mul_apply, Fin.sum_univ_one, transpose_apply, one_apply_eq] at e
    ext i j
    fin_cases i; fin_cases j
    change C 0 0 = 1
    nlinarith [h4 0]
  refine ⟨_, by rw [exactCov, h3, Option.map_some], fun h => ?_⟩
  have hF := congrFun (congrFun (C130_svd_factor hs (PosSemidef.one (n := Fin 1) (R := ℝ))) 0) 0
  simp only [Matrix.mul_apply, Fin.sum_univ_one, transpose_apply, one_apply_eq] at hF
  have e := congrFun h 0
  rw [mean_lin _ _ _ (by norm_num)] at e
  simp only [vecMul, dotProduct, Fin.sum_univ_one, mean_lin _ _ _ (by norm_num : 0 < 2), hm, hC, inv_one, transpose_one, one_apply_eq, transpose_apply, Pi.zero_apply] at e
  rcases mul_eq_zero.1 ((zero_add _).symm.trans e) with h0 | h0
  · cases keep <;> norm_num at h0
  · rw [h0] at hF; norm_num at hF

end

/-! ### Joint correlations with given canonical correlations -/

section
variable {p q : ℕ}

theorem joint_psd {Sxx : Matrix (Fin p) (Fin p) ℝ} {Syy : Matrix (Fin q) (Fin q) ℝ} (hx : Sxx.IsSymm) (hy : Syy.IsSymm) (Sxy : Matrix (Fin p) (Fin q) ℝ) :
    (joint Sxx Syy Sxy).PosSemidef ↔ ∀ (x : Fin p → ℝ) (y : Fin q → ℝ), 0 ≤ x ⬝ᵥ (Sxx *ᵥ x) + 2 * (x ⬝ᵥ (Sxy *ᵥ y)) + y ⬝ᵥ (Syy *ᵥ y) := by
  have hq : ∀ (x : Fin p → ℝ) (y : Fin q → ℝ), Sum.elim x y ⬝ᵥ (joint Sxx Syy Sxy *ᵥ Sum.elim x y) = x ⬝ᵥ (Sxx *ᵥ x) + 2 * (x ⬝ᵥ (Sxy *ᵥ y)) + y ⬝ᵥ (Syy *ᵥ y) := by
    intro x y
    have e : y ⬝ᵥ (Sxyᵀ *ᵥ x) = x ⬝ᵥ (Sxy *ᵥ y) := by rw [mulVec_transpose, dotProduct_comm, dotProduct_mulVec]
    rw [joint, fromBlocks_mulVec, Sum.elim_comp_inl, Sum.elim_comp_inr, sumElim_dotProduct_sumElim, dotProduct_add, dotProduct_add, e]
    ring
  constructor
  · intro h x y
    rw [← hq]
    exact h.dotProduct_mulVec_nonneg (Sum.elim x y)
  · intro h
    refine PosSemidef.of_dotProduct_mulVec_nonneg ?_ fun v => ?_
    · rw [Matrix.IsHermitian, conjTranspose_eq_transpose_of_trivial, joint, fromBlocks_transpose, transpose_transpose, hx.eq, hy.eq]
    · have := h (v ∘ Sum.inl) (v ∘ Sum.inr)
      rw [← hq, Sum.elim_comp_inl_inr] at this
      exact this

/-- The matrix with `r` on its diagonal and zeros beside it. -/
def rect (q : ℕ) (r : Fin p → ℝ) : Matrix (Fin p) (Fin (p + q)) ℝ := fun i j => if j = Fin.castAdd q i then r i else 0

theorem rect_quad (r : Fin p → ℝ) (a : Fin p → ℝ) (b : Fin (p + q) → ℝ) : a ⬝ᵥ (rect q r *ᵥ b) = ∑ i, a i * r i * b (Fin.castAdd q i) := by
  simp only [dotProduct, mulVec, rect, ite_mul, zero_mul, Finset.sum_ite_eq', Finset.mem_univ, if_true, mul_assoc]

theorem whitenMat_ok {eigh : Matrix (Fin p) (Fin p) ℝ → (Fin p → ℝ) × Matrix (Fin p) (Fin p) ℝ} (he : EighOk eigh) {S : Matrix (Fin p) (Fin p) ℝ} (hS : S.PosDef) :
    IsUnit (whitenMat eigh S).det ∧ (whitenMat eigh S)ᵀ * S * whitenMat eigh S = 1 := by
  have hs : S.IsSymm := by have := hS.1.eq; rwa [conjTranspose_eq_transpose_of_trivial] at this
  obtain ⟨h1, h2⟩ := he S hs
  have hpos : ∀ i, 0 < (eigh S).1 i := by
    intro i
    have hu : IsUnit (eigh S).2 := IsUnit.of_mul_eq_one _ (orth' h1)
    have := hS.conjTranspose_mul_mul_same (B := (eigh S).2) (mulVec_injective_of_isUnit hu)
    rw [conjTranspose_eq_transpose_of_trivial] at this
    have e2 : (eigh S).2ᵀ * S * (eigh S).2 = diagonal (eigh S).1 := by
      conv_lhs => arg 1; arg 2; rw [h2]
      exact spec_diag h1 _
    rw [e2] at this
    simpa using this.diag_pos (i := i)
  have h3 : (whitenMat eigh S)ᵀ * S * whitenMat eigh S = 1 := by
    have e : (whitenMat eigh S)ᵀ * S * whitenMat eigh S = diagonal (fun i => √(1 / (eigh S).1 i)) * ((eigh S).2ᵀ * S * (eigh S).2) * diagonal (fun i => √(1 / (eigh S).1 i)) := by
      rw [whitenMat, transpose_mul, diagonal_transpose]
      simp only [Matrix.mul_assoc]
    have e2 : (eigh S).2ᵀ * S * (eigh S).2 = diagonal (eigh S).1 := by
      conv_lhs => arg 1; arg 2; rw [h2]
      exact spec_diag h1 _
    rw [e, e2, diagonal_mul_diagonal, diagonal_mul_diagonal, ← diagonal_one]
    refine congrArg diagonal (funext fun i => ?_)
    have h0 := hpos i
    rw [mul_right_comm, Real.mul_self_sqrt (by positivity)]
    field_simp
  refine ⟨?_, h3⟩
  have := congrArg det h3
  rw [det_mul, det_one] at this
  exact IsUnit.of_mul_eq_one _ ((mul_comm _ _).trans this)

theorem of_whiten {A S : Matrix (Fin p) (Fin p) ℝ} (hu : IsUnit A.det) (h : Aᵀ * S * A = 1) : S = (Aᵀ)⁻¹ * A⁻¹ := by
  have hu' : IsUnit Aᵀ.det := by rwa [det_transpose]
  calc S = (Aᵀ)⁻¹ * (Aᵀ * S * A) * A⁻¹ := by
        rw [show (Aᵀ)⁻¹ * (Aᵀ * S * A) * A⁻¹ = ((Aᵀ)⁻¹ * Aᵀ) * S * (A * A⁻¹) by simp only [Matrix.mul_assoc], nonsing_inv_mul _ hu', mul_nonsing_inv _ hu, Matrix.one_mul, Matrix.mul_one]
    _ = _ := by rw [h, Matrix.mul_one]

/-- **C130** `get_canvar_corr(Sxx, Syy, r)` has the canonical correlations `r`, and is positive semidefinite exactly
when they are correlations. -/
theorem C130_canvar {ex : Matrix (Fin p) (Fin p) ℝ → (Fin p → ℝ) × Matrix (Fin p) (Fin p) ℝ}
    {ey : Matrix (Fin (p + q)) (Fin (p + q)) ℝ → (Fin (p + q) → ℝ) × Matrix (Fin (p + q)) (Fin (p + q)) ℝ} (hex : EighOk ex) (hey : EighOk ey)
    {Sxx : Matrix (Fin p) (Fin p) ℝ} {Syy : Matrix (Fin (p + q)) (Fin (p + q)) ℝ} (hx : Sxx.PosDef) (hy : Syy.PosDef) (r : Fin p → ℝ) :
    ∃ Sxy A B, jointR ex ey Sxx Syy r = some Sxy ∧ Aᵀ * Sxx * A = 1 ∧ Bᵀ * Syy * B = 1 ∧ Aᵀ * Sxy * B = rect q r ∧ ((joint Sxx Syy Sxy).PosSemidef ↔ ∀ i, |r i| ≤ 1) := by
  obtain ⟨hA, a1⟩ := whitenMat_ok hex hx
  obtain ⟨hB, b1⟩ := whitenMat_ok hey hy
  obtain ⟨A, eA⟩ : ∃ A, A = whitenMat ex Sxx := ⟨_, rfl⟩
  obtain ⟨B, eB⟩ : ∃ B, B = whitenMat ey Syy := ⟨_, rfl⟩
  rw [← eA] at hA a1
  rw [← eB] at hB b1
  have hA' : IsUnit Aᵀ.det := by rwa [det_transpose]
  have hSxy : jointR ex ey Sxx Syy r = some ((Aᵀ)⁻¹ * rect q r * B⁻¹) := by
    simp only [jointR, ← eA, ← eB, inv?_unit hA', inv?_unit hB, Option.bind_eq_bind, Option.bind_some]
    congr 1
    rw [Matrix.mul_assoc, Matrix.mul_assoc]
    congr 1
    ext i j
    simp only [Matrix.mul_apply, diagonal_apply, submatrix_apply, id, rect, ite_mul, zero_mul, Finset.sum_ite_eq, Finset.sum_ite_eq', Finset.mem_univ, if_true]
  refine ⟨_, A, B, hSxy, a1, b1, ?_, ?_⟩
  · rw [show Aᵀ * ((Aᵀ)⁻¹ * rect q r * B⁻¹) * B = (Aᵀ * (Aᵀ)⁻¹) * rect q r * (B⁻¹ * B) by simp only [Matrix.mul_assoc], mul_nonsing_inv _ hA', nonsing_inv_mul _ hB,
      Matrix.one_mul, Matrix.mul_one]
  have hq : ∀ x y, x ⬝ᵥ (Sxx *ᵥ x) + 2 * (x ⬝ᵥ (((Aᵀ)⁻¹ * rect q r * B⁻¹) *ᵥ y)) + y ⬝ᵥ (Syy *ᵥ y) =
      (A⁻¹ *ᵥ x) ⬝ᵥ (A⁻¹ *ᵥ x) + 2 * ∑ i, (A⁻¹ *ᵥ x) i * r i * (B⁻¹ *ᵥ y) (Fin.castAdd q i) + (B⁻¹ *ᵥ y) ⬝ᵥ (B⁻¹ *ᵥ y) := by
    intro x y
    have e1 : ∀ (k l : ℕ) (M : Matrix (Fin k) (Fin l) ℝ) (u : Fin k → ℝ) (v : Fin l → ℝ), u ⬝ᵥ (M *ᵥ v) = (Mᵀ *ᵥ u) ⬝ᵥ v := by
      intro k l M u v; rw [dotProduct_mulVec, mulVec_transpose]
    rw [← rect_quad, of_whiten hA a1, of_whiten hB b1, ← mulVec_mulVec, ← mulVec_mulVec, ← mulVec_mulVec, ← mulVec_mulVec, e1 _ _ (Aᵀ)⁻¹, e1 _ _ (Aᵀ)⁻¹, e1 _ _ (Bᵀ)⁻¹,
      transpose_nonsing_inv, transpose_nonsing_inv, transpose_transpose, transpose_transpose]
  have sx : Sxx.IsSymm := by have := hx.1.eq; rwa [conjTranspose_eq_transpose_of_trivial] at this
  have sy : Syy.IsSymm := by have := hy.1.eq; rwa [conjTranspose_eq_transpose_of_trivial] at this
  rw [joint_psd sx sy]
  constructor
  · intro h i
    have h1 : ∀ s : ℝ, s * s = 1 → 0 ≤ 1 + s * r i := by
      intro s hs
      have := h (A *ᵥ Pi.single i s) (B *ᵥ Pi.single (Fin.castAdd q i) 1)
      rw [hq, mulVec_mulVec, mulVec_mulVec, nonsing_inv_mul _ hA, nonsing_inv_mul _ hB, one_mulVec, one_mulVec, single_dotProduct, single_dotProduct] at this
      rw [Finset.sum_eq_single i (fun k _ hk => by simp [hk]) (by simp)] at this
      simp only [Pi.single_eq_same, hs, one_mul, mul_one] at this
      linarith
    exact abs_le.2 ⟨by linarith [h1 1 (by norm_num)], by linarith [h1 (-1) (by norm_num)]⟩
  · intro h x y
    rw [hq]
    obtain ⟨a, ea⟩ : ∃ a, a = A⁻¹ *ᵥ x := ⟨_, rfl⟩
    obtain ⟨b, eb⟩ : ∃ b, b = B⁻¹ *ᵥ y := ⟨_, rfl⟩
    rw [← ea, ← eb]
    have hb : ∑ i : Fin p, b (Fin.castAdd q i) ^ 2 ≤ b ⬝ᵥ b := by
      rw [dotProduct, Fin.sum_univ_add]
      have : 0 ≤ ∑ i : Fin q, b (Fin.natAdd p i) * b (Fin.natAdd p i) := Finset.sum_nonneg fun i _ => mul_self_nonneg _
      have e : ∑ i : Fin p, b (Fin.castAdd q i) ^ 2 = ∑ i : Fin p, b (Fin.castAdd q i) * b (Fin.castAdd q i) := Finset.sum_congr rfl fun i _ => by ring
      linarith
    have : 0 ≤ ∑ i, (a i * a i + 2 * (a i * r i * b (Fin.castAdd q i)) + b (Fin.castAdd q i) ^ 2) := by
      refine Finset.sum_nonneg fun i _ => ?_
      have := abs_le.1 (h i)
      have h2 : r i ^ 2 ≤ 1 := by nlinarith
      nlinarith [sq_nonneg (a i + r i * b (Fin.castAdd q i)), sq_nonneg (b (Fin.castAdd q i))]
    rw [Finset.sum_add_distrib, Finset.sum_add_distrib, ← Finset.mul_sum] at this
    have e : a ⬝ᵥ a = ∑ i, a i * a i := rfl
    linarith

theorem normalize_gram {k : ℕ} {S : Matrix (Fin p) (Fin p) ℝ} {V : Matrix (Fin p) (Fin k) ℝ} (h0 : ∀ i j, i ≠ j → (Vᵀ * S * V) i j = 0) (h1 : ∀ j, 0 < (Vᵀ * S * V) j j) :
    (normalizeXtrx V S)ᵀ * S * normalizeXtrx V S = 1 := by
  have hw : ∀ j, ∑ a, ∑ b, V a j * S a b * V b j = (Vᵀ * S * V) j j := by
    intro j
    simp only [Matrix.mul_apply, transpose_apply, Finset.sum_mul]
    rw [Finset.sum_comm]
  have hn : normalizeXtrx V S = V * diagonal fun j => (√((Vᵀ * S * V) j j))⁻¹ := by
    ext i j
    rw [mul_diagonal, normalizeXtrx, hw, div_eq_mul_inv]
  rw [hn, transpose_mul, diagonal_transpose]
  have : ∀ D : Matrix (Fin k) (Fin k) ℝ, D * Vᵀ * S * (V * D) = D * (Vᵀ * S * V) * D := fun D => by simp only [Matrix.mul_assoc]
  rw [this]
  ext i j
  rw [mul_diagonal, diagonal_mul]
  by_cases hij : i = j
  · subst hij
    rw [one_apply_eq, mul_right_comm, ← mul_inv, Real.mul_self_sqrt (h1 i).le, inv_mul_cancel₀ (h1 i).ne']
  · rw [h0 i j hij, one_apply_ne hij]; ring

/-- **C130** `get_canvar_corr(Sxx, Syy, r, Vx, Vy)` has the canonical correlations `r` with the directions given, and is
positive semidefinite, when the directions are uncorrelated. -/
theorem C130_canvar_eig_partial {k : ℕ} {Sxx : Matrix (Fin p) (Fin p) ℝ} {Syy : Matrix (Fin q) (Fin q) ℝ} {Vx : Matrix (Fin p) (Fin k) ℝ} {Vy : Matrix (Fin q) (Fin k) ℝ} (hx : Sxx.PosSemidef)
    (hy : Syy.PosSemidef) (x0 : ∀ i j, i ≠ j → (Vxᵀ * Sxx * Vx) i j = 0) (x1 : ∀ j, 0 < (Vxᵀ * Sxx * Vx) j j) (y0 : ∀ i j, i ≠ j → (Vyᵀ * Syy * Vy) i j = 0)
    (y1 : ∀ j, 0 < (Vyᵀ * Syy * Vy) j j) (r : Fin k → ℝ) :
    (normalizeXtrx Vx Sxx)ᵀ * jointEig Sxx Syy Vx Vy r * normalizeXtrx Vy Syy = diagonal r ∧ ((∀ i, |r i| ≤ 1) → (joint Sxx Syy (jointEig Sxx Syy Vx Vy r)).PosSemidef) := by
  have gx := normalize_gram x0 x1
  have gy := normalize_gram y0 y1
  obtain ⟨W, eW⟩ : ∃ W, W = normalizeXtrx Vx Sxx := ⟨_, rfl⟩
  obtain ⟨U, eU⟩ : ∃ U, U = normalizeXtrx Vy Syy := ⟨_, rfl⟩
  rw [jointEig]
  rw [← eW] at gx ⊢
  rw [← eU] at gy ⊢
  have sx : Sxx.IsSymm := by have := hx.1.eq; rwa [conjTranspose_eq_transpose_of_trivial] at this
  have sy : Syy.IsSymm := by have := hy.1.eq; rwa [conjTranspose_eq_transpose_of_trivial] at this
  constructor
  · rw [show Wᵀ * (Sxx * (W * diagonal r * Uᵀ) * Syy) * U = (Wᵀ * Sxx * W) * diagonal r * (Uᵀ * Syy * U) by simp only [Matrix.mul_assoc], gx, gy, Matrix.one_mul, Matrix.mul_one]
  intro hr
  have bessel : ∀ {d : ℕ} {S : Matrix (Fin d) (Fin d) ℝ} {V : Matrix (Fin d) (Fin k) ℝ} (_ : S.PosSemidef) (_ : S.IsSymm) (_ : Vᵀ * S * V = 1) (x : Fin d → ℝ),
      ((Vᵀ * S) *ᵥ x) ⬝ᵥ ((Vᵀ * S) *ᵥ x) ≤ x ⬝ᵥ (S *ᵥ x) := by
    intro d S V hS hs hV x
    have h := (hS.conjTranspose_mul_mul_same (1 - V * Vᵀ * S)).dotProduct_mulVec_nonneg x
    have e : (1 - V * Vᵀ * S)ᴴ * S * (1 - V * Vᵀ * S) = S - (Vᵀ * S)ᵀ * (Vᵀ * S) := by
      rw [conjTranspose_eq_transpose_of_trivial, transpose_sub, transpose_mul, transpose_mul, transpose_mul, transpose_transpose, transpose_one, hs.eq, Matrix.sub_mul, Matrix.one_mul,
        Matrix.mul_sub, Matrix.mul_one, Matrix.sub_mul]
      have e2 : S * (V * Vᵀ) * S * (V * Vᵀ * S) = S * V * (Vᵀ * S * V) * (Vᵀ * S) := by simp only [Matrix.mul_assoc]
      rw [e2, hV, Matrix.mul_one]
      simp only [Matrix.mul_assoc]
      abel
    rw [e, sub_mulVec, dotProduct_sub, ← mulVec_mulVec, dotProduct_mulVec _ (Vᵀ * S)ᵀ, vecMul_transpose] at h
    simpa using h
  rw [joint_psd sx sy]
  intro x y
  have h1 := bessel hx sx gx x
  have h2 := bessel hy sy gy y
  have e : x ⬝ᵥ ((Sxx * (W * diagonal r * Uᵀ) * Syy) *ᵥ y) = ((Wᵀ * Sxx) *ᵥ x) ⬝ᵥ (diagonal r *ᵥ ((Uᵀ * Syy) *ᵥ y)) := by
    rw [show Sxx * (W * diagonal r * Uᵀ) * Syy = (Wᵀ * Sxx)ᵀ * (diagonal r * (Uᵀ * Syy)) by rw [transpose_mul, transpose_transpose, sx.eq]; simp only [Matrix.mul_assoc],
      ← mulVec_mulVec, ← mulVec_mulVec, dotProduct_mulVec, vecMul_transpose]
  rw [e]
  obtain ⟨a, ea⟩ : ∃ a, a = (Wᵀ * Sxx) *ᵥ x := ⟨_, rfl⟩
  obtain ⟨b, eb⟩ : ∃ b, b = (Uᵀ * Syy) *ᵥ y := ⟨_, rfl⟩
  rw [← ea] at h1 ⊢
  rw [← eb] at h2 ⊢
  have : 0 ≤ ∑ i, (a i * a i + 2 * (a i * (r i * b i)) + b i * b i) := by
    refine Finset.sum_nonneg fun i _ => ?_
    have := abs_le.1 (hr i)
    have h2 : r i ^ 2 ≤ 1 := by nlinarith
    nlinarith [sq_nonneg (a i + r i * b i), sq_nonneg (b i)]
  rw [Finset.sum_add_distrib, Finset.sum_add_distrib, ← Finset.mul_sum] at this
  have e1 : a ⬝ᵥ a = ∑ i, a i * a i := rfl
  have e2 : b ⬝ᵥ b = ∑ i, b i * b i := rfl
  have e3 : a ⬝ᵥ (diagonal r *ᵥ b) = ∑ i, a i * (r i * b i) := by simp only [dotProduct, mulVec_diagonal]
  linarith

/-- **C130** Violated: with directions that are correlated the canonical correlations asked for are missed, and the
result need not be a covariance matrix. -/
theorem C130_canvar_eig_violated : jointEig (1 : Matrix (Fin 2) (Fin 2) ℝ) (1 : Matrix (Fin 2) (Fin 2) ℝ) !![1, 1; 0, 1] !![1, 1; 0, 1] ![9 / 10, 9 / 10] 0 0 = 27 / 20 ∧
    ¬ (joint (1 : Matrix (Fin 2) (Fin 2) ℝ) (1 : Matrix (Fin 2) (Fin 2) ℝ) (jointEig 1 1 !![1, 1; 0, 1] !![1, 1; 0, 1] ![9 / 10, 9 / 10])).PosSemidef := by
  have h2 : √2 * √2 = (2 : ℝ) := Real.mul_self_sqrt (by norm_num)
  have e : jointEig (1 : Matrix (Fin 2) (Fin 2) ℝ) (1 : Matrix (Fin 2) (Fin 2) ℝ) !![1, 1; 0, 1] !![1, 1; 0, 1] ![9 / 10, 9 / 10] 0 0 = 27 / 20 := by
    simp [jointEig, Matrix.mul_apply, Fin.sum_univ_two, normalizeXtrx, diagonal_apply, one_apply]
    norm_num
    field_simp
    nlinarith
  refine ⟨e, fun h => ?_⟩
  have := (joint_psd isSymm_one isSymm_one _).1 h ![1, 0] ![-1, 0]
  simp only [one_mulVec] at this
  simp only [dotProduct, mulVec, Fin.sum_univ_two, cons_val_zero, cons_val_one, mul_zero, add_zero, zero_mul, e] at this
  norm_num at this

end

/-- The contracts can be met. -/
example (m : ℕ) : (∃ eigh, EighOk (m := m) eigh) ∧ ∃ chol : Matrix (Fin m) (Fin m) ℝ → Option (Matrix (Fin m) (Fin m) ℝ), CholOk chol := ⟨eigh_exists m, cholOk_exists m⟩

end Verif.Cov
