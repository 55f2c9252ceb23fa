import Mathlib.Analysis.Complex.ExponentialBounds
import Mathlib.Tactic.NormNum
import Mathlib.Tactic.Linarith
import Verif.Mv.CcaProps
import Verif.Mv.Ica

/-!
Independent components: symmetric decorrelation, whitening and reconstruction, and the defects of the update and of the
convergence check.
-/

open Matrix

namespace Verif.Mv

section decorr
variable {k : ℕ} {eigh : Matrix (Fin k) (Fin k) ℝ → (Fin k → ℝ) × Matrix (Fin k) (Fin k) ℝ}

/-- The cross product of a nonsingular matrix has positive eigenvalues. -/
theorem eig_pos (he : Verif.Cov.EighOk eigh) (W : Matrix (Fin k) (Fin k) ℝ) (hW : IsUnit W.det) (i : Fin k) : 0 < (eigh (Wᵀ * W)).1 i := by
  obtain ⟨h1, h2⟩ := he (Wᵀ * W) (by rw [IsSymm, transpose_mul, transpose_transpose])
  set V := (eigh (Wᵀ * W)).2
  set u := (eigh (Wᵀ * W)).1
  have hd : (W * V)ᵀ * (W * V) = diagonal u := by
    rw [transpose_mul, show Vᵀ * Wᵀ * (W * V) = Vᵀ * (Wᵀ * W) * V by simp only [Matrix.mul_assoc], h2]
    rw [show Vᵀ * (V * diagonal u * Vᵀ) * V = (Vᵀ * V) * diagonal u * (Vᵀ * V) by simp only [Matrix.mul_assoc], h1, Matrix.one_mul, Matrix.mul_one]
  have hn : 0 ≤ u i := by
    have := congrFun (congrFun hd i) i
    rw [Matrix.mul_apply, diagonal_apply_eq] at this
    rw [← this]
    exact Finset.sum_nonneg fun a _ => by rw [transpose_apply]; exact mul_self_nonneg _
  have hdet : (diagonal u).det ≠ 0 := by
    rw [← hd, det_mul, det_transpose, det_mul]
    have hV : V.det ≠ 0 := by
      intro h
      have := congrArg det h1
      rw [det_mul, det_transpose, h, det_one] at this
      norm_num at this
    have := hW.ne_zero
    positivity
  rw [det_diagonal] at hdet
  exact lt_of_le_of_ne hn (Ne.symm (Finset.prod_ne_zero_iff.1 hdet i (Finset.mem_univ i)))

/-- `symmetric_decorr`: for a nonsingular matrix the result is orthogonal, and it is the polar factor: its product with
the argument is symmetric and positive semidefinite. -/
theorem C142_decorr (he : Verif.Cov.EighOk eigh) (W : Matrix (Fin k) (Fin k) ℝ) (hW : IsUnit W.det) :
    (symDecorr eigh W)ᵀ * symDecorr eigh W = 1 ∧ ((symDecorr eigh W)ᵀ * W).IsSymm ∧ ∀ x, 0 ≤ x ⬝ᵥ (((symDecorr eigh W)ᵀ * W) *ᵥ x) := by
  have hpos := eig_pos he W hW
  obtain ⟨h1, h2⟩ := he (Wᵀ * W) (by rw [IsSymm, transpose_mul, transpose_transpose])
  unfold symDecorr
  set V := (eigh (Wᵀ * W)).2
  set u := (eigh (Wᵀ * W)).1
  have RT : (V * diagonal (fun i => √(1 / u i)) * Vᵀ)ᵀ = V * diagonal (fun i => √(1 / u i)) * Vᵀ := by
    rw [transpose_mul, transpose_mul, transpose_transpose, diagonal_transpose, Matrix.mul_assoc]
  have e1 : ∀ i, √(1 / u i) * u i = √(u i) := fun i => by
    have hs : 0 < √(u i) := Real.sqrt_pos.2 (hpos i)
    have hq : √(u i) * √(u i) = u i := Real.mul_self_sqrt (hpos i).le
    rw [Real.sqrt_div zero_le_one, Real.sqrt_one]
    nth_rewrite 2 [← hq]
    field_simp
  have e2 : ∀ i, √(u i) * √(1 / u i) = 1 := fun i => by
    have hs : 0 < √(u i) := Real.sqrt_pos.2 (hpos i)
    rw [Real.sqrt_div zero_le_one, Real.sqrt_one]
    field_simp
  have hp : (W * (V * diagonal (fun i => √(1 / u i)) * Vᵀ))ᵀ * W = V * diagonal (fun i => √(u i)) * Vᵀ := by
    rw [transpose_mul, RT, Matrix.mul_assoc, h2]
    rw [show V * diagonal (fun i => √(1 / u i)) * Vᵀ * (V * diagonal u * Vᵀ) = V * (diagonal (fun i => √(1 / u i)) * (Vᵀ * V) * diagonal u) * Vᵀ by
      simp only [Matrix.mul_assoc], h1, Matrix.mul_one, diagonal_mul_diagonal]
    simp only [e1]
  refine ⟨?_, ?_, fun x => ?_⟩
  · rw [← Matrix.mul_assoc, hp]
    rw [show V * diagonal (fun i => √(u i)) * Vᵀ * (V * diagonal (fun i => √(1 / u i)) * Vᵀ) =
      V * (diagonal (fun i => √(u i)) * (Vᵀ * V) * diagonal (fun i => √(1 / u i))) * Vᵀ by simp only [Matrix.mul_assoc], h1, Matrix.mul_one,
      diagonal_mul_diagonal]
    simp only [e2]
    rw [diagonal_one, Matrix.mul_one, mul_eq_one_comm.1 h1]
  · rw [hp, IsSymm, transpose_mul, transpose_mul, transpose_transpose, diagonal_transpose, Matrix.mul_assoc]
  · rw [hp, ← mulVec_mulVec, ← mulVec_mulVec, dotProduct_mulVec, ← mulVec_transpose]
    refine Finset.sum_nonneg fun i _ => ?_
    rw [mulVec_diagonal]
    have := mul_self_nonneg ((Vᵀ *ᵥ x) i)
    have := Real.sqrt_nonneg (u i)
    nlinarith

example (k : ℕ) : (∃ eigh, Verif.Cov.EighOk (m := k) eigh) ∧ IsUnit (1 : Matrix (Fin k) (Fin k) ℝ).det := ⟨Verif.Cov.eigh_exists k, by simp⟩

end decorr

section loop
variable {n p k : ℕ} [NeZero k] {eigh : Matrix (Fin k) (Fin k) ℝ → (Fin k → ℝ) × Matrix (Fin k) (Fin k) ℝ}

/-- The loop keeps any property that the step establishes. -/
theorem icaLoop_inv (step : Matrix (Fin k) (Fin k) ℝ → Matrix (Fin k) (Fin k) ℝ) (P : Matrix (Fin k) (Fin k) ℝ → Prop) (hs : ∀ W, P W → P (step W))
    (m : ℕ) (W : Matrix (Fin k) (Fin k) ℝ) (h : P W) : P (icaLoop step m W) := by
  induction m generalizing W with
  | zero => exact h
  | succ m ih =>
    rw [icaLoop]
    split_ifs
    · exact h
    · exact ih _ (hs _ h)

/-- Whatever the number of iterations and whichever algorithm, the estimated components of whitened data are
uncorrelated with unit variance, and the unmixing matrix is orthogonal, as long as the steps stay nonsingular. -/
theorem C142_components (he : Verif.Cov.EighOk eigh) (raw : Matrix (Fin n) (Fin k) ℝ → Matrix (Fin k) (Fin k) ℝ → Matrix (Fin k) (Fin k) ℝ)
    (X : Matrix (Fin n) (Fin k) ℝ) (hX : cross X X = 1) (W0 : Matrix (Fin k) (Fin k) ℝ) (h0 : IsUnit W0.det)
    (hr : ∀ W, Wᵀ * W = 1 → IsUnit (raw X W).det) (m : ℕ) :
    (fastIca eigh raw X W0 m).1ᵀ * (fastIca eigh raw X W0 m).1 = 1 ∧ (fastIca eigh raw X W0 m).2 = X * (fastIca eigh raw X W0 m).1 ∧
      cross (fastIca eigh raw X W0 m).2 (fastIca eigh raw X W0 m).2 = 1 := by
  have h1 : (fastIca eigh raw X W0 m).1ᵀ * (fastIca eigh raw X W0 m).1 = 1 :=
    icaLoop_inv _ (fun W => Wᵀ * W = 1) (fun W hW => (C142_decorr he _ (hr W hW)).1) m _ (C142_decorr he _ h0).1
  refine ⟨h1, rfl, ?_⟩
  show cross (X * (fastIca eigh raw X W0 m).1) (X * (fastIca eigh raw X W0 m).1) = 1
  rw [cross_mul, hX, Matrix.mul_one, h1]

end loop

section whitening
variable {n p k : ℕ} {eigh : Matrix (Fin p) (Fin p) ℝ → (Fin p → ℝ) × Matrix (Fin p) (Fin p) ℝ}

/-- The whitened data have mean zero and keep the differences between observations. -/
theorem C142_centred (X : Matrix (Fin n) (Fin p) ℝ) (hn : 0 < n) (W : Matrix (Fin p) (Fin k) ℝ) :
    (∀ c, ∑ a, (centerM X * W) a c = 0) ∧ ∀ a b j, centerM X a j - centerM X b j = X a j - X b j := by
  refine ⟨fun c => ?_, fun a b j => by unfold centerM; ring⟩
  simp only [Matrix.mul_apply]
  rw [Finset.sum_comm]
  refine Finset.sum_eq_zero fun j _ => ?_
  rw [← Finset.sum_mul]
  have hn' : (n : ℝ) ≠ 0 := Nat.cast_ne_zero.2 hn.ne'
  have : ∑ a, centerM X a j = 0 := by
    simp only [centerM, Finset.sum_sub_distrib, colMean, Finset.sum_const, Finset.card_univ, Fintype.card_fin, nsmul_eq_mul]
    field_simp
    ring
  rw [this, zero_mul]

/-- Whitening: the projected data have the identity as covariance matrix when the retained eigenvalues are positive. -/
theorem C142_whiten (he : Verif.Cov.EighOk eigh) (X : Matrix (Fin n) (Fin p) ℝ) (hk : k ≤ p)
    (hu : ∀ i : Fin k, 0 < (eigh (cross (centerM X) (centerM X))).1 (Fin.castLE hk i)) :
    cross (centerM X * icaVs eigh (cross (centerM X) (centerM X)) hk) (centerM X * icaVs eigh (cross (centerM X) (centerM X)) hk) = 1 := by
  set S := cross (centerM X) (centerM X) with hS
  obtain ⟨h1, h2⟩ := he S (cross_symm _)
  have hd : (eigh S).2ᵀ * S * (eigh S).2 = diagonal (eigh S).1 := by
    have e : (eigh S).2ᵀ * S * (eigh S).2 = (eigh S).2ᵀ * ((eigh S).2 * diagonal (eigh S).1 * (eigh S).2ᵀ) * (eigh S).2 := by rw [← h2]
    rw [e, show (eigh S).2ᵀ * ((eigh S).2 * diagonal (eigh S).1 * (eigh S).2ᵀ) * (eigh S).2 =
      ((eigh S).2ᵀ * (eigh S).2) * diagonal (eigh S).1 * ((eigh S).2ᵀ * (eigh S).2) by simp only [Matrix.mul_assoc], h1, Matrix.one_mul, Matrix.mul_one]
  rw [cross_mul, ← hS]
  unfold icaVs
  set Vk := (eigh S).2.submatrix id (Fin.castLE hk) with hV
  have hk2 : Vkᵀ * S * Vk = diagonal fun i => (eigh S).1 (Fin.castLE hk i) := by
    ext i j
    have := congrFun (congrFun hd (Fin.castLE hk i)) (Fin.castLE hk j)
    rw [diagonal_apply] at this ⊢
    simp only [Fin.castLE_inj] at this
    exact this
  rw [transpose_mul, diagonal_transpose]
  rw [show diagonal (fun i => √(1 / (eigh S).1 (Fin.castLE hk i))) * Vkᵀ * S * (Vk * diagonal fun i => √(1 / (eigh S).1 (Fin.castLE hk i))) =
    diagonal (fun i => √(1 / (eigh S).1 (Fin.castLE hk i))) * (Vkᵀ * S * Vk) * diagonal (fun i => √(1 / (eigh S).1 (Fin.castLE hk i))) by
      simp only [Matrix.mul_assoc], hk2, diagonal_mul_diagonal, diagonal_mul_diagonal, ← diagonal_one]
  congr 1
  funext i
  have hs : 0 < √((eigh S).1 (Fin.castLE hk i)) := Real.sqrt_pos.2 (hu i)
  have hq : √((eigh S).1 (Fin.castLE hk i)) * √((eigh S).1 (Fin.castLE hk i)) = (eigh S).1 (Fin.castLE hk i) := Real.mul_self_sqrt (hu i).le
  rw [Real.sqrt_div zero_le_one, Real.sqrt_one]
  generalize √((eigh S).1 (Fin.castLE hk i)) = s at *
  rw [← hq]
  field_simp

/-- With as many components as variables, the mixing matrix `A = pinv(W)` reconstructs the centred data from the
components: `Y A = X`.  Of the pseudo inverse only `W A W = W` is used. -/
theorem C142_reconstruct (X : Matrix (Fin n) (Fin p) ℝ) (Vs W0 A : Matrix (Fin p) (Fin p) ℝ) (hV : IsUnit Vs.det) (hW : IsUnit W0.det)
    (hA : Vs * W0 * A * (Vs * W0) = Vs * W0) : (X * Vs * W0) * A = X := by
  have hu : IsUnit (Vs * W0).det := by rw [det_mul]; exact hV.mul hW
  have : Vs * W0 * A = 1 := by
    have h := congrArg (· * (Vs * W0)⁻¹) hA
    simp only [Matrix.mul_assoc] at h
    rw [← Matrix.mul_assoc Vs W0 (Vs * W0)⁻¹, mul_nonsing_inv _ hu] at h
    simpa [Matrix.mul_assoc] using h
  rw [Matrix.mul_assoc X, Matrix.mul_assoc X, this, Matrix.mul_one]

end whitening

/-! ## The update -/

section update
variable {n k : ℕ}

/-- The fixed point step of the method: column `j` is `E[x g(w_j'x)] - E[g'(w_j'x)] w_j`. -/
noncomputable def icaSpec (X : Matrix (Fin n) (Fin k) ℝ) (W : Matrix (Fin k) (Fin k) ℝ) : Matrix (Fin k) (Fin k) ℝ := fun i j =>
  cross X (gY (X * W)) i j - meanDg (X * W) j * W i j

/-- The code agrees with the method when the mean derivatives of all components coincide, in particular for a single
component. -/
theorem C142_update_partial (X : Matrix (Fin n) (Fin k) ℝ) (W : Matrix (Fin k) (Fin k) ℝ) (h : ∀ i j, meanDg (X * W) i = meanDg (X * W) j) :
    icaRaw X W = icaSpec X W := by
  ext i j
  unfold icaRaw icaSpec
  rw [Matrix.sub_apply, diagonal_mul, h i j]

/-- The method is equivariant: rotating the whitened data and the unmixing matrix together rotates the step. -/
theorem icaSpec_equivariant (X : Matrix (Fin n) (Fin k) ℝ) (W Q : Matrix (Fin k) (Fin k) ℝ) (hQ : Q * Qᵀ = 1) :
    icaSpec (X * Q) (Qᵀ * W) = Qᵀ * icaSpec X W := by
  have e : X * Q * (Qᵀ * W) = X * W := by
    rw [Matrix.mul_assoc, ← Matrix.mul_assoc Q, hQ, Matrix.one_mul]
  have c : cross (X * Q) (gY (X * W)) = Qᵀ * cross X (gY (X * W)) := by
    have := cross_mul X (gY (X * W)) Q (1 : Matrix (Fin k) (Fin k) ℝ)
    rwa [Matrix.mul_one, Matrix.mul_one] at this
  ext i j
  have d : ∀ (X : Matrix (Fin n) (Fin k) ℝ) (W : Matrix (Fin k) (Fin k) ℝ) i j, icaSpec X W i j = cross X (gY (X * W)) i j - meanDg (X * W) j * W i j := fun _ _ _ _ => rfl
  rw [d, e, c, Matrix.mul_apply, Matrix.mul_apply, Matrix.mul_apply, Finset.mul_sum, ← Finset.sum_sub_distrib]
  simp only [d]
  exact Finset.sum_congr rfl fun a _ => by ring

end update

/-! ## A witness -/

/-- Two uncorrelated whitened sources, eight observations. -/
def src : Matrix (Fin 8) (Fin 2) ℝ := !![1, 2; 1, -2; 1, 0; 1, 0; -1, 0; -1, 0; -1, 0; -1, 0]

theorem src_white : cross src src = 1 := by
  ext i j
  fin_cases i <;> fin_cases j <;> simp [cross, src, Fin.sum_univ_eight] <;> norm_num

/-- The sine of 45 degrees. -/
noncomputable def sn45 : ℝ := √(1 / 2)

/-- A rotation by 45 degrees. -/
noncomputable def rot : Matrix (Fin 2) (Fin 2) ℝ := !![sn45, -sn45; sn45, sn45]

theorem half_sq : sn45 * sn45 = 1 / 2 := Real.mul_self_sqrt (by norm_num)

theorem rot_orth : rot * rotᵀ = 1 := by
  ext i j
  fin_cases i <;> fin_cases j <;> simp only [rot, Matrix.mul_apply, Fin.sum_univ_two, transpose_apply] <;>
    simp <;> linarith [half_sq]

/-- The off-diagonal cross moments of the sources vanish. -/
theorem src_cross : cross src (gY src) = diagonal ![Real.tanh 1, Real.tanh 2 / 2] := by
  ext i j
  fin_cases i <;> fin_cases j <;> simp [cross, src, gY, Fin.sum_univ_eight] <;> ring

theorem src_dg : meanDg src = ![1 - Real.tanh 1 ^ 2, 1 - Real.tanh 2 ^ 2 / 4] := by
  funext j
  fin_cases j <;> simp [meanDg, src, Fin.sum_univ_eight] <;> ring

theorem tanh_one_bounds : 0.76 < Real.tanh 1 ∧ Real.tanh 1 < 0.77 := by
  have h1 := Real.exp_one_gt_d9
  have h2 := Real.exp_one_lt_d9
  have e : Real.tanh 1 = (Real.exp 1 ^ 2 - 1) / (Real.exp 1 ^ 2 + 1) := by
    rw [Real.tanh_eq_sinh_div_cosh, Real.sinh_eq, Real.cosh_eq, Real.exp_neg]
    have := Real.exp_pos 1
    field_simp
  rw [e]
  have := Real.exp_pos 1
  generalize Real.exp 1 = x at *
  constructor
  · rw [lt_div_iff₀ (by positivity)]; nlinarith
  · rw [div_lt_iff₀ (by positivity)]; nlinarith

theorem tanh_two_bounds : 0.9 < Real.tanh 2 ∧ Real.tanh 2 < 1 := by
  have h1 := Real.exp_one_gt_d9
  have e : Real.tanh 2 = (Real.exp 1 ^ 4 - 1) / (Real.exp 1 ^ 4 + 1) := by
    have e2 : Real.exp 2 = Real.exp 1 ^ 2 := by rw [← Real.exp_nat_mul]; norm_num
    rw [Real.tanh_eq_sinh_div_cosh, Real.sinh_eq, Real.cosh_eq, Real.exp_neg, e2]
    have := Real.exp_pos 1
    field_simp
  rw [e]
  have := Real.exp_pos 1
  generalize Real.exp 1 = x at *
  have hx : 2.7 ^ 4 < x ^ 4 := pow_lt_pow_left₀ (by linarith) (by norm_num) (by norm_num)
  norm_num at hx
  constructor
  · rw [lt_div_iff₀ (by positivity)]; nlinarith
  · rw [div_lt_one (by positivity)]; linarith

/-- The separating matrix is a fixed point of the method but not of the code.  For rotated sources, each column of the
method's step at the separating matrix is a multiple of the column it started from; the code's step, even after the
decorrelation, returns the separating matrix for no choice of the signs. -/
theorem C142_update_violated {eigh : Matrix (Fin 2) (Fin 2) ℝ → (Fin 2 → ℝ) × Matrix (Fin 2) (Fin 2) ℝ} (he : Verif.Cov.EighOk eigh) :
    cross (src * rot) (src * rot) = 1 ∧ (src * rot) * rotᵀ = src ∧ (∃ m : Fin 2 → ℝ, icaSpec (src * rot) rotᵀ = rotᵀ * diagonal m) ∧
    ∀ s : Fin 2 → ℝ, (∀ i, s i = 1 ∨ s i = -1) → symDecorr eigh (icaRaw (src * rot) rotᵀ) ≠ rotᵀ * diagonal s := by
  have hY : (src * rot) * rotᵀ = src := by rw [Matrix.mul_assoc, rot_orth, Matrix.mul_one]
  have hc : cross (src * rot) (gY src) = rotᵀ * cross src (gY src) := by
    have := cross_mul src (gY src) rot (1 : Matrix (Fin 2) (Fin 2) ℝ)
    rwa [Matrix.mul_one, Matrix.mul_one] at this
  obtain ⟨a1, a2⟩ := tanh_one_bounds
  obtain ⟨b1, b2⟩ := tanh_two_bounds
  refine ⟨?_, hY, ⟨fun j => ![Real.tanh 1, Real.tanh 2 / 2] j - meanDg src j, ?_⟩, fun s hs heq => ?_⟩
  · rw [cross_mul, src_white, Matrix.mul_one, mul_eq_one_comm.1 rot_orth]
  · ext i j
    unfold icaSpec
    rw [hY, hc, src_cross, mul_diagonal, mul_diagonal]
    ring
  · -- the step in the coordinates of the sources
    have hM : icaRaw (src * rot) rotᵀ = rotᵀ * (diagonal ![Real.tanh 1, Real.tanh 2 / 2] - rot * diagonal (meanDg src) * rotᵀ) := by
      unfold icaRaw
      rw [hY, hc, src_cross, Matrix.mul_sub, ← Matrix.mul_assoc, ← Matrix.mul_assoc, mul_eq_one_comm.1 rot_orth, Matrix.one_mul]
    set N := diagonal ![Real.tanh 1, Real.tanh 2 / 2] - rot * diagonal (meanDg src) * rotᵀ with hN
    have hn : ∀ i j, N i j = (diagonal ![Real.tanh 1, Real.tanh 2 / 2] : Matrix (Fin 2) (Fin 2) ℝ) i j - ∑ l, rot i l * meanDg src l * rot j l := by
      intro i j
      rw [hN, Matrix.sub_apply, Matrix.mul_apply]
      simp only [mul_diagonal, transpose_apply]
    have n00 : N 0 0 = Real.tanh 1 - (1 - Real.tanh 1 ^ 2 + (1 - Real.tanh 2 ^ 2 / 4)) / 2 := by
      rw [hn, src_dg]
      simp only [rot, Fin.sum_univ_two, diagonal_apply, if_true]
      simp
      have := half_sq
      generalize sn45 = h at *
      linear_combination ((1 - Real.tanh 1 ^ 2) + (1 - Real.tanh 2 ^ 2 / 4)) * this
    have n11 : N 1 1 = Real.tanh 2 / 2 - (1 - Real.tanh 1 ^ 2 + (1 - Real.tanh 2 ^ 2 / 4)) / 2 := by
      rw [hn, src_dg]
      simp only [rot, Fin.sum_univ_two, diagonal_apply, if_true]
      simp
      have := half_sq
      generalize sn45 = h at *
      linear_combination ((1 - Real.tanh 1 ^ 2) + (1 - Real.tanh 2 ^ 2 / 4)) * this
    have n01 : N 0 1 = ((1 - Real.tanh 2 ^ 2 / 4) - (1 - Real.tanh 1 ^ 2)) / 2 := by
      rw [hn, src_dg]
      simp only [rot, Fin.sum_univ_two, diagonal_apply]
      simp
      have := half_sq
      generalize sn45 = h at *
      linear_combination (-(1 - Real.tanh 1 ^ 2) + (1 - Real.tanh 2 ^ 2 / 4)) * this
    have n10 : N 1 0 = ((1 - Real.tanh 2 ^ 2 / 4) - (1 - Real.tanh 1 ^ 2)) / 2 := by
      rw [hn, src_dg]
      simp only [rot, Fin.sum_univ_two, diagonal_apply]
      simp
      have := half_sq
      generalize sn45 = h at *
      linear_combination (-(1 - Real.tanh 1 ^ 2) + (1 - Real.tanh 2 ^ 2 / 4)) * this
    have p00 : 0 < N 0 0 := by rw [n00]; nlinarith
    have p11 : N 1 1 < 0 := by rw [n11]; nlinarith
    have p01 : 0 < N 0 1 := by rw [n01]; nlinarith
    have hdN : N.det ≠ 0 := by
      rw [det_fin_two, n10, ← n01]
      have := mul_neg_of_pos_of_neg p00 p11
      have := mul_pos p01 p01
      linarith
    have hu : IsUnit (icaRaw (src * rot) rotᵀ).det := by
      rw [hM, det_mul, det_transpose]
      refine isUnit_iff_ne_zero.2 (mul_ne_zero ?_ hdN)
      intro h
      have := congrArg det rot_orth
      rw [det_mul, h, zero_mul, det_one] at this
      norm_num at this
    obtain ⟨-, hsym, hpsd⟩ := C142_decorr he _ hu
    rw [heq, hM] at hsym hpsd
    have eP : (rotᵀ * diagonal s)ᵀ * (rotᵀ * N) = diagonal s * N := by
      rw [transpose_mul, transpose_transpose, diagonal_transpose, Matrix.mul_assoc, ← Matrix.mul_assoc rot, rot_orth, Matrix.one_mul]
    rw [eP] at hsym hpsd
    have h01 := congrFun (congrFun hsym 0) 1
    rw [transpose_apply, diagonal_mul, diagonal_mul, n10, ← n01] at h01
    have hss : s 1 = s 0 := mul_right_cancel₀ p01.ne' h01
    have q0 := hpsd ![1, 0]
    have q1 := hpsd ![0, 1]
    simp only [dotProduct, mulVec, Fin.sum_univ_two, diagonal_mul] at q0 q1
    simp only [cons_val_zero, cons_val_one, one_mul, mul_one, mul_zero, zero_mul, add_zero, zero_add] at q0 q1
    rw [hss] at q1
    rcases hs 0 with h | h
    · rw [h] at q1; linarith
    · rw [h] at q0; linarith

/-- The step of `_fast_ica2` takes the multipliers with the wrong sign (the rule has `beta = -E[y g(y)]`, so that at separated
components `diag(beta) + E[y g(y)']` vanishes and the step stays where it is): the separating matrix is not a fixed point. -/
theorem C142_mle_violated {eigh : Matrix (Fin 2) (Fin 2) ℝ → (Fin 2 → ℝ) × Matrix (Fin 2) (Fin 2) ℝ} (he : Verif.Cov.EighOk eigh) :
    (diagonal (fun j => -cross src (gY src) j j) + cross src (gY src) = 0) ∧
    icaRaw2 (src * rot) rotᵀ = diagonal (fun j => 1 - 2 * cross src (gY src) j j / (cross src (gY src) j j + meanDg src j)) * rotᵀ ∧
    ∀ s : Fin 2 → ℝ, (∀ i, s i = 1 ∨ s i = -1) → symDecorr eigh (icaRaw2 (src * rot) rotᵀ) ≠ rotᵀ * diagonal s := by
  have hY : (src * rot) * rotᵀ = src := by rw [Matrix.mul_assoc, rot_orth, Matrix.mul_one]
  obtain ⟨a1, a2⟩ := tanh_one_bounds
  obtain ⟨b1, b2⟩ := tanh_two_bounds
  have hE : ∀ i j, i ≠ j → cross src (gY src) i j = 0 := by
    intro i j h
    rw [src_cross, diagonal_apply_ne _ h]
  have hraw : icaRaw2 (src * rot) rotᵀ =
      diagonal (fun j => 1 - 2 * cross src (gY src) j j / (cross src (gY src) j j + meanDg src j)) * rotᵀ := by
    unfold icaRaw2
    simp only [hY]
    ext i j
    rw [Matrix.add_apply, Matrix.mul_apply, diagonal_mul]
    have e : ∀ l, (diagonal (fun j => -1 / (cross src (gY src) j j + meanDg src j)) * (diagonal (fun j => cross src (gY src) j j) + cross src (gY src))) i l =
        if l = i then -1 / (cross src (gY src) i i + meanDg src i) * (2 * cross src (gY src) i i) else 0 := by
      intro l
      rw [diagonal_mul, Matrix.add_apply]
      by_cases h : l = i
      · subst h; rw [diagonal_apply_eq, if_pos rfl]; ring
      · rw [diagonal_apply_ne _ (Ne.symm h), hE i l (Ne.symm h), if_neg h]; ring
    simp only [e, ite_mul, zero_mul]
    rw [Finset.sum_ite_eq' Finset.univ i, if_pos (Finset.mem_univ _)]
    ring
  refine ⟨?_, hraw, fun s hs heq => ?_⟩
  · ext i j
    rw [Matrix.add_apply]
    by_cases h : i = j
    · subst h; rw [diagonal_apply_eq]; exact neg_add_cancel _
    · rw [diagonal_apply_ne _ h, hE i j h]; exact add_zero 0
  · obtain ⟨D, hD⟩ : ∃ D : Fin 2 → ℝ, D = fun j => 1 - 2 * cross src (gY src) j j / (cross src (gY src) j j + meanDg src j) := ⟨_, rfl⟩
    rw [← hD] at hraw
    have d0 : D 0 < 0 := by
      have : D 0 = 1 - 2 * Real.tanh 1 / (Real.tanh 1 + (1 - Real.tanh 1 ^ 2)) := by rw [hD]; simp [src_cross, src_dg]
      rw [this, sub_neg, one_lt_div (by nlinarith)]
      nlinarith
    have d1 : 0 < D 1 := by
      have : D 1 = 1 - 2 * (Real.tanh 2 / 2) / (Real.tanh 2 / 2 + (1 - Real.tanh 2 ^ 2 / 4)) := by rw [hD]; simp [src_cross, src_dg]
      rw [this, sub_pos, div_lt_one (by nlinarith)]
      nlinarith
    have hM : icaRaw2 (src * rot) rotᵀ = rotᵀ * (rot * diagonal D * rotᵀ) := by
      rw [hraw, ← Matrix.mul_assoc, ← Matrix.mul_assoc, mul_eq_one_comm.1 rot_orth, Matrix.one_mul]
    set N := rot * diagonal D * rotᵀ with hN
    have hn : ∀ i j, N i j = ∑ l, rot i l * D l * rot j l := by
      intro i j
      rw [hN, Matrix.mul_apply]
      simp only [mul_diagonal, transpose_apply]
    have hs2 := half_sq
    have n00 : N 0 0 = (D 0 + D 1) / 2 := by
      rw [hn]; simp only [rot, Fin.sum_univ_two]; simp
      linear_combination (D 0 + D 1) * hs2
    have n11 : N 1 1 = (D 0 + D 1) / 2 := by
      rw [hn]; simp only [rot, Fin.sum_univ_two]; simp
      linear_combination (D 0 + D 1) * hs2
    have n01 : N 0 1 = (D 0 - D 1) / 2 := by
      rw [hn]; simp only [rot, Fin.sum_univ_two]; simp
      linear_combination (D 0 - D 1) * hs2
    have n10 : N 1 0 = (D 0 - D 1) / 2 := by
      rw [hn]; simp only [rot, Fin.sum_univ_two]; simp
      linear_combination (D 0 - D 1) * hs2
    have hu : IsUnit (icaRaw2 (src * rot) rotᵀ).det := by
      rw [hraw, det_mul, det_transpose, det_diagonal, Fin.prod_univ_two]
      refine isUnit_iff_ne_zero.2 (mul_ne_zero (mul_ne_zero d0.ne d1.ne') ?_)
      intro h
      have := congrArg det rot_orth
      rw [det_mul, h, zero_mul, det_one] at this
      norm_num at this
    obtain ⟨-, hsym, hpsd⟩ := C142_decorr he _ hu
    rw [heq, hM] at hsym hpsd
    have eP : (rotᵀ * diagonal s)ᵀ * (rotᵀ * N) = diagonal s * N := by
      rw [transpose_mul, transpose_transpose, diagonal_transpose, Matrix.mul_assoc, ← Matrix.mul_assoc rot, rot_orth, Matrix.one_mul]
    rw [eP] at hsym hpsd
    have h01 := congrFun (congrFun hsym 0) 1
    rw [transpose_apply, diagonal_mul, diagonal_mul, n10, n01] at h01
    have hss : s 1 = s 0 := mul_right_cancel₀ (show (D 0 - D 1) / 2 ≠ 0 from (by linarith : (D 0 - D 1) / 2 < 0).ne) h01
    have q0 := hpsd ![1, 1]
    have q1 := hpsd ![1, -1]
    simp only [dotProduct, mulVec, Fin.sum_univ_two, diagonal_mul] at q0 q1
    simp only [cons_val_zero, cons_val_one, one_mul, mul_one, n00, n11, n01, n10, hss] at q0 q1
    rcases hs 0 with h | h
    · rw [h] at q0; linarith
    · rw [h] at q1; linarith

/-- The convergence check compares rows, while the components are columns: flipping the sign of a component is taken for
a change of size one, and a step that replaces every component by an orthogonal one is taken for convergence. -/
theorem C142_convergence_violated :
    convCheck (rot * diagonal ![1, -1]) rot = 1 ∧
    convCheck (diagonal ![1, -1] * rot) rot = 0 ∧ ∀ j, ∑ i, (diagonal ![1, -1] * rot : Matrix (Fin 2) (Fin 2) ℝ) i j * rot i j = 0 := by
  have u : (Finset.univ : Finset (Fin 2)) = {0, 1} := rfl
  have hs := half_sq
  have e1 : ∀ i, ∑ j, (rot * diagonal ![1, -1] : Matrix (Fin 2) (Fin 2) ℝ) i j * rot i j = 0 := by
    intro i
    simp only [mul_diagonal, Fin.sum_univ_two]
    fin_cases i <;> simp [rot]
  have e2 : ∀ i, |∑ j, (diagonal ![1, -1] * rot : Matrix (Fin 2) (Fin 2) ℝ) i j * rot i j| = 1 := by
    intro i
    simp only [diagonal_mul, Fin.sum_univ_two]
    fin_cases i <;> simp [rot, hs] <;> norm_num
  refine ⟨?_, ?_, ?_⟩
  · unfold convCheck
    simp only [e1]
    simp
    exact Finset.sup'_const _ _
  · unfold convCheck
    simp only [e2]
    simp
    exact Finset.sup'_const _ _
  · intro j
    simp only [diagonal_mul, Fin.sum_univ_two]
    fin_cases j <;> simp [rot]

end Verif.Mv
