import Verif.Like.Tests
import Verif.Fa.RotationProps
import Mathlib.Analysis.Matrix.Order
import Mathlib.Analysis.Matrix.PosDef
/-!
# C95: Wald and score statistics
-/
namespace Verif.Like
open Matrix Verif.Fa
variable {k q n : ℕ}

/-- The shared matrix is the inverse of `C V Cᵀ`, and exists exactly when that is invertible. -/
theorem testM_eq {C : Matrix (Fin q) (Fin k) ℝ} {A B : Matrix (Fin k) (Fin k) ℝ} {M} (h : testM C A B = some M) :
    IsUnit (C * (A * (B * A)) * Cᵀ).det ∧ M = (C * (A * (B * A)) * Cᵀ)⁻¹ := inv?_eq h

theorem wald_eq {th th0 : Fin k → ℝ} {C : Matrix (Fin q) (Fin k) ℝ} {A B : Matrix (Fin k) (Fin k) ℝ}
    (h : IsUnit (C * (A * (B * A)) * Cᵀ).det) :
    wald th th0 C A B = some ((C *ᵥ (th - th0)) ⬝ᵥ ((C * (A * (B * A)) * Cᵀ)⁻¹ *ᵥ (C *ᵥ (th - th0)))) := by
  simp only [wald, testM, inv?_unit h, Option.bind_eq_bind, Option.bind_some, pure]

theorem score_eq {D : Fin k → ℝ} {C : Matrix (Fin q) (Fin k) ℝ} {A B : Matrix (Fin k) (Fin k) ℝ}
    (h : IsUnit (C * (A * (B * A)) * Cᵀ).det) :
    score D C A B = some ((C *ᵥ (A *ᵥ D)) ⬝ᵥ ((C * (A * (B * A)) * Cᵀ)⁻¹ *ᵥ (C *ᵥ (A *ᵥ D)))) := by
  simp only [score, testM, inv?_unit h, Option.bind_eq_bind, Option.bind_some, pure]

theorem wald_none {th th0 : Fin k → ℝ} {C : Matrix (Fin q) (Fin k) ℝ} {A B : Matrix (Fin k) (Fin k) ℝ}
    (h : ¬ IsUnit (C * (A * (B * A)) * Cᵀ).det) : wald th th0 C A B = none := by
  simp only [wald, testM, inv?, if_neg h, Option.bind_eq_bind, Option.bind_none]

theorem score_none {D : Fin k → ℝ} {C : Matrix (Fin q) (Fin k) ℝ} {A B : Matrix (Fin k) (Fin k) ℝ}
    (h : ¬ IsUnit (C * (A * (B * A)) * Cᵀ).det) : score D C A B = none := by
  simp only [score, testM, inv?, if_neg h, Option.bind_eq_bind, Option.bind_none]

/-- Both statistics are the same quadratic form, of different vectors. -/
theorem score_wald (D : Fin k → ℝ) (C : Matrix (Fin q) (Fin k) ℝ) (A B : Matrix (Fin k) (Fin k) ℝ) :
    score D C A B = wald (A *ᵥ D) 0 C A B := by
  simp [score, wald]

theorem posSemidef_V {A B : Matrix (Fin k) (Fin k) ℝ} (hA : Aᵀ = A) (hB : B.PosSemidef) (C : Matrix (Fin q) (Fin k) ℝ) :
    (C * (A * (B * A)) * Cᵀ).PosSemidef := by
  have h := hB.mul_mul_conjTranspose_same (C * A)
  simpa only [conjTranspose_eq_transpose_of_trivial, transpose_mul, hA, Matrix.mul_assoc] using h

theorem posDef_M {A B : Matrix (Fin k) (Fin k) ℝ} (hA : Aᵀ = A) (hB : B.PosSemidef) {C : Matrix (Fin q) (Fin k) ℝ}
    (h : IsUnit (C * (A * (B * A)) * Cᵀ).det) : (C * (A * (B * A)) * Cᵀ)⁻¹.PosDef :=
  (((posSemidef_V hA hB C).posDef_iff_isUnit).2 ((isUnit_iff_isUnit_det _).2 h)).inv

theorem quad_nonneg {M : Matrix (Fin q) (Fin q) ℝ} (hM : M.PosDef) (a : Fin q → ℝ) :
    0 ≤ a ⬝ᵥ (M *ᵥ a) ∧ (a ⬝ᵥ (M *ᵥ a) = 0 ↔ a = 0) := by
  refine ⟨by simpa using hM.posSemidef.dotProduct_mulVec_nonneg a, fun h => ?_, fun h => by simp [h]⟩
  by_contra ha
  have := hM.dotProduct_mulVec_pos ha
  simp only [star_trivial] at this
  exact this.ne' h

/-- The Wald statistic is nonnegative and vanishes exactly when the estimate satisfies the constraint; so does the
score statistic, exactly when the score has no component against the constraint. -/
theorem C95_nonneg {A B : Matrix (Fin k) (Fin k) ℝ} (hA : Aᵀ = A) (hB : B.PosSemidef) {C : Matrix (Fin q) (Fin k) ℝ}
    {th th0 D : Fin k → ℝ} :
    (∀ s, wald th th0 C A B = some s → 0 ≤ s ∧ (s = 0 ↔ C *ᵥ th = C *ᵥ th0)) ∧
      ∀ s, score D C A B = some s → 0 ≤ s ∧ (s = 0 ↔ C *ᵥ (A *ᵥ D) = 0) := by
  by_cases h : IsUnit (C * (A * (B * A)) * Cᵀ).det
  · rw [wald_eq h, score_eq h]
    refine ⟨fun s hs => ?_, fun s hs => ?_⟩
    · obtain rfl := Option.some.inj hs
      obtain ⟨h1, h2⟩ := quad_nonneg (posDef_M hA hB h) (C *ᵥ (th - th0))
      exact ⟨h1, h2.trans (by rw [mulVec_sub, sub_eq_zero])⟩
    · obtain rfl := Option.some.inj hs
      exact quad_nonneg (posDef_M hA hB h) _
  · rw [wald_none h, score_none h]
    exact ⟨fun s hs => (by cases hs), fun s hs => (by cases hs)⟩

/-- The covariance of the gradients used by `ll_tests` meets the hypothesis. -/
theorem posSemidef_gradCov (G : Matrix (Fin n) (Fin k) ℝ) : (gradCov G).PosSemidef := by
  have := posSemidef_conjTranspose_mul_self G
  rwa [conjTranspose_eq_transpose_of_trivial] at this

theorem inv_symm {H A : Matrix (Fin k) (Fin k) ℝ} (hH : Hᵀ = H) (h : inv? H = some A) : Aᵀ = A := by
  obtain ⟨-, rfl⟩ := inv?_eq h
  rw [transpose_nonsing_inv, hH]

/-- Both statistics reported by `ll_tests` are nonnegative, for symmetric Hessians; the score statistic is zero when the
per-observation gradients add up to zero. -/
theorem C95_ll_tests {C : Matrix (Fin q) (Fin k) ℝ} {th th0 : Fin k → ℝ} {H H0 : Matrix (Fin k) (Fin k) ℝ}
    {G G0 : Matrix (Fin n) (Fin k) ℝ} (hH : Hᵀ = H) (hH0 : H0ᵀ = H0) {w s : ℝ}
    (h : llTest C th th0 H H0 G G0 = some (w, s)) :
    0 ≤ w ∧ 0 ≤ s ∧ (w = 0 ↔ C *ᵥ th = C *ᵥ th0) ∧ (1 ᵥ* G0 = 0 → s = 0) := by
  simp only [llTest, Option.bind_eq_bind, Option.bind_eq_some_iff, pure, Option.some.injEq, Prod.mk.injEq] at h
  obtain ⟨A, hA, A0, hA0, w', hw, s', hs, rfl, rfl⟩ := h
  obtain ⟨w1, w2⟩ := (C95_nonneg (inv_symm hH hA) (posSemidef_gradCov G) (D := 0)).1 _ hw
  obtain ⟨s1, s2⟩ := (C95_nonneg (inv_symm hH0 hA0) (posSemidef_gradCov G0) (th := 0) (th0 := 0)).2 _ hs
  have g : gradSum G0 = 1 ᵥ* G0 := by
    funext j
    simp [gradSum, vecMul, dotProduct]
  exact ⟨w1, s1, w2, fun e => s2.2 (by simp [g, e])⟩

theorem quad_congr {K M : Matrix (Fin q) (Fin q) ℝ} (hK : IsUnit K.det) (a : Fin q → ℝ) :
    (K *ᵥ a) ⬝ᵥ ((K * M * Kᵀ)⁻¹ *ᵥ (K *ᵥ a)) = a ⬝ᵥ (M⁻¹ *ᵥ a) := by
  rw [Matrix.mul_inv_rev, Matrix.mul_inv_rev, mulVec_mulVec, Matrix.mul_assoc, Matrix.mul_assoc,
    nonsing_inv_mul K hK, Matrix.mul_one, ← transpose_nonsing_inv, ← mulVec_mulVec, dotProduct_mulVec,
    vecMul_transpose, mulVec_mulVec, nonsing_inv_mul K hK, one_mulVec]

/-- Replacing the constraints by any equivalent set changes neither statistic, nor whether they can be computed. -/
theorem C95_invariant {K : Matrix (Fin q) (Fin q) ℝ} (hK : IsUnit K.det) (C : Matrix (Fin q) (Fin k) ℝ)
    (A B : Matrix (Fin k) (Fin k) ℝ) (th th0 D : Fin k → ℝ) :
    wald th th0 (K * C) A B = wald th th0 C A B ∧ score D (K * C) A B = score D C A B := by
  have e : K * C * (A * (B * A)) * (K * C)ᵀ = K * (C * (A * (B * A)) * Cᵀ) * Kᵀ := by
    simp only [transpose_mul, Matrix.mul_assoc]
  have key : ∀ th th0, wald th th0 (K * C) A B = wald th th0 C A B := by
    intro th th0
    by_cases h : IsUnit (C * (A * (B * A)) * Cᵀ).det
    · have h' : IsUnit (K * C * (A * (B * A)) * (K * C)ᵀ).det := by
        rw [e, det_mul, det_mul, det_transpose]; exact (hK.mul h).mul hK
      rw [wald_eq h, wald_eq h', e, ← mulVec_mulVec, quad_congr hK]
    · have h' : ¬ IsUnit (K * C * (A * (B * A)) * (K * C)ᵀ).det := by
        rw [e, det_mul, det_mul, det_transpose]
        intro h2
        exact h (isUnit_of_mul_isUnit_right (isUnit_of_mul_isUnit_left h2))
      rw [wald_none h, wald_none h']
  exact ⟨key _ _, by rw [score_wald, score_wald, key]⟩

/-- A linear change of parameters `θ ↦ T θ`, with the derivatives transformed accordingly, changes neither statistic. -/
theorem C95_reparam {T : Matrix (Fin k) (Fin k) ℝ} (hT : IsUnit T.det) (C : Matrix (Fin q) (Fin k) ℝ)
    (A B : Matrix (Fin k) (Fin k) ℝ) (th th0 D : Fin k → ℝ) :
    wald (T *ᵥ th) (T *ᵥ th0) (C * T⁻¹) (T * A * Tᵀ) ((T⁻¹)ᵀ * B * T⁻¹) = wald th th0 C A B ∧
      score ((T⁻¹)ᵀ *ᵥ D) (C * T⁻¹) (T * A * Tᵀ) ((T⁻¹)ᵀ * B * T⁻¹) = score D C A B := by
  have i1 : T⁻¹ * T = 1 := nonsing_inv_mul T hT
  have i2 : Tᵀ * (T⁻¹)ᵀ = 1 := by rw [← transpose_mul, i1, transpose_one]
  have cA : ∀ {r : ℕ} (X : Matrix (Fin k) (Fin r) ℝ), T⁻¹ * (T * X) = X := fun X => by
    rw [← Matrix.mul_assoc, i1, Matrix.one_mul]
  have cB : ∀ {r : ℕ} (X : Matrix (Fin k) (Fin r) ℝ), Tᵀ * ((T⁻¹)ᵀ * X) = X := fun X => by
    rw [← Matrix.mul_assoc, i2, Matrix.one_mul]
  have e : C * T⁻¹ * (T * A * Tᵀ * ((T⁻¹)ᵀ * B * T⁻¹ * (T * A * Tᵀ))) * (C * T⁻¹)ᵀ = C * (A * (B * A)) * Cᵀ := by
    simp only [transpose_mul, Matrix.mul_assoc, cA, cB]
  refine ⟨?_, ?_⟩
  · simp only [wald, testM, e]
    rw [← mulVec_sub, mulVec_mulVec, Matrix.mul_assoc C T⁻¹ T, i1, Matrix.mul_one]
  · have e2 : (C * T⁻¹) *ᵥ ((T * A * Tᵀ) *ᵥ ((T⁻¹)ᵀ *ᵥ D)) = C *ᵥ (A *ᵥ D) := by
      simp only [mulVec_mulVec, Matrix.mul_assoc, cA, i2, Matrix.mul_one]
    simp only [score, testM, e, e2]

/-- Under the information equality (`B` the inverse of `A`) the statistics reduce to the classical ones. -/
theorem C95_information {A B : Matrix (Fin k) (Fin k) ℝ} (h : B * A = 1) (C : Matrix (Fin q) (Fin k) ℝ)
    (hu : IsUnit (C * A * Cᵀ).det) (th th0 D : Fin k → ℝ) :
    wald th th0 C A B = some ((C *ᵥ (th - th0)) ⬝ᵥ ((C * A * Cᵀ)⁻¹ *ᵥ (C *ᵥ (th - th0)))) ∧
      score D C A B = some ((C *ᵥ (A *ᵥ D)) ⬝ᵥ ((C * A * Cᵀ)⁻¹ *ᵥ (C *ᵥ (A *ᵥ D)))) := by
  have e : C * (A * (B * A)) * Cᵀ = C * A * Cᵀ := by rw [h, Matrix.mul_one]
  rw [wald_eq (by rwa [e]), score_eq (by rwa [e]), e]
  exact ⟨rfl, rfl⟩

/-- The objective of a quadratic likelihood with minimiser `th` and Hessian `H`. -/
noncomputable def quadObj (f0 : ℝ) (H : Matrix (Fin k) (Fin k) ℝ) (th x : Fin k → ℝ) : ℝ :=
  f0 + ((x - th) ⬝ᵥ (H *ᵥ (x - th))) / 2

/-- For a quadratic likelihood the Wald, score and likelihood ratio statistics coincide: `th0` is stationary under the
constraint (its gradient is a combination of the constraint rows), the constraints are independent, and the
information equality holds. -/
theorem C95_trinity {H : Matrix (Fin k) (Fin k) ℝ} (hH : H.PosDef) {C : Matrix (Fin q) (Fin k) ℝ}
    (hC : IsUnit (C * H⁻¹ * Cᵀ).det) (th th0 : Fin k → ℝ) (f0 : ℝ) {lam : Fin q → ℝ}
    (hs : H *ᵥ (th0 - th) = Cᵀ *ᵥ lam) :
    wald th th0 C H⁻¹ H = some (2 * (quadObj f0 H th th0 - quadObj f0 H th th)) ∧
      score (H *ᵥ (th0 - th)) C H⁻¹ H = some (2 * (quadObj f0 H th th0 - quadObj f0 H th th)) := by
  have hu : IsUnit H.det := (isUnit_iff_isUnit_det _).1 hH.isUnit
  obtain ⟨hw, hS⟩ := C95_information (mul_nonsing_inv H hu) C hC th th0 (H *ᵥ (th0 - th))
  have hd : th0 - th = H⁻¹ *ᵥ (Cᵀ *ᵥ lam) := by rw [← hs, mulVec_mulVec, nonsing_inv_mul H hu, one_mulVec]
  have hc : C *ᵥ (th0 - th) = (C * H⁻¹ * Cᵀ) *ᵥ lam := by rw [hd]; simp only [mulVec_mulVec, Matrix.mul_assoc]
  have hm : (C * H⁻¹ * Cᵀ)⁻¹ *ᵥ (C *ᵥ (th0 - th)) = lam := by
    rw [hc, mulVec_mulVec, nonsing_inv_mul _ hC, one_mulVec]
  have hq : (C *ᵥ (th0 - th)) ⬝ᵥ lam = 2 * (quadObj f0 H th th0 - quadObj f0 H th th) := by
    have : (C *ᵥ (th0 - th)) ⬝ᵥ lam = (th0 - th) ⬝ᵥ (H *ᵥ (th0 - th)) := by
      rw [hs, dotProduct_mulVec, vecMul_transpose]
    rw [this, quadObj, quadObj]; simp only [sub_self, zero_dotProduct]; ring
  have hn : th - th0 = -(th0 - th) := by simp
  rw [hw, hS, mulVec_mulVec (v := th0 - th) (M := H⁻¹), nonsing_inv_mul H hu, one_mulVec, hm, hq]
  rw [hn, mulVec_neg, mulVec_neg, hm, dotProduct_neg, neg_dotProduct, neg_neg, hq]
  exact ⟨rfl, rfl⟩

/-- For the zero constraints of `ll_tests` the Wald statistic uses exactly the selected estimates and the selected block
of the covariance. -/
theorem C95_selection (z : Fin q → Fin k) (A B : Matrix (Fin k) (Fin k) ℝ) {th th0 : Fin k → ℝ}
    (h0 : ∀ a, th0 (z a) = 0) (hu : IsUnit ((A * (B * A)).submatrix z z).det) :
    wald th th0 (selMat z) A B = some ((th ∘ z) ⬝ᵥ (((A * (B * A)).submatrix z z)⁻¹ *ᵥ (th ∘ z))) := by
  have e1 : ∀ x : Fin k → ℝ, selMat z *ᵥ x = x ∘ z := by
    intro x; funext a; simp [selMat, mulVec, dotProduct]
  have e2 : ∀ V : Matrix (Fin k) (Fin k) ℝ, selMat z * V * (selMat z)ᵀ = V.submatrix z z := by
    intro V; ext a b; simp [selMat, Matrix.mul_apply]
  have e3 : (th - th0) ∘ z = th ∘ z := by funext a; simp [h0]
  rw [wald_eq (by rwa [e2]), e2, e1, e3]

/-- Dependent constraints make both tests raise. -/
theorem C95_raises {C : Matrix (Fin q) (Fin k) ℝ} {v : Fin q → ℝ} (hv : v ≠ 0) (h : Cᵀ *ᵥ v = 0)
    (A B : Matrix (Fin k) (Fin k) ℝ) (th th0 D : Fin k → ℝ) :
    wald th th0 C A B = none ∧ score D C A B = none := by
  have hu : ¬ IsUnit (C * (A * (B * A)) * Cᵀ).det := by
    intro hu
    apply hv
    have : (C * (A * (B * A)) * Cᵀ) *ᵥ v = 0 := by rw [← mulVec_mulVec, h, mulVec_zero]
    have h2 := congrArg ((C * (A * (B * A)) * Cᵀ)⁻¹ *ᵥ ·) this
    simpa [mulVec_mulVec, nonsing_inv_mul _ hu] using h2
  exact ⟨wald_none hu, score_none hu⟩

example : ∃ s, wald (fun _ : Fin 1 => (3 : ℝ)) 0 (1 : Matrix (Fin 1) (Fin 1) ℝ) 1 1 = some s ∧ 0 ≤ s := by
  have h : IsUnit ((1 : Matrix (Fin 1) (Fin 1) ℝ) * (1 * (1 * 1)) * 1ᵀ).det := by simp
  exact ⟨_, wald_eq h, ((C95_nonneg (by simp) PosSemidef.one (D := 0)).1 _ (wald_eq h)).1⟩

example : wald (fun _ : Fin 1 => (3 : ℝ)) 0 (1 : Matrix (Fin 1) (Fin 1) ℝ) (1 : Matrix (Fin 1) (Fin 1) ℝ)⁻¹ 1 =
    some (2 * (quadObj 5 1 (fun _ : Fin 1 => (3 : ℝ)) 0 - quadObj 5 1 (fun _ : Fin 1 => (3 : ℝ)) fun _ => 3)) :=
  (C95_trinity (lam := fun _ => -3) PosDef.one (by simp) _ _ 5 (by funext i; simp)).1

end Verif.Like
