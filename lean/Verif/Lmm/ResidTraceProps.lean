import Verif.Lmm.ResidTrace
import Mathlib.Tactic

/-!
C265: gradient of the residual covariance by traces.
-/

namespace Verif.Lmm
open Matrix

variable {n p q : ℕ}

/-- The inverse of the marginal covariance in terms of the mixed model equations. -/
def rgVi (Rinv : Matrix (Fin n) (Fin n) ℝ) (Ci : Matrix (Fin q) (Fin q) ℝ) (Z : Matrix (Fin n) (Fin q) ℝ) : Matrix (Fin n) (Fin n) ℝ :=
  Rinv - Rinv * Z * Ci * Zᵀ * Rinv

/-- **C265** `rgVi` is the inverse of the marginal covariance `R + Z G Z'`. -/
theorem C265_inverse (R Rinv : Matrix (Fin n) (Fin n) ℝ) (G Ginv C Ci : Matrix (Fin q) (Fin q) ℝ) (Z : Matrix (Fin n) (Fin q) ℝ) (hR : R * Rinv = 1)
    (hG : G * Ginv = 1) (hC : C = Zᵀ * Rinv * Z + Ginv) (hCi : C * Ci = 1) : (R + Z * G * Zᵀ) * rgVi Rinv Ci Z = 1 := by
  have e : Zᵀ * Rinv * Z * Ci = 1 - Ginv * Ci := by
    rw [eq_sub_iff_add_eq, ← Matrix.add_mul, ← hC, hCi]
  have e2 : Z * G * Zᵀ * (Rinv * Z * Ci * Zᵀ * Rinv) = Z * G * Zᵀ * Rinv - Z * Ci * Zᵀ * Rinv := by
    calc Z * G * Zᵀ * (Rinv * Z * Ci * Zᵀ * Rinv) = Z * G * (Zᵀ * Rinv * Z * Ci) * Zᵀ * Rinv := by simp only [Matrix.mul_assoc]
      _ = Z * G * Zᵀ * Rinv - Z * (G * Ginv) * Ci * Zᵀ * Rinv := by rw [e]; simp only [Matrix.mul_sub, Matrix.sub_mul, Matrix.mul_one, Matrix.mul_assoc]
      _ = _ := by rw [hG, Matrix.mul_one]
  have e3 : R * (Rinv * Z * Ci * Zᵀ * Rinv) = Z * Ci * Zᵀ * Rinv := by
    calc R * (Rinv * Z * Ci * Zᵀ * Rinv) = R * Rinv * (Z * Ci * Zᵀ * Rinv) := by simp only [Matrix.mul_assoc]
      _ = _ := by rw [hR, Matrix.one_mul]
  rw [rgVi, Matrix.add_mul, Matrix.mul_sub, Matrix.mul_sub, hR, e2, e3]
  abel

/-- **C265** The term `T2` is the quadratic form of the derivative in the weighted residuals. -/
theorem C265_T2 (Rinv dR : Matrix (Fin n) (Fin n) ℝ) (Ci : Matrix (Fin q) (Fin q) ℝ) (X : Matrix (Fin n) (Fin p) ℝ) (Z : Matrix (Fin n) (Fin q) ℝ)
    (y : Fin n → ℝ) (b : Fin p → ℝ) (u : Fin q → ℝ) (hu : u = (Ci * Zᵀ * Rinv) *ᵥ (y - X *ᵥ b)) :
    rgT2 Rinv dR X Z y b u = (dR *ᵥ (rgVi Rinv Ci Z *ᵥ (y - X *ᵥ b))) ⬝ᵥ (rgVi Rinv Ci Z *ᵥ (y - X *ᵥ b)) := by
  have e : Rinv *ᵥ (y - X *ᵥ b - Z *ᵥ u) = rgVi Rinv Ci Z *ᵥ (y - X *ᵥ b) := by
    rw [Matrix.mulVec_sub, rgVi, Matrix.sub_mulVec, hu, Matrix.mulVec_mulVec, Matrix.mulVec_mulVec]
    simp only [Matrix.mul_assoc]
  simp only [rgT2, e]

/-- **C265** The term `T3` is the trace of the restricted likelihood. -/
theorem C265_T3 (Txx : Matrix (Fin p) (Fin p) ℝ) (hT : Txxᵀ = Txx) (Rinv dR : Matrix (Fin n) (Fin n) ℝ) (hR : Rinvᵀ = Rinv) (hd : dRᵀ = dR)
    (Ci : Matrix (Fin q) (Fin q) ℝ) (hC : Ciᵀ = Ci) (X : Matrix (Fin n) (Fin p) ℝ) (Z : Matrix (Fin n) (Fin q) ℝ) :
    rgT3 true Txx Rinv dR Ci X Z = trace (Txx * (Xᵀ * rgVi Rinv Ci Z * dR * rgVi Rinv Ci Z * X)) ∧ rgT3 false Txx Rinv dR Ci X Z = 0 := by
  refine ⟨?_, by simp [rgT3]⟩
  have hsw : trace (Txx * (Xᵀ * Rinv * dR * Rinv * Z * Ci * Zᵀ * Rinv * X)) = trace (Txx * (Xᵀ * Rinv * Z * Ci * Zᵀ * Rinv * dR * Rinv * X)) := by
    rw [← Matrix.trace_transpose]
    simp only [Matrix.transpose_mul, Matrix.transpose_transpose, hR, hd, hC, hT]
    rw [Matrix.trace_mul_comm]
    simp only [Matrix.mul_assoc]
  have el : trace (Txx * (Xᵀ * rgVi Rinv Ci Z * dR * rgVi Rinv Ci Z * X)) =
      trace (Txx * (Xᵀ * Rinv * dR * Rinv * X)) - trace (Txx * (Xᵀ * Rinv * dR * Rinv * Z * Ci * Zᵀ * Rinv * X))
        - trace (Txx * (Xᵀ * Rinv * Z * Ci * Zᵀ * Rinv * dR * Rinv * X))
        + trace (Txx * (Xᵀ * Rinv * Z * Ci * Zᵀ * Rinv * dR * Rinv * Z * Ci * Zᵀ * Rinv * X)) := by
    rw [← Matrix.trace_sub, ← Matrix.trace_sub, ← Matrix.trace_add, ← Matrix.mul_sub, ← Matrix.mul_sub, ← Matrix.mul_add]
    congr 2
    simp only [rgVi, Matrix.mul_sub, Matrix.sub_mul, ← Matrix.mul_assoc]
    abel
  have er : rgT3 true Txx Rinv dR Ci X Z =
      trace (Txx * (Xᵀ * Rinv * dR * Rinv * X)) - 2 * trace (Txx * (Xᵀ * Rinv * dR * Rinv * Z * Ci * Zᵀ * Rinv * X))
        + trace (Txx * (Xᵀ * Rinv * Z * Ci * Zᵀ * Rinv * dR * Rinv * Z * Ci * Zᵀ * Rinv * X)) := by
    simp only [rgT3, if_true, Matrix.mul_add, Matrix.trace_add, Matrix.mul_smul, Matrix.trace_smul, Matrix.transpose_mul, Matrix.transpose_transpose, hR, hd, hC,
      ← Matrix.mul_assoc, smul_eq_mul]
    ring
  rw [er, el, hsw]
  ring

/-- **C265** The term `T1` is the trace of the inverse covariance times the derivative if the derivative does not change the trace of the inverse residual
covariance, as the identity does. -/
theorem C265_T1_partial (Rinv dR : Matrix (Fin n) (Fin n) ℝ) (hR : Rinvᵀ = Rinv) (Ci : Matrix (Fin q) (Fin q) ℝ) (Z : Matrix (Fin n) (Fin q) ℝ)
    (ht : trace (Rinv * dR) = trace Rinv) : rgT1 Rinv dR Ci Z = trace (rgVi Rinv Ci Z * dR) := by
  have e : trace (Ci * (Zᵀ * Rinv * dR * (Zᵀ * Rinv)ᵀ)) = trace (Rinv * Z * Ci * Zᵀ * Rinv * dR) := by
    rw [Matrix.transpose_mul, Matrix.transpose_transpose, hR]
    rw [show Ci * (Zᵀ * Rinv * dR * (Rinv * Z)) = (Ci * Zᵀ * Rinv * dR) * (Rinv * Z) by simp only [Matrix.mul_assoc], Matrix.trace_mul_comm]
    simp only [Matrix.mul_assoc]
  simp only [rgT1, rgVi, Matrix.sub_mul, Matrix.trace_sub, e, ht]

/-- **C265** For the derivative of that kind the result is the gradient of the (restricted) likelihood. -/
theorem C265_gradient_partial (Txx : Matrix (Fin p) (Fin p) ℝ) (hT : Txxᵀ = Txx) (Rinv dR : Matrix (Fin n) (Fin n) ℝ) (hR : Rinvᵀ = Rinv) (hd : dRᵀ = dR)
    (Ci : Matrix (Fin q) (Fin q) ℝ) (hC : Ciᵀ = Ci) (X : Matrix (Fin n) (Fin p) ℝ) (Z : Matrix (Fin n) (Fin q) ℝ) (y : Fin n → ℝ) (b : Fin p → ℝ)
    (u : Fin q → ℝ) (hu : u = (Ci * Zᵀ * Rinv) *ᵥ (y - X *ᵥ b)) (ht : trace (Rinv * dR) = trace Rinv) (reml : Bool) :
    rgGrad reml Txx Rinv dR Ci X Z y b u = trace (rgVi Rinv Ci Z * dR)
      - (dR *ᵥ (rgVi Rinv Ci Z *ᵥ (y - X *ᵥ b))) ⬝ᵥ (rgVi Rinv Ci Z *ᵥ (y - X *ᵥ b))
      - if reml then trace (Txx * (Xᵀ * rgVi Rinv Ci Z * dR * rgVi Rinv Ci Z * X)) else 0 := by
  rw [rgGrad, C265_T1_partial Rinv dR hR Ci Z ht, C265_T2 Rinv dR Ci X Z y b u hu]
  cases reml
  · rw [(C265_T3 Txx hT Rinv dR hR hd Ci hC X Z).2]; simp
  · rw [(C265_T3 Txx hT Rinv dR hR hd Ci hC X Z).1]; simp

/-- **C265 (violated)** For another derivative `T1` is off by the difference of the two traces: the first trace does not contain the derivative. -/
theorem C265_T1_violated (Rinv dR : Matrix (Fin n) (Fin n) ℝ) (hR : Rinvᵀ = Rinv) (Ci : Matrix (Fin q) (Fin q) ℝ) (Z : Matrix (Fin n) (Fin q) ℝ) :
    rgT1 Rinv dR Ci Z - trace (rgVi Rinv Ci Z * dR) = trace Rinv - trace (Rinv * dR) := by
  have e : trace (Ci * (Zᵀ * Rinv * dR * (Zᵀ * Rinv)ᵀ)) = trace (Rinv * Z * Ci * Zᵀ * Rinv * dR) := by
    rw [Matrix.transpose_mul, Matrix.transpose_transpose, hR]
    rw [show Ci * (Zᵀ * Rinv * dR * (Rinv * Z)) = (Ci * Zᵀ * Rinv * dR) * (Rinv * Z) by simp only [Matrix.mul_assoc], Matrix.trace_mul_comm]
    simp only [Matrix.mul_assoc]
  simp only [rgT1, rgVi, Matrix.sub_mul, Matrix.trace_sub, e]
  ring

/-- An instance: residual variance one, parametrised by half its value. -/
example : trace (1 : Matrix (Fin 1) (Fin 1) ℝ) - trace ((1 : Matrix (Fin 1) (Fin 1) ℝ) * (2 : ℝ) • (1 : Matrix (Fin 1) (Fin 1) ℝ)) ≠ 0 := by
  simp; norm_num

/-- The identity has the trace property. -/
example (Rinv : Matrix (Fin n) (Fin n) ℝ) : trace (Rinv * 1) = trace Rinv := by rw [Matrix.mul_one]

end Verif.Lmm
