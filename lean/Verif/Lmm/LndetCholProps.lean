import Verif.Lmm.LndetChol
import Mathlib.LinearAlgebra.Matrix.Block
import Mathlib.Tactic

/-!
C269: the log determinant of the random effects from Cholesky parameters.
-/

namespace Verif.Lmm
open Matrix

variable {K : ℕ} {nv : Fin K → ℕ}

theorem lcSigma_det {n : ℕ} (t : Fin n → Fin n → ℝ) : (lcSigma t).det = ∏ i, t i i ^ 2 := by
  have h : (lcFactor t).det = ∏ i, t i i := by
    rw [det_of_lowerTriangular]
    · exact Finset.prod_congr rfl fun i _ => by simp [lcFactor]
    · intro i j hij
      have : i < j := hij
      simp [lcFactor, this]
  rw [lcSigma, det_mul, det_transpose, h, ← Finset.prod_mul_distrib]
  exact Finset.prod_congr rfl fun i _ => (sq _).symm

/-- **C269** With nonzero diagonals the value is twice the sum of the log diagonals, counted once for each group. -/
theorem C269_diagonal (ng : Fin K → ℕ) (th : ∀ k, Fin (nv k) → Fin (nv k) → ℝ) (h : ∀ k i, th k i i ≠ 0) :
    lndetChol ng th = some (2 * ∑ k, ng k * ∑ i, Real.log |th k i i|) := by
  have hd : ∀ k, (lcSigma (th k)).det ≠ 0 := fun k => by
    rw [lcSigma_det]; exact Finset.prod_ne_zero_iff.2 fun i _ => pow_ne_zero 2 (h k i)
  rw [lndetChol, if_pos hd, Finset.mul_sum]
  congr 1
  refine Finset.sum_congr rfl fun k _ => ?_
  have e : Real.log |(lcSigma (th k)).det| = ∑ i, 2 * Real.log |th k i i| := by
    rw [lcSigma_det, Finset.abs_prod, Real.log_prod fun i _ => abs_ne_zero.2 (pow_ne_zero 2 (h k i))]
    exact Finset.sum_congr rfl fun i _ => by rw [abs_pow, Real.log_pow]; norm_num
  rw [e, ← Finset.mul_sum]
  ring

/-- **C269** It is the log determinant of the covariance of the random effects: for each term one block for each group. -/
theorem C269_blocks (ng : Fin K → ℕ) (th : ∀ k, Fin (nv k) → Fin (nv k) → ℝ) (h : ∀ k i, th k i i ≠ 0) :
    lndetChol ng th = some (Real.log |∏ k, (blockDiagonal fun _ : Fin (ng k) => lcSigma (th k)).det|) := by
  have hd : ∀ k, (lcSigma (th k)).det ≠ 0 := fun k => by
    rw [lcSigma_det]; exact Finset.prod_ne_zero_iff.2 fun i _ => pow_ne_zero 2 (h k i)
  rw [lndetChol, if_pos hd]
  congr 1
  have e : ∀ k, (blockDiagonal fun _ : Fin (ng k) => lcSigma (th k)).det = (lcSigma (th k)).det ^ ng k := fun k => by
    rw [det_blockDiagonal]; simp
  simp only [e]
  rw [Finset.abs_prod, Real.log_prod fun k _ => abs_ne_zero.2 (pow_ne_zero _ (hd k))]
  exact Finset.sum_congr rfl fun k _ => by rw [abs_pow, Real.log_pow]

/-- **C269** A zero on a diagonal, and only that, gives minus infinity. -/
theorem C269_singular (ng : Fin K → ℕ) (th : ∀ k, Fin (nv k) → Fin (nv k) → ℝ) : lndetChol ng th = none ↔ ∃ k i, th k i i = 0 := by
  constructor
  · intro h
    by_contra hn
    push Not at hn
    rw [C269_diagonal ng th hn] at h
    cases h
  · rintro ⟨k, i, hi⟩
    rw [lndetChol, if_neg]
    intro h
    refine h k ?_
    rw [lcSigma_det]
    exact Finset.prod_eq_zero (Finset.mem_univ i) (by rw [hi]; norm_num)

/-- **C269** The parameters off the diagonal and the signs of the diagonal do not matter. -/
theorem C269_only_diagonal (ng : Fin K → ℕ) (th th' : ∀ k, Fin (nv k) → Fin (nv k) → ℝ) (h : ∀ k i, |th k i i| = |th' k i i|) :
    lndetChol ng th = lndetChol ng th' := by
  by_cases h0 : ∃ k i, th k i i = 0
  · have h0' : ∃ k i, th' k i i = 0 := by
      obtain ⟨k, i, hi⟩ := h0
      refine ⟨k, i, ?_⟩
      have := h k i
      rw [hi, abs_zero] at this
      exact abs_eq_zero.1 this.symm
    rw [(C269_singular ng th).2 h0, (C269_singular ng th').2 h0']
  · push Not at h0
    have h0' : ∀ k i, th' k i i ≠ 0 := fun k i e => h0 k i (abs_eq_zero.1 (by rw [h k i, e, abs_zero]))
    rw [C269_diagonal ng th h0, C269_diagonal ng th' h0']
    simp only [h]

/-- **C269** The covariance of a term is symmetric with nonnegative diagonal, whatever the parameters. -/
theorem C269_sigma {n : ℕ} (t : Fin n → Fin n → ℝ) : (lcSigma t)ᵀ = lcSigma t ∧ ∀ x : Fin n → ℝ, 0 ≤ x ⬝ᵥ (lcSigma t *ᵥ x) := by
  refine ⟨by simp [lcSigma], fun x => ?_⟩
  rw [lcSigma, ← mulVec_mulVec, dotProduct_mulVec, ← mulVec_transpose]
  exact Finset.sum_nonneg fun i _ => mul_self_nonneg _

example : lndetChol (fun _ : Fin 1 => 3) (fun _ => fun _ _ : Fin 2 => (1 : ℝ)) = some 0 := by
  rw [C269_diagonal _ _ (by simp)]
  simp

end Verif.Lmm
