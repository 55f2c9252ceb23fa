import Verif.Sim.SemSim
import Mathlib.LinearAlgebra.Matrix.PosDef
import Mathlib.Algebra.Order.Star.Real
import Mathlib.Tactic

/-!
# C234: data of a simulated structural equation model follow the model
-/

namespace Verif.Sim

open Matrix Verif.Sem

variable {p q : Type} [Fintype p] [DecidableEq p] [Fintype q] [DecidableEq q]

/-- **C234** the covariance matrix drawn from is the implied one of the class which is fitted. -/
theorem C234_sigma (θ : Mats p q) : simSigma θ = θ.Sigma := by
  simp only [simSigma, Mats.Sigma, Mats.Bi, Matrix.mul_assoc, transpose_mul]

/-- **C234** so is the mean. -/
theorem C234_mu (θ : Mats p q) : simMu θ = θ.mu := by
  simp only [simMu, Mats.mu, Mats.Bi, add_comm]

/-- **C234** the structural model: if `η = B η + ζ` with `I - B` invertible, the observed `L η + ε` has the coefficients used. -/
theorem C234_reduced (θ : Mats p q) (h : IsUnit (1 - θ.B)) (eta z : q → ℝ) (he : eta = θ.B *ᵥ eta + z) :
    θ.L *ᵥ eta = (θ.L * (1 - θ.B)⁻¹) *ᵥ z := by
  have h1 : (1 - θ.B) *ᵥ eta = z := by rw [sub_mulVec, one_mulVec]; nth_rewrite 1 [he]; abel
  rw [← h1, mulVec_mulVec, Matrix.mul_assoc, nonsing_inv_mul _ ((isUnit_iff_isUnit_det _).1 h), Matrix.mul_one]

/-- **C234** with valid latent and residual covariances it is a covariance matrix, positive definite. -/
theorem C234_posdef (θ : Mats p q) (hF : θ.F.PosSemidef) (hP : θ.P.PosDef) : (simSigma θ).PosDef := by
  have e : simSigma θ = (θ.L * (1 - θ.B)⁻¹) * θ.F * (θ.L * (1 - θ.B)⁻¹)ᴴ + θ.P := by
    simp only [simSigma, conjTranspose_eq_transpose_of_trivial, transpose_mul, Matrix.mul_assoc]
  rw [e]
  exact PosDef.posSemidef_add (hF.mul_mul_conjTranspose_same _) hP

/-- **C234** values given to the free parameters lie in their intervals, and fixed ones are left alone. -/
theorem C234_params (u : ℕ → ℝ) (hu : ∀ i, 0 ≤ u i ∧ u i < 1) (r : ParRow) :
    (r.fixed → setReasonable u r = r) ∧
    (r.fixed = false → r.mat = 0 → 0.8 ≤ (setReasonable u r).start ∧ (setReasonable u r).start < 0.9) ∧
    (r.fixed = false → r.mat = 1 → 0.5 ≤ (setReasonable u r).start ∧ (setReasonable u r).start < 0.9) ∧
    (r.fixed = false → r.mat = 2 → r.lhs = r.rhs → 2 ≤ (setReasonable u r).start ∧ (setReasonable u r).start < 3) ∧
    (r.fixed = false → r.mat = 3 → r.lhs = r.rhs → 0.5 ≤ (setReasonable u r).start ∧ (setReasonable u r).start < 0.9) := by
  obtain ⟨mat, fixed, lhs, rhs, st⟩ := r
  refine ⟨?_, ?_, ?_, ?_, ?_⟩
  · intro h; simp only at h; subst h; simp [setReasonable, setParameter, maskOf]
  · intro h hm; simp only at h hm; subst h hm
    have := hu 0
    simp [setReasonable, setParameter, maskOf]; constructor <;> linarith
  · intro h hm; simp only at h hm; subst h hm
    have := hu 1
    simp [setReasonable, setParameter, maskOf]; constructor <;> linarith
  · intro h hm hl; simp only at h hm hl; subst h hm hl
    have := hu 2
    simp [setReasonable, setParameter, maskOf]; constructor <;> linarith
  · intro h hm hl; simp only at h hm hl; subst h hm hl
    have := hu 3
    simp [setReasonable, setParameter, maskOf]; constructor <;> linarith

/-- Covariances, means and intercepts keep their starting values. -/
theorem C234_others (u : ℕ → ℝ) (r : ParRow) (h : 4 ≤ r.mat ∨ (2 ≤ r.mat ∧ r.lhs ≠ r.rhs)) : setReasonable u r = r := by
  obtain ⟨mat, fixed, lhs, rhs, st⟩ := r
  simp only at h
  have h0 : mat ≠ 0 := by omega
  have h1 : mat ≠ 1 := by omega
  rcases h with h | h
  · have h2 : mat ≠ 2 := by omega
    have h3 : mat ≠ 3 := by omega
    simp [setReasonable, setParameter, maskOf, h0, h1, h2, h3]
  · simp [setReasonable, setParameter, maskOf, h0, h1, h.2]

/-- **C234** paths between `0.5` and `0.9` in a loop may make the model invalid: two variables on each other still have an inverse … -/
theorem C234_loop_two {x y : ℝ} (hx : 0 ≤ x ∧ x < 9 / 10) (hy : 0 ≤ y ∧ y < 9 / 10) : (1 - !![0, x; y, 0] : Matrix (Fin 2) (Fin 2) ℝ).det ≠ 0 := by
  rw [det_fin_two]; simp
  nlinarith [mul_nonneg hx.1 hy.1]

/-- … three do not: the values drawn may be any in the interval, among them ones with no reduced form. -/
theorem C234_loop_violated : ∃ x : ℝ, 1 / 2 ≤ x ∧ x < 9 / 10 ∧ (1 - !![0, x, x; x, 0, x; x, x, 0] : Matrix (Fin 3) (Fin 3) ℝ).det = 0 := by
  refine ⟨1 / 2, le_rfl, by norm_num, ?_⟩
  rw [det_fin_three]; simp; norm_num

/-- **C234** group sizes lie in the range, the upper bound excluded … -/
theorem C234_sizes_partial {lo hi k : ℕ} {draw : ℕ → ℕ} (hd : ∀ m, 0 < m → draw m < m) (h : groupSize lo hi draw = some k) : lo ≤ k ∧ k < hi := by
  rw [groupSize] at h
  split_ifs at h with h1
  have := hd (hi - lo) (by omega)
  simp only [Option.some.injEq] at h
  omega

/-- … so the largest size is never drawn and a fixed size cannot be asked for. -/
theorem C234_sizes_violated (m : ℕ) (draw : ℕ → ℕ) (hd : ∀ m, 0 < m → draw m < m) :
    groupSize m m draw = none ∧ ∀ lo, groupSize lo m draw ≠ some m := by
  refine ⟨by simp [groupSize], fun lo h => ?_⟩
  have := C234_sizes_partial hd h; omega

/-- **C234** what is drawn depends on the state of the module's generator; equal states of both give equal data … -/
theorem C234_seed_partial {S Θ D : Type} (params : S → Θ × S) (data : Θ → S → D × S) {s m s' m' : S} (h : s = s') (h' : m = m') :
    simulateRng params data s m = simulateRng params data s' m' := by rw [h, h']

/-- … but a simulator given a seeded generator is not reproducible: if the data depend on the draws at all, the same seed
gives different data. -/
theorem C234_seed_violated {S Θ D : Type} (params : S → Θ × S) (data : Θ → S → D × S) (s : S)
    (hd : ∃ m m', (data (params s).1 m).1 ≠ (data (params s).1 m').1) : ∃ m m', (simulateRng params data s m).1 ≠ (simulateRng params data s m').1 := by
  obtain ⟨m, m', h⟩ := hd
  exact ⟨m, m', h⟩

/-- Drawing the data does not advance the generator given. -/
theorem C234_seed_unused {S Θ D : Type} (params : S → Θ × S) (data : Θ → S → D × S) (s m : S) : (simulateRng params data s m).2.1 = (params s).2 := rfl

example : ∃ m m' : ℕ, ((fun _ m => (m, m + 1) : Unit → ℕ → ℕ × ℕ) () m).1 ≠ ((fun _ m => (m, m + 1) : Unit → ℕ → ℕ × ℕ) () m').1 := ⟨0, 1, by decide⟩

end Verif.Sim
