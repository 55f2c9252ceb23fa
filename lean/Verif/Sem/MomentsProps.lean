import Verif.Sem.Moments
import Mathlib.LinearAlgebra.Matrix.PosDef
import Mathlib.Tactic.Abel
import Mathlib.Tactic.NoncommRing
import Mathlib.Tactic.Linarith
/-!
# C32, C33: implied moments and their derivatives
-/
set_option linter.unusedSectionVars false
namespace Verif.Sem
open Matrix Verif.Calc

variable {p q : Type*} [Fintype p] [Fintype q] [DecidableEq p] [DecidableEq q]

/-! ## C32 -/

theorem Sigma_symm (θ : Mats p q) (hF : θ.Fᵀ = θ.F) (hP : θ.Pᵀ = θ.P) : θ.Sigmaᵀ = θ.Sigma := by
  unfold Mats.Sigma
  simp only [transpose_add, transpose_mul, transpose_transpose, hF, hP, Matrix.mul_assoc]

/-- The implied covariance is symmetric. -/
theorem C32_symmetric (θ : Mats p q) (hF : θ.Fᵀ = θ.F) (hP : θ.Pᵀ = θ.P) :
    θ.Sigma.IsSymm := Sigma_symm θ hF hP

/-- The implied covariance is positive semi-definite when `F` and `P` are. -/
theorem C32_posSemidef (θ : Mats p q) (hF : θ.F.PosSemidef) (hP : θ.P.PosSemidef) :
    θ.Sigma.PosSemidef := by
  unfold Mats.Sigma
  have h := hF.mul_mul_conjTranspose_same (θ.L * θ.Bi)
  rw [conjTranspose_eq_transpose_of_trivial] at h
  exact h.add hP

/-- It is positive definite when in addition `P` is. -/
theorem C32_posDef (θ : Mats p q) (hF : θ.F.PosSemidef) (hP : θ.P.PosDef) :
    θ.Sigma.PosDef := by
  unfold Mats.Sigma
  have h := hF.mul_mul_conjTranspose_same (θ.L * θ.Bi)
  rw [conjTranspose_eq_transpose_of_trivial] at h
  exact Matrix.PosDef.posSemidef_add h hP

/-- The structural solution: `eta = (I - B)^{-1} (b + zeta)` solves `eta = B eta + b + zeta`, so
the implied mean is the mean of `a + L eta`. -/
theorem C32_structural (θ : Mats p q) (hB : IsUnit (1 - θ.B).det) (z : q → ℝ) :
    θ.Bi *ᵥ z = θ.B *ᵥ (θ.Bi *ᵥ z) + z := by
  have h : (1 - θ.B) * θ.Bi = 1 := Matrix.mul_nonsing_inv _ hB
  have h2 : θ.Bi = θ.B * θ.Bi + 1 := by
    rw [Matrix.sub_mul, Matrix.one_mul] at h
    rw [← h]; abel
  conv_lhs => rw [h2]
  rw [Matrix.add_mulVec, Matrix.one_mulVec, Matrix.mulVec_mulVec]

/-! ## C33 -/

def Dir.dL : Dir p q → Matrix p q ℝ
  | .L J => J
  | _ => 0
def Dir.dB : Dir p q → Matrix q q ℝ
  | .B J => J
  | _ => 0
def Dir.dF : Dir p q → Matrix q q ℝ
  | .F J => J
  | _ => 0
def Dir.dP : Dir p q → Matrix p p ℝ
  | .P J => J
  | _ => 0
def Dir.da : Dir p q → p → ℝ
  | .a J => J
  | _ => 0
def Dir.db : Dir p q → q → ℝ
  | .b J => J
  | _ => 0

/-- Specification: the model with one free parameter changed by `t`. -/
def Mats.move (θ : Mats p q) (d : Dir p q) (t : ℝ) : Mats p q :=
  Mats.mk (θ.L + t • d.dL) (θ.B + t • d.dB) (θ.F + t • d.dF) (θ.P + t • d.dP) (θ.a + t • d.da)
    (θ.b + t • d.db)

/-- Directions in symmetric matrices are symmetric (`dA[i, c, r] = dA[i, r, c] = 1`). -/
def Dir.Ok : Dir p q → Prop
  | .F J => Jᵀ = J
  | .P J => Jᵀ = J
  | _ => True

/-- Block number. -/
def Dir.kind : Dir p q → ℕ
  | .L _ => 0
  | .B _ => 1
  | .F _ => 2
  | .P _ => 3
  | .a _ => 4
  | .b _ => 5

theorem move_zero (θ : Mats p q) (d : Dir p q) : θ.move d 0 = θ := by
  simp [Mats.move]

theorem md_L (θ : Mats p q) (d : Dir p q) : MD (fun t => (θ.move d t).L) d.dL := MD.line _ _
theorem md_B (θ : Mats p q) (d : Dir p q) : MD (fun t => (θ.move d t).B) d.dB := MD.line _ _
theorem md_F (θ : Mats p q) (d : Dir p q) : MD (fun t => (θ.move d t).F) d.dF := MD.line _ _
theorem md_P (θ : Mats p q) (d : Dir p q) : MD (fun t => (θ.move d t).P) d.dP := MD.line _ _
theorem vd_a (θ : Mats p q) (d : Dir p q) : VD (fun t => (θ.move d t).a) d.da := VD.line _ _
theorem vd_b (θ : Mats p q) (d : Dir p q) : VD (fun t => (θ.move d t).b) d.db := VD.line _ _

theorem md_Bi (θ : Mats p q) (d : Dir p q) (hB : IsUnit (1 - θ.B).det) :
    MD (fun t => (θ.move d t).Bi) (θ.Bi * d.dB * θ.Bi) := by
  have h1 : MD (fun t => 1 - (θ.move d t).B) (0 - d.dB) := (MD.const 1).sub (md_B θ d)
  have h2 := MD.inv h1 (by simp only [move_zero]; exact hB)
  simp only [move_zero] at h2
  refine h2.congr ?_
  rw [zero_sub, Matrix.mul_neg, Matrix.neg_mul, neg_neg]; rfl

theorem md_LB (θ : Mats p q) (d : Dir p q) (hB : IsUnit (1 - θ.B).det) :
    MD (fun t => (θ.move d t).L * (θ.move d t).Bi)
      (d.dL * θ.Bi + θ.L * (θ.Bi * d.dB * θ.Bi)) := by
  have h := (md_L θ d).mul (md_Bi θ d hB)
  simp only [move_zero] at h
  exact h

theorem md_Sigma (θ : Mats p q) (d : Dir p q) (hB : IsUnit (1 - θ.B).det) :
    MD (fun t => (θ.move d t).Sigma)
      (((d.dL * θ.Bi + θ.L * (θ.Bi * d.dB * θ.Bi)) * θ.F + (θ.L * θ.Bi) * d.dF) *
          (θ.L * θ.Bi)ᵀ +
        (θ.L * θ.Bi) * θ.F * (d.dL * θ.Bi + θ.L * (θ.Bi * d.dB * θ.Bi))ᵀ + d.dP) := by
  have h := (((md_LB θ d hB).mul (md_F θ d)).mul (md_LB θ d hB).transpose).add (md_P θ d)
  simp only [move_zero] at h
  exact h

theorem vd_mu (θ : Mats p q) (d : Dir p q) (hB : IsUnit (1 - θ.B).det) :
    VD (fun t => (θ.move d t).mu)
      (d.da + ((d.dL * θ.Bi + θ.L * (θ.Bi * d.dB * θ.Bi)) *ᵥ θ.b + (θ.L * θ.Bi) *ᵥ d.db)) := by
  have h := (vd_a θ d).add (VD.mulVec (md_LB θ d hB) (vd_b θ d))
  simp only [move_zero] at h
  exact h

/-- `_dsigma_mu` is the derivative of the implied covariance and mean in each free parameter. -/
theorem C33_dsigma_mu (θ : Mats p q) (d : Dir p q) (hB : IsUnit (1 - θ.B).det)
    (hF : θ.Fᵀ = θ.F) :
    MD (fun t => (θ.move d t).Sigma) (dSigma θ d) ∧ VD (fun t => (θ.move d t).mu) (dMu θ d) := by
  constructor
  · refine (md_Sigma θ d hB).congr ?_
    cases d <;>
      simp only [Dir.dL, Dir.dB, Dir.dF, Dir.dP, dSigma, Matrix.mul_zero, Matrix.zero_mul,
        add_zero, zero_add, transpose_mul, transpose_add, transpose_transpose, transpose_zero, hF,
        Matrix.mul_add, Matrix.add_mul, Matrix.mul_assoc] <;> abel
  · refine (vd_mu θ d hB).congr ?_
    cases d <;>
      simp only [Dir.dL, Dir.dB, Dir.da, Dir.db, dMu, Matrix.mul_zero, Matrix.zero_mul,
        add_zero, zero_add, Matrix.zero_mulVec, Matrix.mulVec_zero, Matrix.mulVec_mulVec,
        Matrix.mul_assoc]

/-- The second-derivative formulas for the covariance (shared by `_d2sigma_mu` and the Hessian)
are derivatives of the first-derivative formulas. -/
theorem C33_d2sigma (θ : Mats p q) (di dj : Dir p q) (hB : IsUnit (1 - θ.B).det)
    (hF : θ.Fᵀ = θ.F) (hi : di.Ok) (hk : dj.kind ≤ di.kind) :
    MD (fun s => dSigma (θ.move dj s) di) (d2Sigma θ di dj) := by
  have hL := md_L θ dj
  have hBi := md_Bi θ dj hB
  have hFd := md_F θ dj
  have hLB := md_LB θ dj hB
  cases di with
  | L J =>
    have h1 := ((hL.mul ((hBi.mul hFd).mul hBi.transpose)).mul (MD.const Jᵀ))
    have h := h1.add h1.transpose
    simp only [move_zero] at h
    refine h.congr ?_
    cases dj <;> simp only [Dir.kind] at hk <;> try omega
    simp only [Dir.dL, Dir.dB, Dir.dF, d2Sigma, Matrix.mul_zero, Matrix.zero_mul,
      add_zero, zero_add, transpose_mul, transpose_add, transpose_transpose, transpose_zero, hF,
      Matrix.mul_add, Matrix.add_mul, Matrix.mul_assoc]
    abel
  | B J =>
    have h1 := (MD.const J).mul (hBi.mul hFd)
    have h := (hLB.mul (h1.add h1.transpose)).mul hLB.transpose
    simp only [move_zero] at h
    refine h.congr ?_
    cases dj <;> simp only [Dir.kind] at hk <;> (try omega) <;>
      simp only [Dir.dL, Dir.dB, Dir.dF, d2Sigma, Matrix.mul_zero, Matrix.zero_mul,
        add_zero, zero_add, transpose_mul, transpose_add, transpose_transpose, transpose_zero, hF,
        Matrix.mul_add, Matrix.add_mul, Matrix.mul_assoc] <;> abel
  | F J =>
    have h := (hLB.mul (MD.const J)).mul hLB.transpose
    simp only [move_zero] at h
    refine h.congr ?_
    have hJ : Jᵀ = J := hi
    cases dj <;> simp only [Dir.kind] at hk <;> (try omega) <;>
      simp only [Dir.dL, Dir.dB, d2Sigma, Matrix.mul_zero, Matrix.zero_mul,
        add_zero, zero_add, transpose_mul, transpose_add, transpose_transpose, transpose_zero, hJ,
        Matrix.mul_add, Matrix.add_mul, Matrix.mul_assoc] <;> abel
  | P J => exact (MD.const J).congr (by cases dj <;> rfl)
  | a J => exact (MD.const 0).congr (by cases dj <;> rfl)
  | b J => exact (MD.const 0).congr (by cases dj <;> rfl)

/-- The second-derivative formulas for the mean used inside the Hessian are derivatives of the
first-derivative formulas. -/
theorem C33_d2mu_hessian (θ : Mats p q) (di dj : Dir p q) (hB : IsUnit (1 - θ.B).det)
    (hk : dj.kind ≤ di.kind) :
    VD (fun s => dMu (θ.move dj s) di) (d2MuLL θ di dj) := by
  have hBi := md_Bi θ dj hB
  have hLB := md_LB θ dj hB
  have hb := vd_b θ dj
  cases di with
  | L J =>
    have h := VD.mulVec (MD.const J) (VD.mulVec hBi hb)
    simp only [move_zero] at h
    refine h.congr ?_
    cases dj <;> simp only [Dir.kind] at hk <;> try omega
    simp only [Dir.dB, Dir.db, d2MuLL, Matrix.mul_zero, Matrix.zero_mul, Matrix.zero_mulVec,
      Matrix.mulVec_zero, add_zero]
  | B J =>
    have h := VD.mulVec (hLB.mul (MD.const J)) (VD.mulVec hBi hb)
    simp only [move_zero] at h
    refine h.congr ?_
    cases dj <;> simp only [Dir.kind] at hk <;> (try omega) <;>
      simp only [Dir.dL, Dir.dB, Dir.db, d2MuLL, Matrix.mul_zero, Matrix.zero_mul,
        Matrix.zero_mulVec, Matrix.mulVec_zero, add_zero, zero_add, Matrix.mulVec_mulVec,
        Matrix.mulVec_add, Matrix.add_mulVec, Matrix.mul_add, Matrix.add_mul, Matrix.mul_assoc]
  | F J => exact (VD.const 0).congr (by cases dj <;> rfl)
  | P J => exact (VD.const 0).congr (by cases dj <;> rfl)
  | a J => exact (VD.const J).congr (by cases dj <;> rfl)
  | b J =>
    have h := VD.mulVec hLB (VD.const J)
    simp only [move_zero] at h
    refine h.congr ?_
    cases dj <;>
      simp only [Dir.dL, Dir.dB, d2MuLL, Matrix.mul_zero, Matrix.zero_mul,
        Matrix.zero_mulVec, Matrix.mulVec_zero, add_zero, zero_add, Matrix.mulVec_mulVec,
        Matrix.mul_assoc]

/-- `_d2sigma_mu`'s mean part is right for every pair except two structural coefficients. -/
theorem C33_d2mu_partial (θ : Mats p q) (di dj : Dir p q) (hB : IsUnit (1 - θ.B).det)
    (hk : dj.kind ≤ di.kind) (hne : ¬ (di.kind = 1 ∧ dj.kind = 1)) :
    VD (fun s => dMu (θ.move dj s) di) (d2Mu θ di dj) := by
  refine (C33_d2mu_hessian θ di dj hB hk).congr ?_
  cases di <;> cases dj <;> simp_all [d2Mu, d2MuLL, Dir.kind]

/-- Model `z1 ~ z2; z2 ~ z3` (three variables, identity loadings, B = 0): the coefficient in cell
(0, 1) comes before the one in (1, 2); the mean of `z1` has second derivative `b3 = 1`, the code
gives 0. -/
theorem C33_d2mu_violated :
    ∃ (θ : Mats (Fin 3) (Fin 3)) (di dj : Dir (Fin 3) (Fin 3)), IsUnit (1 - θ.B).det ∧
      dj.kind ≤ di.kind ∧ ¬ VD (fun s => dMu (θ.move dj s) di) (d2Mu θ di dj) := by
  let θ : Mats (Fin 3) (Fin 3) := Mats.mk 1 0 1 1 0 (fun i => if i = 2 then 1 else 0)
  let di : Dir (Fin 3) (Fin 3) := .B (Matrix.single 1 2 1)
  let dj : Dir (Fin 3) (Fin 3) := .B (Matrix.single 0 1 1)
  refine ⟨θ, di, dj, by simp [θ], by simp [di, dj, Dir.kind], ?_⟩
  have hB : IsUnit (1 - θ.B).det := by simp [θ]
  have hBi : θ.Bi = 1 := by simp [θ, Mats.Bi]
  intro h
  have h2 := C33_d2mu_hessian θ di dj hB (by simp [di, dj, Dir.kind])
  have := (h 0).unique (h2 0)
  simp only [di, dj, d2Mu, d2MuLL, hBi] at this
  simp [θ, Matrix.mulVec, dotProduct, Matrix.single, Matrix.mul_apply, Matrix.add_apply,
    Fin.sum_univ_three] at this

end Verif.Sem
