import Verif.Sem.MomentsProps
/-!
# C33: gradient, Hessian and casewise scores of the fit function
-/
set_option linter.unusedSectionVars false
namespace Verif.Sem
open Matrix Verif.Calc

variable {p q : Type*} [Fintype p] [Fintype q] [DecidableEq p] [DecidableEq q]

theorem frob_trace {m n : Type*} [Fintype m] [Fintype n] (A B : Matrix m n ℝ) :
    frob A B = (Aᵀ * B).trace := by
  unfold frob Matrix.trace
  rw [Finset.sum_comm]
  rfl

theorem frob_add_right {m n : Type*} [Fintype m] [Fintype n] (A B C : Matrix m n ℝ) :
    frob A (B + C) = frob A B + frob A C := by
  simp only [frob_trace, Matrix.mul_add, Matrix.trace_add]

theorem frob_transpose {m n : Type*} [Fintype m] [Fintype n] (A B : Matrix m n ℝ) :
    frob Aᵀ Bᵀ = frob A B := by
  unfold frob
  rw [Finset.sum_comm]
  rfl

theorem frob_sandwich {m n : Type*} [Fintype m] [Fintype n] (A : Matrix m n ℝ) (W : Matrix m m ℝ)
    (X : Matrix n n ℝ) : frob (Aᵀ * W * A) X = frob W (A * X * Aᵀ) := by
  rw [frob_trace, frob_trace]
  simp only [transpose_mul, transpose_transpose, Matrix.mul_assoc]
  rw [Matrix.trace_mul_comm]
  simp only [Matrix.mul_assoc]

/-- The gradient in terms of the moment derivatives. -/
noncomputable def canon (d : Stats p) (θ : Mats p q) (D : Dir p q) : ℝ :=
  -frob (VRV d θ) (dSigma θ D) - 2 * (rtV d θ ⬝ᵥ dMu θ D)
    - rtV d θ ⬝ᵥ (dSigma θ D *ᵥ rtV d θ)

theorem V_symm (θ : Mats p q) (hF : θ.Fᵀ = θ.F) (hP : θ.Pᵀ = θ.P) :
    (θ.Sigma⁻¹)ᵀ = θ.Sigma⁻¹ := by
  rw [Matrix.transpose_nonsing_inv, Sigma_symm θ hF hP]

theorem VRV_symm (d : Stats p) (θ : Mats p q) (hF : θ.Fᵀ = θ.F) (hP : θ.Pᵀ = θ.P)
    (hS : d.Sᵀ = d.S) : (VRV d θ)ᵀ = VRV d θ := by
  unfold VRV
  simp only [transpose_mul, transpose_sub, V_symm θ hF hP, Sigma_symm θ hF hP, hS,
    Matrix.mul_assoc]

theorem dot_transpose_mulVec {m n : Type*} [Fintype m] [Fintype n] (A : Matrix m n ℝ) (x : n → ℝ)
    (y : m → ℝ) : x ⬝ᵥ (Aᵀ *ᵥ y) = y ⬝ᵥ (A *ᵥ x) := by
  rw [dotProduct_mulVec, vecMul_transpose, dotProduct_comm]

theorem dLoglike_eq_canon (d : Stats p) (θ : Mats p q) (D : Dir p q) (hF : θ.Fᵀ = θ.F)
    (hP : θ.Pᵀ = θ.P) (hS : d.Sᵀ = d.S) : dLoglike d θ D = canon d θ D := by
  have hR := VRV_symm d θ hF hP hS
  generalize hW : VRV d θ = W at hR
  generalize hw : rtV d θ = w
  have hsymf : ∀ X : Matrix p p ℝ, frob W Xᵀ = frob W X := by
    intro X
    conv_lhs => rw [← hR]
    exact frob_transpose W X
  cases D with
  | L J =>
    simp only [dLoglike, canon, dSigma, dMu, hW, hw]
    rw [frob_add_right, hsymf, Matrix.add_mulVec, dotProduct_add, dot_transpose_mulVec,
      frob_trace, frob_trace, hR]
    have e1 : ((Jᵀ * (W * θ.L))ᵀ * (θ.Bi * θ.F * θ.Biᵀ)).trace =
        (W * (θ.L * (θ.Bi * θ.F * θ.Biᵀ) * Jᵀ)).trace := by
      rw [← Matrix.trace_transpose]
      simp only [transpose_mul, transpose_transpose, hF]
      rw [Matrix.trace_mul_comm]
      simp only [Matrix.mul_assoc]
      rw [Matrix.trace_mul_comm]
      simp only [Matrix.mul_assoc]
    have e2 : (w ᵥ* θ.L) ⬝ᵥ (θ.Bi * θ.F * θ.Biᵀ) *ᵥ (w ᵥ* J) =
        w ⬝ᵥ (θ.L * (θ.Bi * θ.F * θ.Biᵀ) * Jᵀ) *ᵥ w := by
      generalize θ.Bi * θ.F * θ.Biᵀ = C
      rw [← mulVec_mulVec, mulVec_transpose, ← mulVec_mulVec, dotProduct_mulVec w θ.L]
    rw [e1, e2, dotProduct_comm w (J *ᵥ θ.Bi *ᵥ θ.b)]
    ring
  | B J =>
    simp only [dLoglike, canon, dSigma, dMu, hW, hw]
    rw [← frob_sandwich]
    have e1 : (w ᵥ* θ.L) ᵥ* θ.Bi = w ᵥ* (θ.L * θ.Bi) := vecMul_vecMul _ _ _
    have e2 : (θ.L * θ.Bi)ᵀ * (W * θ.L * θ.Bi) = (θ.L * θ.Bi)ᵀ * W * (θ.L * θ.Bi) := by
      simp only [Matrix.mul_assoc]
    rw [e1, e2]
    generalize θ.L * θ.Bi = A
    rw [← mulVec_mulVec w, mulVec_transpose, ← mulVec_mulVec, ← mulVec_mulVec,
      dotProduct_mulVec w A, dotProduct_mulVec w A, dotProduct_mulVec (w ᵥ* A)
        (J * (θ.Bi * θ.F) + (J * (θ.Bi * θ.F))ᵀ)]
    ring
  | F J =>
    simp only [dLoglike, canon, dSigma, dMu, hW, hw, dotProduct_zero]
    ring
  | P J =>
    simp only [dLoglike, canon, dSigma, dMu, hW, hw, dotProduct_zero]
    ring
  | a J =>
    simp only [dLoglike, canon, dSigma, dMu, hw, zero_mulVec, dotProduct_zero, frob_trace,
      Matrix.mul_zero, Matrix.trace_zero, dotProduct_comm w J]
    ring
  | b J =>
    simp only [dLoglike, canon, dSigma, dMu, hw, zero_mulVec, dotProduct_zero, frob_trace,
      Matrix.mul_zero, Matrix.trace_zero, dotProduct_comm w ((θ.L * θ.Bi) *ᵥ J)]
    ring

theorem md_V (θ : Mats p q) (D : Dir p q) (hB : IsUnit (1 - θ.B).det) (hF : θ.Fᵀ = θ.F)
    (hSg : IsUnit θ.Sigma.det) :
    MD (fun t => ((θ.move D t).Sigma)⁻¹) (-(θ.Sigma⁻¹ * dSigma θ D * θ.Sigma⁻¹)) := by
  have h := MD.inv (C33_dsigma_mu θ D hB hF).1 (by simp only [move_zero]; exact hSg)
  simp only [move_zero] at h
  exact h

theorem dSigma_symm (θ : Mats p q) (D : Dir p q) (hD : D.Ok) :
    (dSigma θ D)ᵀ = dSigma θ D := by
  cases D with
  | L J => simp only [dSigma, transpose_add, transpose_transpose]; abel
  | B J =>
    simp only [dSigma, transpose_mul, transpose_add, transpose_transpose, Matrix.mul_assoc,
      Matrix.mul_add, Matrix.add_mul]; abel
  | F J =>
    have hJ : Jᵀ = J := hD
    simp only [dSigma, transpose_mul, transpose_transpose, Matrix.mul_assoc, hJ]
  | P J => exact hD
  | a J => exact transpose_zero
  | b J => exact transpose_zero

theorem fit_deriv (d : Stats p) (c : ℝ) (θ : Mats p q) (D : Dir p q)
    (hB : IsUnit (1 - θ.B).det) (hF : θ.Fᵀ = θ.F) (hP : θ.Pᵀ = θ.P) (hS : d.Sᵀ = d.S)
    (hSg : IsUnit θ.Sigma.det) (hD : D.Ok) :
    HasDerivAt (fun t => fitGroup d c (θ.move D t)) (canon d θ D) 0 := by
  obtain ⟨hS1, hm1⟩ := C33_dsigma_mu θ D hB hF
  have hV := md_V θ D hB hF hSg
  have hr : VD (fun t => d.m - (θ.move D t).mu) (0 - dMu θ D) := (VD.const d.m).sub hm1
  have h1 := dot_deriv hr (VD.mulVec hV hr)
  have h2 := logdet_deriv hS1 (by simp only [move_zero]; exact hSg)
  have h3 := trace_deriv (hV.mul (MD.const d.S))
  have h4 := ((h1.add h2).add h3).add_const c
  simp only [move_zero] at h4
  have e : (fun t => fitGroup d c (θ.move D t)) = fun t =>
      (d.m - (θ.move D t).mu) ⬝ᵥ ((θ.move D t).Sigma⁻¹ *ᵥ (d.m - (θ.move D t).mu)) +
        Real.log |(θ.move D t).Sigma.det| + ((θ.move D t).Sigma⁻¹ * d.S).trace + c := by
    funext t
    simp only [fitGroup, dotProduct_mulVec]
  rw [e]
  refine h4.congr_deriv ?_
  have hVs := V_symm θ hF hP
  have hSs := dSigma_symm θ D hD
  unfold canon
  rw [frob_trace, VRV_symm d θ hF hP hS]
  have hw : rtV d θ = θ.Sigma⁻¹ *ᵥ (d.m - θ.mu) := by
    unfold rtV
    rw [← mulVec_transpose, hVs]
  have hinv : θ.Sigma⁻¹ * θ.Sigma = 1 := Matrix.nonsing_inv_mul _ hSg
  have ht : (VRV d θ * dSigma θ D).trace =
      (θ.Sigma⁻¹ * dSigma θ D * θ.Sigma⁻¹ * d.S).trace - (θ.Sigma⁻¹ * dSigma θ D).trace := by
    unfold VRV
    rw [Matrix.mul_sub, hinv, Matrix.sub_mul, Matrix.one_mul, Matrix.sub_mul, Matrix.trace_sub]
    congr 1
    rw [Matrix.trace_mul_comm, Matrix.mul_assoc θ.Sigma⁻¹ d.S, ← Matrix.mul_assoc,
      ← Matrix.mul_assoc, Matrix.trace_mul_comm]
    simp only [Matrix.mul_assoc]
  rw [ht, hw]
  generalize d.m - θ.mu = r
  generalize θ.Sigma⁻¹ = V at *
  generalize dSigma θ D = X at *
  generalize dMu θ D = u
  have q1 : (V *ᵥ r) ⬝ᵥ u = r ⬝ᵥ (V *ᵥ u) := by
    rw [dotProduct_mulVec, ← mulVec_transpose, hVs]
  have q2 : (V *ᵥ r) ⬝ᵥ (X *ᵥ (V *ᵥ r)) = r ⬝ᵥ ((V * X * V) *ᵥ r) := by
    rw [← mulVec_mulVec, ← mulVec_mulVec, dotProduct_mulVec r V, ← mulVec_transpose, hVs]
  have q3 : u ⬝ᵥ (V *ᵥ r) = r ⬝ᵥ (V *ᵥ u) := by rw [dotProduct_comm, q1]
  simp only [zero_sub, neg_dotProduct, mulVec_neg, neg_mulVec, dotProduct_add, dotProduct_neg,
    Matrix.mul_zero, add_zero, Matrix.neg_mul, Matrix.trace_neg, q1, q2, q3]
  ring

/-- `_dloglike_mu` is the derivative of the fit function in each free parameter. -/
theorem C33_gradient (d : Stats p) (c : ℝ) (θ : Mats p q) (D : Dir p q)
    (hB : IsUnit (1 - θ.B).det) (hF : θ.Fᵀ = θ.F) (hP : θ.Pᵀ = θ.P) (hS : d.Sᵀ = d.S)
    (hSg : IsUnit θ.Sigma.det) (hD : D.Ok) :
    HasDerivAt (fun t => fitGroup d c (θ.move D t)) (dLoglike d θ D) 0 := by
  rw [dLoglike_eq_canon d θ D hF hP hS]
  exact fit_deriv d c θ D hB hF hP hS hSg hD

/-! ### Hessian -/

theorem md_VRV (d : Stats p) (θ : Mats p q) (D : Dir p q) (hB : IsUnit (1 - θ.B).det)
    (hF : θ.Fᵀ = θ.F) (hSg : IsUnit θ.Sigma.det) :
    MD (fun t => VRV d (θ.move D t)) (-(θ.Sigma⁻¹ * dSigma θ D * VRV d θ) -
      θ.Sigma⁻¹ * dSigma θ D * θ.Sigma⁻¹ - VRV d θ * dSigma θ D * θ.Sigma⁻¹) := by
  have hV := md_V θ D hB hF hSg
  have hR := (MD.const d.S).sub (C33_dsigma_mu θ D hB hF).1
  have h := (hV.mul hR).mul hV
  simp only [move_zero] at h
  refine h.congr ?_
  unfold VRV
  generalize d.S - θ.Sigma = R
  noncomm_ring

theorem vd_rtV (d : Stats p) (θ : Mats p q) (D : Dir p q) (hB : IsUnit (1 - θ.B).det)
    (hF : θ.Fᵀ = θ.F) (hP : θ.Pᵀ = θ.P) (hSg : IsUnit θ.Sigma.det) (hD : D.Ok) :
    VD (fun t => rtV d (θ.move D t)) (-(θ.Sigma⁻¹ *ᵥ (dSigma θ D *ᵥ rtV d θ)) -
      θ.Sigma⁻¹ *ᵥ dMu θ D) := by
  have hV := md_V θ D hB hF hSg
  have hr : VD (fun t => d.m - (θ.move D t).mu) (0 - dMu θ D) :=
    (VD.const d.m).sub (C33_dsigma_mu θ D hB hF).2
  have h := VD.mulVec hV.transpose hr
  simp only [move_zero] at h
  have e : (fun t => rtV d (θ.move D t)) = fun t =>
      ((θ.move D t).Sigma⁻¹)ᵀ *ᵥ (d.m - (θ.move D t).mu) := by
    funext t
    rw [mulVec_transpose]; rfl
  rw [e]
  refine h.congr ?_
  have hVs := V_symm θ hF hP
  have hSs := dSigma_symm θ D hD
  have hw : rtV d θ = θ.Sigma⁻¹ *ᵥ (d.m - θ.mu) := by
    unfold rtV
    rw [← mulVec_transpose, hVs]
  rw [hw]
  simp only [transpose_neg, transpose_mul, hVs, hSs, neg_mulVec, zero_sub, mulVec_neg,
    mulVec_mulVec, Matrix.mul_assoc]
  abel

theorem frob_deriv {m n : Type*} [Fintype m] [Fintype n] {A B : ℝ → Matrix m n ℝ}
    {A' B' : Matrix m n ℝ} (hA : MD A A') (hB : MD B B') :
    HasDerivAt (fun t => frob (A t) (B t)) (frob A' (B 0) + frob (A 0) B') 0 := by
  have h := trace_deriv (hA.transpose.mul hB)
  simp only [frob_trace]
  refine h.congr_deriv ?_
  rw [Matrix.trace_add]

/-- The Hessian entry without the tests that skip zero terms. -/
noncomputable def hessFull (d : Stats p) (θ : Mats p q) (di dj : Dir p q) : ℝ :=
  let V := θ.Sigma⁻¹
  let r := rtV d θ
  2 * frob (VRV d θ + (1 / 2 : ℝ) • V) (dSigma θ di * V * dSigma θ dj)
    + -frob (VRV d θ) (d2Sigma θ di dj)
    + 2 * (dMu θ dj ⬝ᵥ (V *ᵥ dMu θ di))
    + -2 * (r ⬝ᵥ d2MuLL θ di dj)
    + 2 * ((r ᵥ* dSigma θ dj) ⬝ᵥ (V *ᵥ dMu θ di))
    + 2 * ((r ᵥ* dSigma θ di) ⬝ᵥ (V *ᵥ dMu θ dj))
    + 2 * (((r ᵥ* dSigma θ dj) ᵥ* V) ⬝ᵥ (dSigma θ di *ᵥ r))
    + -((r ᵥ* d2Sigma θ di dj) ⬝ᵥ r)

/-- Every skipped term is zero. -/
theorem d2Loglike_eq_full (d : Stats p) (θ : Mats p q) (di dj : Dir p q)
    (hk : dj.kind ≤ di.kind) : d2Loglike d θ di dj = hessFull d θ di dj := by
  have z : ∀ A : Matrix p p ℝ, frob A 0 = 0 := fun A => by simp [frob]
  cases di <;> cases dj <;> simp only [Dir.kind] at hk <;> (try omega) <;>
    simp only [d2Loglike, hessFull, Dir.isMean, Dir.isCov, meanPair, covPair, dSigma, dMu, d2Sigma,
      d2MuLL, Bool.not_true, Bool.not_false, if_true, if_false, Matrix.mul_zero, Matrix.zero_mul,
      z, Matrix.mulVec_zero, Matrix.vecMul_zero, Matrix.zero_mulVec, Matrix.zero_vecMul,
      dotProduct_zero, zero_dotProduct, mul_zero, neg_zero, add_zero, zero_add,
      Bool.false_eq_true] <;> ring

theorem canon_deriv (d : Stats p) (θ : Mats p q) (di dj : Dir p q)
    (hB : IsUnit (1 - θ.B).det) (hF : θ.Fᵀ = θ.F) (hP : θ.Pᵀ = θ.P) (hS : d.Sᵀ = d.S)
    (hSg : IsUnit θ.Sigma.det) (hi : di.Ok) (hj : dj.Ok) (hk : dj.kind ≤ di.kind) :
    HasDerivAt (fun s => canon d (θ.move dj s) di) (hessFull d θ di dj) 0 := by
  have h1 := md_VRV d θ dj hB hF hSg
  have h2 := C33_d2sigma θ di dj hB hF hi hk
  have h3 := C33_d2mu_hessian θ di dj hB hk
  have h4 := vd_rtV d θ dj hB hF hP hSg hj
  have h := ((frob_deriv h1 h2).neg.sub ((dot_deriv h4 h3).const_mul 2)).sub
    (dot_deriv h4 (VD.mulVec h2 h4))
  simp only [move_zero] at h
  refine h.congr_deriv ?_
  have hVs := V_symm θ hF hP
  have hWs := VRV_symm d θ hF hP hS
  have hsi := dSigma_symm θ di hi
  have hsj := dSigma_symm θ dj hj
  unfold hessFull
  simp only [frob_trace]
  generalize VRV d θ = W at *
  generalize rtV d θ = w at *
  generalize θ.Sigma⁻¹ = V at *
  generalize dSigma θ di = X at *
  generalize dSigma θ dj = Y at *
  generalize dMu θ di = u at *
  generalize dMu θ dj = v at *
  generalize d2Sigma θ di dj = Z at *
  generalize d2MuLL θ di dj = z at *
  have t1 : (V * Y * W * X).trace = (W * X * V * Y).trace := by
    rw [Matrix.mul_assoc (V * Y), Matrix.trace_mul_comm]
    simp only [Matrix.mul_assoc]
  have t2 : (W * Y * V * X).trace = (W * X * V * Y).trace := by
    rw [← Matrix.trace_transpose]
    simp only [transpose_mul, hVs, hWs, hsi, hsj]
    rw [← Matrix.mul_assoc, ← Matrix.mul_assoc, Matrix.trace_mul_comm]
    simp only [Matrix.mul_assoc]
  have t3 : (V * Y * V * X).trace = (V * X * V * Y).trace := by
    rw [Matrix.mul_assoc (V * Y), Matrix.trace_mul_comm]
    simp only [Matrix.mul_assoc]
  have ve : ∀ (A : Matrix p p ℝ) (x : p → ℝ), Aᵀ = A → x ᵥ* A = A *ᵥ x := by
    intro A x hA
    rw [← mulVec_transpose, hA]
  have sw : ∀ (A : Matrix p p ℝ) (x y : p → ℝ), Aᵀ = A → (A *ᵥ x) ⬝ᵥ y = x ⬝ᵥ (A *ᵥ y) := by
    intro A x y hA
    rw [dotProduct_mulVec, ve A x hA]
  rw [ve Y w hsj, ve X w hsi, ve V _ hVs, ← dotProduct_mulVec w Z w]
  simp only [transpose_sub, transpose_neg, transpose_mul, transpose_add, transpose_smul, hVs, hWs,
    hsi, hsj, Matrix.sub_mul, Matrix.neg_mul, Matrix.add_mul, Matrix.smul_mul, Matrix.trace_add,
    Matrix.trace_sub, Matrix.trace_neg, Matrix.trace_smul, smul_eq_mul, sub_dotProduct,
    neg_dotProduct, mulVec_sub, mulVec_neg, dotProduct_sub, dotProduct_neg, dotProduct_add]
  have g1 : (W * (Y * V) * X).trace = (W * X * V * Y).trace := by
    rw [← t2]; simp only [Matrix.mul_assoc]
  have g2 : (V * (Y * V) * X).trace = (V * X * V * Y).trace := by
    rw [← t3]; simp only [Matrix.mul_assoc]
  have g3 : (V * (Y * W) * X).trace = (W * X * V * Y).trace := by
    rw [← t1]; simp only [Matrix.mul_assoc]
  have g4 : (W * (X * V * Y)).trace = (W * X * V * Y).trace := by
    simp only [Matrix.mul_assoc]
  have g5 : (V * (X * V * Y)).trace = (V * X * V * Y).trace := by
    simp only [Matrix.mul_assoc]
  have s1 : w ⬝ᵥ X *ᵥ V *ᵥ Y *ᵥ w = (V *ᵥ Y *ᵥ w) ⬝ᵥ X *ᵥ w := by
    rw [← sw X w _ hsi, dotProduct_comm]
  have s2 : w ⬝ᵥ X *ᵥ V *ᵥ v = (X *ᵥ w) ⬝ᵥ V *ᵥ v := by rw [sw X w _ hsi]
  have s3 : (V *ᵥ v) ⬝ᵥ X *ᵥ w = (X *ᵥ w) ⬝ᵥ V *ᵥ v := dotProduct_comm _ _
  have s4 : (V *ᵥ v) ⬝ᵥ u = v ⬝ᵥ V *ᵥ u := sw V v u hVs
  have s5 : (V *ᵥ Y *ᵥ w) ⬝ᵥ u = (Y *ᵥ w) ⬝ᵥ V *ᵥ u := sw V _ u hVs
  rw [g1, g2, g3, g4, g5, s1, s2, s3, s4, s5]
  ring

theorem move_F_symm (θ : Mats p q) (D : Dir p q) (hF : θ.Fᵀ = θ.F) (hD : D.Ok) (t : ℝ) :
    ((θ.move D t).F)ᵀ = (θ.move D t).F := by
  cases D <;> simp [Mats.move, Dir.dF, hF]
  exact congrArg (fun M => t • M) hD

theorem move_P_symm (θ : Mats p q) (D : Dir p q) (hP : θ.Pᵀ = θ.P) (hD : D.Ok) (t : ℝ) :
    ((θ.move D t).P)ᵀ = (θ.move D t).P := by
  cases D <;> simp [Mats.move, Dir.dP, hP]
  exact congrArg (fun M => t • M) hD

/-- `_d2loglike_mu`'s entry `(i, j)` is the derivative in parameter `j` of the gradient entry `i`,
hence (with `C33_gradient`) the second derivative of the fit function. -/
theorem C33_hessian (d : Stats p) (θ : Mats p q) (di dj : Dir p q)
    (hB : IsUnit (1 - θ.B).det) (hF : θ.Fᵀ = θ.F) (hP : θ.Pᵀ = θ.P) (hS : d.Sᵀ = d.S)
    (hSg : IsUnit θ.Sigma.det) (hi : di.Ok) (hj : dj.Ok) (hk : dj.kind ≤ di.kind) :
    HasDerivAt (fun s => dLoglike d (θ.move dj s) di) (d2Loglike d θ di dj) 0 := by
  rw [d2Loglike_eq_full d θ di dj hk]
  have e : (fun s => dLoglike d (θ.move dj s) di) = fun s => canon d (θ.move dj s) di := by
    funext s
    exact dLoglike_eq_canon d _ di (move_F_symm θ dj hF hj s) (move_P_symm θ dj hP hj s) hS
  rw [e]
  exact canon_deriv d θ di dj hB hF hP hS hSg hi hj hk

/-! ### Casewise scores -/

/-- Specification: minus the normal log-density of one observation (`c` is `p log 2 pi`). -/
noncomputable def negLogDens (c : ℝ) (y : p → ℝ) (θ : Mats p q) : ℝ :=
  (Real.log (abs θ.Sigma.det) + (y - θ.mu) ⬝ᵥ (θ.Sigma⁻¹ *ᵥ (y - θ.mu)) + c) / 2

/-- `gradient_obs` gives the derivative of each observation's minus log-density. -/
theorem C33_gradient_obs (y : p → ℝ) (c : ℝ) (θ : Mats p q) (D : Dir p q)
    (hB : IsUnit (1 - θ.B).det) (hF : θ.Fᵀ = θ.F) (hP : θ.Pᵀ = θ.P)
    (hSg : IsUnit θ.Sigma.det) (hD : D.Ok) :
    HasDerivAt (fun t => negLogDens c y (θ.move D t)) (gradObs y θ D) 0 := by
  have h := (fit_deriv (Stats.mk 0 y) c θ D hB hF hP transpose_zero hSg hD).div_const 2
  have e : (fun t => negLogDens c y (θ.move D t)) =
      fun t => fitGroup (Stats.mk 0 y) c (θ.move D t) / 2 := by
    funext t
    simp only [negLogDens, fitGroup, Matrix.mul_zero, Matrix.trace_zero, dotProduct_mulVec]
    ring
  rw [e]
  refine h.congr_deriv ?_
  have hv : VRV (Stats.mk 0 y) θ = -θ.Sigma⁻¹ := by
    simp only [VRV, zero_sub, Matrix.mul_neg, Matrix.neg_mul, Matrix.nonsing_inv_mul _ hSg,
      Matrix.one_mul]
  unfold canon gradObs
  rw [hv]
  have hf : frob (-θ.Sigma⁻¹) (dSigma θ D) = -frob (dSigma θ D) θ.Sigma⁻¹ := by
    rw [frob_trace, frob_trace, transpose_neg, Matrix.neg_mul, Matrix.trace_neg,
      dSigma_symm θ D hD, V_symm θ hF hP, Matrix.trace_mul_comm]
  rw [hf]
  show _ = (-2 * (-frob (dSigma θ D) θ.Sigma⁻¹ / 2 + rtV (Stats.mk 0 y) θ ⬝ᵥ dMu θ D +
    rtV (Stats.mk 0 y) θ ⬝ᵥ (dSigma θ D *ᵥ rtV (Stats.mk 0 y) θ) / 2)) / 2
  ring

/-- The hypotheses are satisfiable. -/
example : ∃ (θ : Mats (Fin 2) (Fin 1)) (d : Stats (Fin 2)), IsUnit (1 - θ.B).det ∧
    θ.Fᵀ = θ.F ∧ θ.Pᵀ = θ.P ∧ d.Sᵀ = d.S ∧ IsUnit θ.Sigma.det := by
  refine ⟨Mats.mk 0 0 1 1 0 0, Stats.mk 1 0, ?_, ?_, ?_, ?_, ?_⟩ <;> simp [Mats.Sigma]

end Verif.Sem
