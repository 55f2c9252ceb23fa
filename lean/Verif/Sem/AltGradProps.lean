import Verif.Sem.AltGrad
import Verif.Sem.LikeProps
/-!
# C214: the second gradient of the fit function; C215: the fit function without means
-/
set_option linter.unusedSectionVars false
namespace Verif.Sem
open Matrix Verif.Calc

variable {p q : Type*} [Fintype p] [Fintype q] [DecidableEq p] [DecidableEq q]

/-! ## Directions -/

/-- Specification: the direction of a cell of a symmetric matrix. -/
def symDir {n : Type*} [DecidableEq n] (r c : n) : Matrix n n ℝ := fun i j =>
  if (i = r ∧ j = c) ∨ (i = c ∧ j = r) then 1 else 0

/-- Specification: the direction of a parameter. -/
def Par.dir : Par p q → Dir p q
  | .L r c => .L (Matrix.single r c 1)
  | .B r c => .B (Matrix.single r c 1)
  | .F r c => .F (symDir r c)
  | .P r c => .P (symDir r c)
  | .a c => .a (Pi.single c 1)
  | .b c => .b (Pi.single c 1)

theorem symDir_symm {n : Type*} [DecidableEq n] (r c : n) : (symDir r c)ᵀ = symDir r c := by
  funext i j
  simp only [Matrix.transpose_apply, symDir]
  congr 1
  rw [eq_iff_iff]
  tauto

theorem Par.dir_ok (x : Par p q) : x.dir.Ok := by
  cases x <;> first | trivial | exact symDir_symm _ _

/-- The empty work arrays. -/
def Buf.zero : Buf p q := ⟨0, 0, 0, 0, 0, 0⟩

theorem set_single {m n : Type*} [DecidableEq m] [DecidableEq n] (r : m) (c : n) :
    setCell (0 : Matrix m n ℝ) r c 1 = Matrix.single r c 1 := by
  funext i j
  simp only [setCell, Matrix.single, Matrix.of_apply, Matrix.zero_apply, eq_comm (a := r),
    eq_comm (a := c)]

theorem set_back {m n : Type*} [DecidableEq m] [DecidableEq n] (r : m) (c : n) :
    setCell (setCell (0 : Matrix m n ℝ) r c 1) r c 0 = 0 := by
  funext i j
  simp only [setCell, Matrix.zero_apply]
  split_ifs <;> rfl

theorem set_sym {n : Type*} [DecidableEq n] (r c : n) :
    setCell (setCell (0 : Matrix n n ℝ) r c 1) c r 1 = symDir r c := by
  funext i j
  simp only [setCell, symDir, Matrix.zero_apply]
  by_cases h1 : i = c ∧ j = r <;> by_cases h2 : i = r ∧ j = c <;> simp [h1, h2]

theorem set_sym_back {n : Type*} [DecidableEq n] (r c : n) :
    setCell (setCell (symDir r c) r c 0) c r 0 = 0 := by
  funext i j
  simp only [setCell, symDir, Matrix.zero_apply]
  by_cases h1 : i = c ∧ j = r <;> by_cases h2 : i = r ∧ j = c <;> simp [h1, h2]

/-! ## C214 -/

/-- One pass: the gradient of `_dloglike_mu` in the direction of the parameter, and empty work
arrays are left empty. -/
theorem altStep_eq (d : Stats p) (θ : Mats p q) (x : Par p q) :
    altStep d θ Buf.zero x = (dLoglike d θ x.dir, Buf.zero) := by
  have hL : ∀ (r : p) (c : q), setCell (Matrix.single r c (1 : ℝ)) r c 0 = 0 := fun r c => by
    rw [← set_single, set_back]
  have hB : ∀ (r c : q), setCell (Matrix.single r c (1 : ℝ)) r c 0 = 0 := fun r c => by
    rw [← set_single, set_back]
  cases x with
  | L r c => simp only [altStep, Buf.zero, Par.dir, dLoglike, set_single, hL]
  | B r c => simp only [altStep, Buf.zero, Par.dir, dLoglike, set_single, hB]
  | F r c => simp only [altStep, Buf.zero, Par.dir, dLoglike, set_sym, set_sym_back]
  | P r c => simp only [altStep, Buf.zero, Par.dir, dLoglike, set_sym, set_sym_back]
  | a c =>
    simp only [altStep, Buf.zero, Par.dir, dLoglike, Function.update_idem]
    have e : Function.update (0 : p → ℝ) c 0 = 0 := Function.update_eq_self_iff.2 rfl
    rw [e]
    rfl
  | b c =>
    simp only [altStep, Buf.zero, Par.dir, dLoglike, Function.update_idem]
    have e : Function.update (0 : q → ℝ) c 0 = 0 := Function.update_eq_self_iff.2 rfl
    rw [e]
    rfl

/-- `_dloglike_mu_alt` computes the entries of `_dloglike_mu` and leaves the work arrays as it found
them, so that every later call does as well. -/
theorem C214_alt (d : Stats p) (θ : Mats p q) (l : List (Par p q)) :
    altGrad d θ l Buf.zero = (l.map fun x => dLoglike d θ x.dir, Buf.zero) := by
  induction l with
  | nil => rfl
  | cons x t ih => simp only [altGrad, altStep_eq, ih, List.map_cons]

/-- Hence each entry is the derivative of the fit function in its parameter. -/
theorem C214_alt_deriv (d : Stats p) (c : ℝ) (θ : Mats p q) (l : List (Par p q))
    (hB : IsUnit (1 - θ.B).det) (hF : θ.Fᵀ = θ.F) (hP : θ.Pᵀ = θ.P) (hS : d.Sᵀ = d.S)
    (hSg : IsUnit θ.Sigma.det) (k : ℕ) (hk : k < l.length) :
    HasDerivAt (fun t => fitGroup d c (θ.move (l[k]).dir t))
      ((altGrad d θ l Buf.zero).1.getD k 0) 0 := by
  rw [C214_alt, List.getD_eq_getElem?_getD, List.getElem?_map,
    List.getElem?_eq_getElem hk, Option.map_some, Option.getD_some]
  exact C33_gradient d c θ _ hB hF hP hS hSg (Par.dir_ok _)

/-! ### `gradient2` -/

theorem frob_single {m n k l : Type*} [Fintype m] [Fintype n] [Fintype k] [Fintype l]
    [DecidableEq k] [DecidableEq l] (W : Matrix m n ℝ) (A : Matrix m k ℝ) (C : Matrix l n ℝ) (r : k)
    (c : l) : frob W (A * Matrix.single r c (1 : ℝ) * C) = (Aᵀ * W * Cᵀ) r c := by
  rw [frob_trace, Matrix.mul_assoc A, ← Matrix.mul_assoc, Matrix.trace_mul_comm, Matrix.mul_assoc,
    Matrix.trace_single_mul, one_smul, ← Matrix.transpose_apply (C * (Wᵀ * A))]
  simp only [transpose_mul, transpose_transpose]

theorem symDir_eq {n : Type*} [DecidableEq n] (r c : n) :
    symDir r c = Matrix.single r c 1 + (if r ≠ c then Matrix.single c r 1 else 0) := by
  funext i j
  by_cases h : r = c
  · subst h
    simp only [symDir, or_self, ne_eq, not_true_eq_false, if_false, add_zero, Matrix.single,
      Matrix.of_apply, eq_comm (a := r)]
  · rw [if_pos h]
    simp only [symDir, Matrix.add_apply, Matrix.single, Matrix.of_apply, eq_comm (a := r),
      eq_comm (a := c)]
    by_cases h1 : i = c ∧ j = r <;> by_cases h2 : i = r ∧ j = c
    · exact absurd (h2.1.symm.trans h1.1) h
    all_goals simp [h1, h2, h, Ne.symm h]

theorem frob_symDir {m n : Type*} [Fintype m] [Fintype n] [DecidableEq n] {W : Matrix m m ℝ}
    (hW : Wᵀ = W) (A : Matrix m n ℝ) (r c : n) :
    frob W (A * symDir r c * Aᵀ) = (Aᵀ * W * A) r c * (1 + (if r ≠ c then 1 else 0)) := by
  have hs : (Aᵀ * W * A) c r = (Aᵀ * W * A) r c := by
    rw [← Matrix.transpose_apply (Aᵀ * W * A)]
    simp only [transpose_mul, transpose_transpose, hW, Matrix.mul_assoc]
  rw [symDir_eq, Matrix.mul_add, Matrix.add_mul, frob_add_right, frob_single, transpose_transpose]
  by_cases h : r ≠ c
  · rw [if_pos h, if_pos h, frob_single, transpose_transpose, hs]; ring
  · rw [if_neg h, if_neg h, Matrix.mul_zero, Matrix.zero_mul]
    have z : frob W 0 = 0 := by simp [frob]
    rw [z]; ring

/-- The weight matrix of `gradient2` joins the two quadratic terms of the gradient. -/
theorem canon_joined (d : Stats p) (θ : Mats p q) (D : Dir p q) (hF : θ.Fᵀ = θ.F)
    (hP : θ.Pᵀ = θ.P) :
    canon d θ D = -frob (θ.Sigma⁻¹ * (d.S + vecMulVec (d.m - θ.mu) (d.m - θ.mu) - θ.Sigma) *
      θ.Sigma⁻¹) (dSigma θ D) - 2 * ((θ.Sigma⁻¹ *ᵥ (d.m - θ.mu)) ⬝ᵥ dMu θ D) := by
  have hVs := V_symm θ hF hP
  have hw : rtV d θ = θ.Sigma⁻¹ *ᵥ (d.m - θ.mu) := by
    unfold rtV
    rw [← mulVec_transpose, hVs]
  have e : θ.Sigma⁻¹ * (d.S + vecMulVec (d.m - θ.mu) (d.m - θ.mu) - θ.Sigma) * θ.Sigma⁻¹ =
      VRV d θ + vecMulVec (rtV d θ) (rtV d θ) := by
    have h1 : vecMulVec (rtV d θ) (rtV d θ) =
        θ.Sigma⁻¹ * vecMulVec (d.m - θ.mu) (d.m - θ.mu) * θ.Sigma⁻¹ := by
      rw [Matrix.mul_vecMulVec, Matrix.vecMulVec_mul, ← hw]
      rfl
    rw [h1]
    unfold VRV
    noncomm_ring
  have h2 : frob (vecMulVec (rtV d θ) (rtV d θ)) (dSigma θ D) =
      rtV d θ ⬝ᵥ (dSigma θ D *ᵥ rtV d θ) := by
    simp only [frob, vecMulVec_apply, dotProduct, mulVec, Finset.mul_sum]
    refine Finset.sum_congr rfl fun i _ => Finset.sum_congr rfl fun j _ => ?_
    ring
  have h3 : ∀ A B C : Matrix p p ℝ, frob (A + B) C = frob A C + frob B C := fun A B C => by
    simp only [frob, Matrix.add_apply, add_mul, Finset.sum_add_distrib]
  rw [e, h3, h2, ← hw]
  unfold canon
  ring

/-- `gradient2` computes the same entries in matrix form. -/
theorem C214_gradient2 (d : Stats p) (θ : Mats p q) (x : Par p q) (hF : θ.Fᵀ = θ.F)
    (hP : θ.Pᵀ = θ.P) (hS : d.Sᵀ = d.S) : grad2 d θ x = dLoglike d θ x.dir := by
  rw [dLoglike_eq_canon d θ _ hF hP hS, canon_joined d θ _ hF hP]
  have hVs := V_symm θ hF hP
  have hW : (θ.Sigma⁻¹ * (d.S + vecMulVec (d.m - θ.mu) (d.m - θ.mu) - θ.Sigma) * θ.Sigma⁻¹)ᵀ =
      θ.Sigma⁻¹ * (d.S + vecMulVec (d.m - θ.mu) (d.m - θ.mu) - θ.Sigma) * θ.Sigma⁻¹ := by
    simp only [transpose_mul, transpose_sub, transpose_add, hVs, Sigma_symm θ hF hP, hS,
      transpose_vecMulVec, Matrix.mul_assoc]
  simp only [grad2]
  generalize θ.Sigma⁻¹ * (d.S + vecMulVec (d.m - θ.mu) (d.m - θ.mu) - θ.Sigma) * θ.Sigma⁻¹ = W at *
  generalize θ.Sigma⁻¹ *ᵥ (d.m - θ.mu) = v
  have hsymf : ∀ X : Matrix p p ℝ, frob W Xᵀ = frob W X := by
    intro X
    conv_lhs => rw [← hW]
    exact frob_transpose W X
  have z : frob W 0 = 0 := by simp [frob]
  cases x with
  | L r c =>
    simp only [Par.dir, dSigma, dMu]
    rw [frob_add_right, hsymf]
    have e1 : frob W (θ.L * (θ.Bi * θ.F * θ.Biᵀ) * (Matrix.single r c (1 : ℝ))ᵀ) =
        (W * (θ.L * θ.Bi * (θ.F * θ.Biᵀ))) r c := by
      rw [← hsymf]
      simp only [transpose_mul, transpose_transpose, hF]
      have := frob_single W (1 : Matrix p p ℝ) (θ.Bi * (θ.F * (θ.Biᵀ * θ.Lᵀ))) r c
      rw [Matrix.one_mul, transpose_one, Matrix.one_mul] at this
      simp only [transpose_mul, transpose_transpose, hF] at this
      simp only [Matrix.mul_assoc] at this ⊢
      exact this
    rw [e1, Matrix.single_mulVec]
    simp only [Matrix.smul_apply, Matrix.add_apply, smul_eq_mul, vecMulVec_apply, one_mul,
      dotProduct, Function.update_apply, Pi.zero_apply, mul_ite, mul_zero, Finset.sum_ite_eq',
      Finset.sum_ite_eq, Finset.mem_univ, if_true]
    ring
  | B r c =>
    simp only [Par.dir, dSigma, dMu]
    have e1 : frob W (θ.L * θ.Bi * (Matrix.single r c (1 : ℝ) * (θ.Bi * θ.F) +
        (Matrix.single r c (1 : ℝ) * (θ.Bi * θ.F))ᵀ) * (θ.L * θ.Bi)ᵀ) =
        2 * ((θ.L * θ.Bi)ᵀ * W * (θ.L * θ.Bi * (θ.F * θ.Biᵀ))) r c := by
      have h1 : θ.L * θ.Bi * (Matrix.single r c (1 : ℝ) * (θ.Bi * θ.F) +
          (Matrix.single r c (1 : ℝ) * (θ.Bi * θ.F))ᵀ) * (θ.L * θ.Bi)ᵀ =
          θ.L * θ.Bi * Matrix.single r c (1 : ℝ) * (θ.Bi * θ.F * (θ.L * θ.Bi)ᵀ) +
          (θ.L * θ.Bi * Matrix.single r c (1 : ℝ) * (θ.Bi * θ.F * (θ.L * θ.Bi)ᵀ))ᵀ := by
        simp only [Matrix.mul_add, Matrix.add_mul, transpose_mul, transpose_transpose,
          Matrix.mul_assoc]
      rw [h1, frob_add_right, hsymf, frob_single]
      simp only [transpose_mul, transpose_transpose, hF, Matrix.mul_assoc]
      ring
    have e2 : v ⬝ᵥ (θ.L * θ.Bi * Matrix.single r c (1 : ℝ)) *ᵥ (θ.Bi *ᵥ θ.b) =
        ((θ.L * θ.Bi)ᵀ * vecMulVec v (θ.Bi *ᵥ θ.b)) r c := by
      rw [← mulVec_mulVec, dotProduct_mulVec, Matrix.single_mulVec, Matrix.mul_vecMulVec,
        vecMulVec_apply, mulVec_transpose]
      simp only [one_mul, dotProduct, Function.update_apply, Pi.zero_apply, mul_ite, mul_zero,
        Finset.sum_ite_eq', Finset.sum_ite_eq, Finset.mem_univ, if_true]
    rw [e1, e2]
    simp only [Matrix.smul_apply, Matrix.add_apply, smul_eq_mul]
    ring
  | F r c =>
    simp only [Par.dir, dSigma, dMu, dotProduct_zero]
    rw [frob_symDir hW, Matrix.neg_apply]
    ring
  | P r c =>
    simp only [Par.dir, dSigma, dMu, dotProduct_zero]
    have := frob_symDir hW (1 : Matrix p p ℝ) r c
    rw [Matrix.one_mul, transpose_one, Matrix.mul_one, Matrix.one_mul, Matrix.mul_one] at this
    rw [this, Matrix.neg_apply]
    ring
  | a c =>
    simp only [Par.dir, dSigma, dMu, z, dotProduct_single, Pi.smul_apply, smul_eq_mul]
    ring
  | b c =>
    simp only [Par.dir, dSigma, dMu, z, Pi.smul_apply, smul_eq_mul]
    rw [dotProduct_mulVec, dotProduct_single, mulVec_transpose]
    ring

/-- The groups are weighted by the sizes in decreasing order: with one observation in the first group
and two in the second, the first gets the weight of the second. -/
theorem C214_weights_violated :
    valueCounts [0, 1, 1] 2 = [2, 1] ∧ (List.range 2).map (fun i => [0, 1, 1].count i) = [1, 2] := by
  refine ⟨?_, by decide⟩
  simp [valueCounts, List.range_succ, List.mergeSort, List.merge]

/-- They are right when the sizes do not increase from group to group. -/
theorem C214_weights_partial (g : List ℕ) (n : ℕ)
    (h : ((List.range n).map fun i => g.count i).Pairwise (fun x y => y ≤ x)) :
    valueCounts g n = (List.range n).map fun i => g.count i := by
  unfold valueCounts
  apply List.mergeSort_of_pairwise
  exact h.imp fun h => by simpa using h

/-! ## C215 -/

theorem covFun_eq (C : Matrix p p ℝ) (θ : Mats p q) (hmu : θ.mu = 0) :
    covFun C θ.Sigma = fitGroup ⟨C, 0⟩ 0 θ := by
  simp [covFun, fitGroup, hmu]

theorem covGrad_eq (C Sigma D1 : Matrix p p ℝ) :
    covGrad C Sigma D1 = -(Sigma⁻¹ * (C - Sigma) * Sigma⁻¹ * D1).trace := by
  unfold covGrad
  dsimp only
  congr 1
  unfold Matrix.trace
  rw [Finset.sum_comm]
  rfl

/-- `_gradient` is the derivative of `_function` along any curve of covariance matrices. -/
theorem C215_gradient {C : Matrix p p ℝ} {Sig : ℝ → Matrix p p ℝ} {D1 : Matrix p p ℝ}
    (h : MD Sig D1) (hS : IsUnit (Sig 0).det) :
    HasDerivAt (fun t => covFun C (Sig t)) (covGrad C (Sig 0) D1) 0 := by
  have h1 := logdet_deriv h hS
  have h2 := trace_deriv ((MD.inv h hS).mul (MD.const C))
  refine (h1.add h2).congr_deriv ?_
  rw [covGrad_eq]
  have hinv : (Sig 0)⁻¹ * Sig 0 = 1 := Matrix.nonsing_inv_mul _ hS
  have e : ((Sig 0)⁻¹ * (C - Sig 0) * (Sig 0)⁻¹ * D1).trace =
      ((Sig 0)⁻¹ * D1 * (Sig 0)⁻¹ * C).trace - ((Sig 0)⁻¹ * D1).trace := by
    rw [Matrix.mul_sub, hinv, Matrix.sub_mul, Matrix.one_mul, Matrix.sub_mul, Matrix.trace_sub]
    congr 1
    rw [Matrix.mul_assoc, Matrix.trace_mul_comm]
    simp only [Matrix.mul_assoc]
  rw [e]
  simp only [Matrix.mul_zero, add_zero, Matrix.neg_mul, Matrix.trace_neg]
  ring

theorem covHess_eq (C Sigma D1 D1' D2 : Matrix p p ℝ) :
    covHess C Sigma D1 D1' D2 =
      2 * ((Sigma⁻¹ * (C - Sigma) * Sigma⁻¹ + (1 / 2 : ℝ) • Sigma⁻¹) * D1 * (Sigma⁻¹ * D1')).trace -
        (Sigma⁻¹ * (C - Sigma) * Sigma⁻¹ * D2).trace := by
  unfold covHess
  dsimp only
  congr 1
  unfold Matrix.trace
  rw [Finset.sum_comm]
  rfl

/-- `_hessian` is the derivative of `_gradient`: `Sig` is the curve in the second parameter and `D1`
the derivative in the first along it. -/
theorem C215_hessian {C : Matrix p p ℝ} {Sig D1 : ℝ → Matrix p p ℝ} {D1' D2 : Matrix p p ℝ}
    (h : MD Sig D1') (h2 : MD D1 D2) (hS : IsUnit (Sig 0).det) (hC : Cᵀ = C)
    (hSs : (Sig 0)ᵀ = Sig 0) (h1s : (D1 0)ᵀ = D1 0) (h1s' : D1'ᵀ = D1') :
    HasDerivAt (fun t => covGrad C (Sig t) (D1 t)) (covHess C (Sig 0) (D1 0) D1' D2) 0 := by
  have hV := MD.inv h hS
  have hA := (hV.mul ((MD.const C).sub h)).mul hV
  have h3 := (trace_deriv (hA.mul h2)).neg
  have e : (fun t => covGrad C (Sig t) (D1 t)) = fun t =>
      -(((Sig t)⁻¹ * (C - Sig t) * (Sig t)⁻¹) * D1 t).trace := by
    funext t; exact covGrad_eq _ _ _
  rw [e]
  refine h3.congr_deriv ?_
  rw [covHess_eq]
  have hVs : ((Sig 0)⁻¹)ᵀ = (Sig 0)⁻¹ := by rw [Matrix.transpose_nonsing_inv, hSs]
  have hinv : (Sig 0)⁻¹ * Sig 0 = 1 := Matrix.nonsing_inv_mul _ hS
  have hinv' : Sig 0 * (Sig 0)⁻¹ = 1 := Matrix.mul_nonsing_inv _ hS
  have hAs : ((Sig 0)⁻¹ * (C - Sig 0) * (Sig 0)⁻¹)ᵀ = (Sig 0)⁻¹ * (C - Sig 0) * (Sig 0)⁻¹ := by
    simp only [transpose_mul, transpose_sub, hVs, hSs, hC, Matrix.mul_assoc]
  generalize hW : (Sig 0)⁻¹ * (C - Sig 0) * (Sig 0)⁻¹ = W at *
  have hd : (-((Sig 0)⁻¹ * D1' * (Sig 0)⁻¹) * (C - Sig 0) + (Sig 0)⁻¹ * (0 - D1')) * (Sig 0)⁻¹ +
      (Sig 0)⁻¹ * (C - Sig 0) * -((Sig 0)⁻¹ * D1' * (Sig 0)⁻¹) =
      -((Sig 0)⁻¹ * D1' * W) - (Sig 0)⁻¹ * D1' * (Sig 0)⁻¹ - W * D1' * (Sig 0)⁻¹ := by
    rw [← hW]; noncomm_ring
  rw [hd]
  generalize (Sig 0)⁻¹ = V at *
  generalize D1 0 = X at *
  have t1 : (V * D1' * W * X).trace = (W * X * V * D1').trace := by
    rw [Matrix.mul_assoc (V * D1'), Matrix.trace_mul_comm]
    simp only [Matrix.mul_assoc]
  have t2 : (W * D1' * V * X).trace = (W * X * V * D1').trace := by
    rw [← Matrix.trace_transpose]
    simp only [transpose_mul, hVs, hAs, h1s, h1s']
    rw [← Matrix.mul_assoc, ← Matrix.mul_assoc, Matrix.trace_mul_comm]
    simp only [Matrix.mul_assoc]
  have t3 : (V * D1' * V * X).trace = (V * X * V * D1').trace := by
    rw [Matrix.mul_assoc (V * D1'), Matrix.trace_mul_comm]
    simp only [Matrix.mul_assoc]
  simp only [Matrix.sub_mul, Matrix.neg_mul, Matrix.add_mul, Matrix.smul_mul, Matrix.trace_add,
    Matrix.trace_sub, Matrix.trace_neg, Matrix.trace_smul, smul_eq_mul, t1, t2, t3,
    ← Matrix.mul_assoc]
  ring

/-- `_dloglike` is the derivative of `_function` at the implied covariance matrix. -/
theorem C215_dloglike (C : Matrix p p ℝ) (θ : Mats p q) (D : Dir p q)
    (hB : IsUnit (1 - θ.B).det) (hF : θ.Fᵀ = θ.F) (hP : θ.Pᵀ = θ.P) (hC : Cᵀ = C)
    (hSg : IsUnit θ.Sigma.det) :
    HasDerivAt (fun t => covFun C (θ.move D t).Sigma) (covDlog C θ D) 0 ∧
    covDlog C θ D = covGrad C θ.Sigma (dSigma θ D) := by
  have e : covDlog C θ D = covGrad C θ.Sigma (dSigma θ D) := by
    rw [covGrad_eq, covDlog, frob_trace, VRV_symm _ θ hF hP hC]
    rfl
  refine ⟨?_, e⟩
  have h := C215_gradient (C := C) (C33_dsigma_mu θ D hB hF).1
    (by simp only [move_zero]; exact hSg)
  rw [e]
  simpa only [move_zero] using h

/-- `_d2loglike` is the derivative of `_dloglike`. -/
theorem C215_d2loglike (C : Matrix p p ℝ) (θ : Mats p q) (di dj : Dir p q)
    (hB : IsUnit (1 - θ.B).det) (hF : θ.Fᵀ = θ.F) (hP : θ.Pᵀ = θ.P) (hC : Cᵀ = C)
    (hSg : IsUnit θ.Sigma.det) (hi : di.Ok) (hj : dj.Ok) (hk : dj.kind ≤ di.kind) :
    HasDerivAt (fun s => covDlog C (θ.move dj s) di) (covD2log C θ di dj) 0 := by
  have e : (fun s => covDlog C (θ.move dj s) di) = fun s =>
      covGrad C (θ.move dj s).Sigma (dSigma (θ.move dj s) di) := by
    funext s
    rw [covGrad_eq, covDlog, frob_trace,
      VRV_symm _ _ (move_F_symm θ dj hF hj s) (move_P_symm θ dj hP hj s) hC]
    rfl
  have h := C215_hessian (C := C) (C33_dsigma_mu θ dj hB hF).1 (C33_d2sigma θ di dj hB hF hi hk)
    (by simp only [move_zero]; exact hSg) hC (by simp only [move_zero]; exact Sigma_symm θ hF hP)
    (by simp only [move_zero]; exact dSigma_symm θ di hi) (dSigma_symm θ dj hj)
  rw [e]
  refine h.congr_deriv ?_
  simp only [move_zero]
  have hW := VRV_symm ⟨C, 0⟩ θ hF hP hC
  have hVs := V_symm θ hF hP
  rw [covHess_eq, covD2log, frob_trace, frob_trace, transpose_add, transpose_smul, hW, hVs]
  simp only [VRV, Matrix.mul_assoc]
  ring

/-- The counter of the loops of `_d2loglike` runs through the pairs in the order in which their kinds
are stored: at every pair the kind read is that of the pair. -/
theorem C215_pairs (n : ℕ) : loopPairs n = Index.trilIndices n 0 true := by
  unfold loopPairs Index.trilIndices Np.npTriu
  rw [if_pos rfl, List.map_flatMap]
  apply List.flatMap_congr
  intro j hj
  rw [List.map_map]
  have e : (List.range n).filter (fun (i : ℕ) => decide ((j : ℤ) + 0 * -1 ≤ (i : ℤ))) =
      List.range' j (n - j) := by
    have hj' : j < n := List.mem_range.1 hj
    have h1 : List.range n = List.range j ++ List.range' j (n - j) := by
      have h2 := List.range'_append_1 (s := 0) (m := j) (n := n - j)
      rw [Nat.zero_add] at h2
      rw [List.range_eq_range', List.range_eq_range', h2]
      congr 1; omega
    rw [h1, List.filter_append]
    rw [List.filter_eq_nil_iff.2, List.filter_eq_self.2, List.nil_append]
    · intro a ha
      have := (List.mem_range'_1.1 ha).1
      simp; omega
    · intro a ha
      have := List.mem_range.1 ha
      simp; omega
  rw [e]
  rfl

theorem C215_kinds (types : ℕ → ℕ) (n : ℕ) (x : (ℕ × ℕ) × ℕ) (hx : x ∈ loopKinds types n) :
    x.2 = pairType (types x.1.1) (types x.1.2) := by
  unfold loopKinds pairTypes at hx
  rw [C215_pairs] at hx
  have : ∀ (l : List (ℕ × ℕ)) (f : ℕ × ℕ → ℕ) (x), x ∈ l.zip (l.map f) → x.2 = f x.1 := by
    intro l f
    induction l with
    | nil => simp
    | cons a t ih =>
      intro x hx
      rw [List.map_cons, List.zip_cons_cons, List.mem_cons] at hx
      rcases hx with rfl | hx
      · rfl
      · exact ih x hx
  exact this _ _ x hx

/-- The stored kind is zero exactly for the pairs without a second derivative. -/
theorem C215_pairType {mi mj : ℕ} (hi : mi < 4) (hj : mj ≤ mi) :
    pairType mi mj = 0 ↔ (mi, mj) ∈ [(2, 2), (3, 0), (3, 1), (3, 2), (3, 3)] := by
  interval_cases mi <;> interval_cases mj <;> decide

/-- `_gradient_direct` raises. -/
theorem C215_direct_violated : gradientDirect = none := rfl

/-- The blocks of the free parameters are found unless there is exactly one, where the constructor
raises. -/
theorem C215_single_partial (l : List ℕ) (block : ℕ → ℕ)
    (h : ((List.range l.length).filter fun i => l.getD i 0 > 0).length ≠ 1) :
    freeToMat l block =
      some (((List.range l.length).filter fun i => l.getD i 0 > 0).map block) := by
  unfold freeToMat
  dsimp only
  rw [if_neg h]

theorem C215_single_violated (block : ℕ → ℕ) : freeToMat [0, 1, 0] block = none := by
  simp [freeToMat, List.range_succ]

example : ∃ θ : Mats (Fin 1) (Fin 1), IsUnit (1 - θ.B).det ∧ θ.Fᵀ = θ.F ∧ θ.Pᵀ = θ.P ∧
    IsUnit θ.Sigma.det :=
  ⟨⟨1, 0, 0, 1, 0, 0⟩, by simp, by simp, by simp, by simp [Mats.Sigma]⟩

end Verif.Sem
