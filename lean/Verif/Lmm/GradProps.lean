import Verif.Lmm.LikeProps
import Verif.Calc.Matrix
import Mathlib.Tactic.NoncommRing
/-!
# C110: the gradient of the mixed model likelihood
-/
namespace Verif.Lmm
open Matrix Kronecker Verif.Fa Verif.Like Verif.Calc
variable {T : Terms} {n p q : ℕ}

/-! ## Calculus -/

/-- The derivative of `devi` in the direction `D` of the marginal covariance. -/
noncomputable def dform (reml : Bool) (X : Mat n p) (y : Fin n → ℝ) (V D : Mat n n) : ℝ :=
  (V⁻¹ * D).trace - (if reml then ((xvx X V)⁻¹ * (Xᵀ * V⁻¹ * D * V⁻¹ * X)).trace else 0) -
    (pmat X V *ᵥ y) ⬝ᵥ (D *ᵥ (pmat X V *ᵥ y))

theorem md_xvx {X : Mat n p} {V : ℝ → Mat n n} {V' : Mat n n} (h : MD V V') (hu : IsUnit (V 0).det) :
    MD (fun t => xvx X (V t)) (-(Xᵀ * (V 0)⁻¹ * V' * (V 0)⁻¹ * X)) := by
  have h1 := ((MD.const Xᵀ).mul (h.inv hu)).mul (MD.const X)
  refine h1.congr ?_
  simp [Matrix.mul_assoc]

theorem md_pmat {X : Mat n p} {V : ℝ → Mat n n} {V' : Mat n n} (h : MD V V') (hu : IsUnit (V 0).det)
    (hx : IsUnit (xvx X (V 0)).det) : MD (fun t => pmat X (V t)) (-(pmat X (V 0) * V' * pmat X (V 0))) := by
  have hi := h.inv hu
  have hM := (md_xvx (X := X) h hu).inv hx
  have h1 := hi.sub ((((hi.mul (MD.const X)).mul hM).mul (MD.const Xᵀ)).mul hi)
  refine h1.congr ?_
  unfold pmat
  generalize (xvx X (V 0))⁻¹ = M
  generalize (V 0)⁻¹ = W
  simp only [Matrix.mul_zero, Matrix.zero_mul, add_zero, Matrix.mul_sub, Matrix.sub_mul, Matrix.add_mul, Matrix.mul_add,
    Matrix.neg_mul, Matrix.mul_neg, Matrix.mul_assoc]
  abel

theorem devi_deriv {reml : Bool} {X : Mat n p} {y : Fin n → ℝ} {V : ℝ → Mat n n} {V' : Mat n n} (h : MD V V')
    (hs : (V 0)ᵀ = V 0) (hu : IsUnit (V 0).det) (hx : IsUnit (xvx X (V 0)).det) :
    HasDerivAt (fun t => devi reml X y (V t)) (dform reml X y (V 0) V') 0 := by
  have hP : (pmat X (V 0))ᵀ = pmat X (V 0) := by
    have h1 : ((V 0)⁻¹)ᵀ = (V 0)⁻¹ := by rw [transpose_nonsing_inv, hs]
    have h2 : ((xvx X (V 0))⁻¹)ᵀ = (xvx X (V 0))⁻¹ := by
      rw [transpose_nonsing_inv]
      congr 1
      simp only [xvx, transpose_mul, transpose_transpose, h1, Matrix.mul_assoc]
    simp only [pmat, transpose_sub, transpose_mul, transpose_transpose, h1, h2, Matrix.mul_assoc]
  have d1 := logdet_deriv h hu
  have d2 := logdet_deriv (md_xvx (X := X) h hu) hx
  have d3 := dot_deriv (VD.const y) (VD.mulVec (md_pmat h hu hx) (VD.const y))
  have d3' : HasDerivAt (fun t => y ⬝ᵥ (pmat X (V t) *ᵥ y))
      (-((pmat X (V 0) *ᵥ y) ⬝ᵥ (V' *ᵥ (pmat X (V 0) *ᵥ y)))) 0 := by
    refine d3.congr_deriv ?_
    simp only [mulVec_zero, add_zero, zero_dotProduct, zero_add, neg_mulVec, dotProduct_neg, neg_inj]
    rw [← mulVec_mulVec, ← mulVec_mulVec, dotProduct_mulVec, ← mulVec_transpose, hP]
  unfold devi dform
  cases reml with
  | true =>
    simp only [if_true]
    refine ((d1.add d2).add d3').congr_deriv ?_
    simp only [Matrix.mul_neg, trace_neg]
    ring
  | false =>
    simp only [Bool.false_eq_true, if_false, add_zero, sub_zero]
    exact (d1.add d3').congr_deriv (by ring)

theorem dform_add (reml : Bool) (X : Mat n p) (y : Fin n → ℝ) (V D E : Mat n n) :
    dform reml X y V (D + E) = dform reml X y V D + dform reml X y V E := by
  unfold dform
  cases reml <;>
  simp only [Matrix.mul_add, Matrix.add_mul, trace_add, add_mulVec, dotProduct_add, if_true, Bool.false_eq_true, if_false] <;> ring

theorem dform_smul (reml : Bool) (X : Mat n p) (y : Fin n → ℝ) (V D : Mat n n) (c : ℝ) :
    dform reml X y V (c • D) = c * dform reml X y V D := by
  unfold dform
  cases reml <;>
  simp only [Matrix.mul_smul, Matrix.smul_mul, trace_smul, smul_mulVec, dotProduct_smul, smul_eq_mul, if_true,
    Bool.false_eq_true, if_false] <;> ring

theorem dform_zero (reml : Bool) (X : Mat n p) (y : Fin n → ℝ) (V : Mat n n) : dform reml X y V 0 = 0 := by
  simpa using dform_smul reml X y V 0 0

theorem dform_sum {ι : Type} (s : Finset ι) (reml : Bool) (X : Mat n p) (y : Fin n → ℝ) (V : Mat n n) (D : ι → Mat n n) :
    dform reml X y V (∑ i ∈ s, D i) = ∑ i ∈ s, dform reml X y V (D i) := by
  classical
  induction s using Finset.induction_on with
  | empty => simp [dform_zero]
  | insert a s ha ih => rw [Finset.sum_insert ha, Finset.sum_insert ha, dform_add, ih]

theorem vp_eq {X : Mat n p} {V : Mat n n} (hu : IsUnit V.det) : V * pmat X V = 1 - X * (xvx X V)⁻¹ * Xᵀ * V⁻¹ := by
  unfold pmat
  rw [Matrix.mul_sub, mul_nonsing_inv _ hu]
  congr 1
  rw [Matrix.mul_assoc V⁻¹, Matrix.mul_assoc V⁻¹, Matrix.mul_assoc V⁻¹, ← Matrix.mul_assoc V, mul_nonsing_inv _ hu, Matrix.one_mul]

theorem px_eq {X : Mat n p} {V : Mat n n} (hx : IsUnit (xvx X V).det) : pmat X V * X = 0 := by
  unfold pmat
  rw [Matrix.sub_mul]
  have : V⁻¹ * X * (xvx X V)⁻¹ * Xᵀ * V⁻¹ * X = V⁻¹ * X * ((xvx X V)⁻¹ * xvx X V) := by
    simp only [xvx, Matrix.mul_assoc]
  rw [this, nonsing_inv_mul _ hx, Matrix.mul_one, sub_self]

theorem pvp_eq {X : Mat n p} {V : Mat n n} (hu : IsUnit V.det) (hx : IsUnit (xvx X V).det) :
    pmat X V * V * pmat X V = pmat X V := by
  rw [Matrix.mul_assoc, vp_eq hu, Matrix.mul_sub, Matrix.mul_one]
  have : pmat X V * (X * (xvx X V)⁻¹ * Xᵀ * V⁻¹) = pmat X V * X * (xvx X V)⁻¹ * Xᵀ * V⁻¹ := by
    simp only [Matrix.mul_assoc]
  rw [this, px_eq hx]
  simp

theorem pmat_symm {X : Mat n p} {V : Mat n n} (hs : Vᵀ = V) : (pmat X V)ᵀ = pmat X V := by
  have h1 : (V⁻¹)ᵀ = V⁻¹ := by rw [transpose_nonsing_inv, hs]
  have h2 : ((xvx X V)⁻¹)ᵀ = (xvx X V)⁻¹ := by
    rw [transpose_nonsing_inv]
    congr 1
    simp only [xvx, transpose_mul, transpose_transpose, h1, Matrix.mul_assoc]
  simp only [pmat, transpose_sub, transpose_mul, transpose_transpose, h1, h2, Matrix.mul_assoc]

/-- Euler's identity: the derivative in the direction of `V` itself. -/
theorem dform_self (reml : Bool) {X : Mat n p} {y : Fin n → ℝ} {V : Mat n n} (hs : Vᵀ = V) (hu : IsUnit V.det)
    (hx : IsUnit (xvx X V).det) :
    dform reml X y V V = (if reml then (n : ℝ) - p else n) - y ⬝ᵥ (pmat X V *ᵥ y) := by
  have h1 : (V⁻¹ * V).trace = n := by rw [nonsing_inv_mul _ hu]; simp
  have h2 : ((xvx X V)⁻¹ * (Xᵀ * V⁻¹ * V * V⁻¹ * X)).trace = p := by
    have : Xᵀ * V⁻¹ * V * V⁻¹ * X = xvx X V := by
      rw [Matrix.mul_assoc Xᵀ, nonsing_inv_mul _ hu, Matrix.mul_one, xvx]
    rw [this, nonsing_inv_mul _ hx]; simp
  have h3 : (pmat X V *ᵥ y) ⬝ᵥ (V *ᵥ (pmat X V *ᵥ y)) = y ⬝ᵥ (pmat X V *ᵥ y) := by
    conv_rhs => rw [← pvp_eq hu hx, ← mulVec_mulVec, ← mulVec_mulVec, dotProduct_mulVec, ← mulVec_transpose, pmat_symm hs]
  unfold dform
  rw [h1, h2, h3]
  cases reml <;> simp

/-! ## The covariance as a linear function of the parameters -/

theorem gcov_entry (th : T.Par → ℝ) (k : Fin T.K) (x x' : Fin (T.nlv k) × Fin (T.nrv k)) :
    T.gcov th ⟨k, x⟩ ⟨k, x'⟩ = T.A k x.1 x'.1 * th ⟨k, tri x.2 x'.2⟩ := by
  unfold Terms.gcov
  rw [blockDiagonal'_apply_eq]
  rfl

theorem gcov_entry_ne (th : T.Par → ℝ) {k k' : Fin T.K} (h : k ≠ k') (x : Fin (T.nlv k) × Fin (T.nrv k))
    (x' : Fin (T.nlv k') × Fin (T.nrv k')) : T.gcov th ⟨k, x⟩ ⟨k', x'⟩ = 0 := by
  unfold Terms.gcov
  exact blockDiagonal'_apply_ne _ _ _ h

theorem gcov_md {th : ℝ → T.Par → ℝ} {th' : T.Par → ℝ} (h : ∀ j, HasDerivAt (fun t => th t j) (th' j) 0) :
    MD (fun t => T.gcov (th t)) (T.gcov th') := by
  rintro ⟨k, x⟩ ⟨k', x'⟩
  by_cases hk : k = k'
  · subst hk
    simp only [gcov_entry]
    exact (h _).const_mul _
  · simp only [gcov_entry_ne _ hk]
    exact hasDerivAt_const _ _

theorem gcov_sum (th : T.Par → ℝ) : T.gcov th = ∑ j, th j • T.gcov (Pi.single j 1) := by
  ext ⟨k, x⟩ ⟨k', x'⟩
  rw [Matrix.sum_apply]
  simp only [Matrix.smul_apply, smul_eq_mul]
  by_cases hk : k = k'
  · subst hk
    simp only [gcov_entry]
    rw [Finset.sum_eq_single ⟨k, tri x.2 x'.2⟩]
    · simp; ring
    · intro b _ hb
      rw [Pi.single_eq_of_ne hb.symm]; ring
    · simp
  · simp only [gcov_entry_ne _ hk, mul_zero, Finset.sum_const_zero]

theorem tri_eq_iff {r : ℕ} (i : Tri r) (a b : Fin r) :
    tri a b = i ↔ (a = i.1.1 ∧ b = i.1.2) ∨ (a = i.1.2 ∧ b = i.1.1) := by
  obtain ⟨⟨c, d⟩, hcd⟩ := i
  unfold tri
  simp only at hcd ⊢
  split
  · rename_i h
    simp only [Subtype.mk.injEq, Prod.mk.injEq]
    constructor
    · exact fun h => Or.inl h
    · rintro (h' | ⟨rfl, rfl⟩)
      · exact h'
      · have := le_antisymm h hcd; exact ⟨this.symm, this⟩
  · rename_i h
    simp only [Subtype.mk.injEq, Prod.mk.injEq]
    constructor
    · rintro ⟨rfl, rfl⟩; exact Or.inr ⟨rfl, rfl⟩
    · rintro (⟨rfl, rfl⟩ | ⟨rfl, rfl⟩)
      · exact absurd hcd h
      · exact ⟨rfl, rfl⟩

theorem single_tri (k : Fin T.K) (i : Tri (T.nrv k)) (a b : Fin (T.nrv k)) :
    (Pi.single (⟨k, i⟩ : T.Par) (1 : ℝ) : T.Par → ℝ) ⟨k, tri a b⟩ = dcov i a b := by
  unfold dcov
  rw [of_apply, Pi.single_apply]
  refine if_congr ?_ rfl rfl
  rw [← tri_eq_iff]
  simp

/-- The derivative matrices of the code are the blocks of the derivatives of the covariance. -/
theorem dG_entry (j : T.Par) (x x' : Fin (T.nlv j.1) × Fin (T.nrv j.1)) :
    T.gcov (Pi.single j 1) ⟨j.1, x⟩ ⟨j.1, x'⟩ = T.dG j x x' := by
  rw [gcov_entry]
  obtain ⟨k, i⟩ := j
  rw [single_tri]
  rfl

theorem trace_block (F : Matrix T.RE T.RE ℝ) (j : T.Par) :
    (F * T.gcov (Pi.single j 1)).trace =
      ∑ x, ∑ x', F ⟨j.1, x⟩ ⟨j.1, x'⟩ * T.dG j x' x := by
  simp only [trace, diag, mul_apply]
  rw [Fintype.sum_sigma, Finset.sum_eq_single j.1]
  · refine Finset.sum_congr rfl fun x _ => ?_
    rw [Fintype.sum_sigma, Finset.sum_eq_single j.1]
    · simp only [dG_entry]
    · intro k _ hk
      refine Finset.sum_eq_zero fun x' _ => ?_
      rw [gcov_entry_ne _ hk, mul_zero]
    · simp
  · intro k _ hk
    refine Finset.sum_eq_zero fun x _ => ?_
    rw [Fintype.sum_sigma]
    refine Finset.sum_eq_zero fun k' _ => Finset.sum_eq_zero fun x' _ => ?_
    by_cases h : k' = k
    · subst h
      rw [gcov_entry, Pi.single_eq_of_ne (fun h => hk (congrArg Sigma.fst h)), mul_zero, mul_zero]
    · rw [gcov_entry_ne _ h, mul_zero]
  · simp

/-! ## The quantities handed to `accumulate_gradient` -/

theorem cross_eq {a b : Type} [Fintype a] [Fintype b] {m : Mme T n p} {th : T.Par → ℝ} {s2 : ℝ} (hs : s2 ≠ 0)
    (hG : IsUnit (T.gcov th).det) (hC : IsUnit (m.ZtRZ s2 + (T.gcov th)⁻¹).det) (A : Matrix (Fin n) a ℝ)
    (B : Matrix (Fin n) b ℝ) :
    Aᵀ * (vcov m th s2)⁻¹ * B = (1 / s2) • (Aᵀ * B) -
      ((1 / s2) • (m.Zᵀ * A))ᵀ * (m.ZtRZ s2 + (T.gcov th)⁻¹)⁻¹ * ((1 / s2) • (m.Zᵀ * B)) := by
  unfold vcov
  rw [vinv_eq hs hG hC]
  simp only [Mme.ZtRZ, Matrix.mul_sub, Matrix.sub_mul, Matrix.mul_smul, Matrix.smul_mul,
    transpose_smul, transpose_mul, transpose_transpose, Matrix.mul_one, Matrix.mul_assoc]

/-- What the parts are in terms of the marginal covariance. -/
structure PartsOk (m : Mme T n p) (th : T.Par → ℝ) (s2 : ℝ) (P : Parts T n p) : Prop where
  vu : IsUnit (vcov m th s2).det
  xu : IsUnit (xvx m.X (vcov m th s2)).det
  zz : m.ZtRZ s2 - P.Lzz * P.Lzzᵀ = m.Zᵀ * (vcov m th s2)⁻¹ * m.Z
  zx : P.Tzx = m.Zᵀ * (vcov m th s2)⁻¹ * m.X
  inv : P.TxxInv = (xvx m.X (vcov m th s2))⁻¹
  uxy : P.uxy = m.Xᵀ *ᵥ ((vcov m th s2)⁻¹ *ᵥ m.y)
  vy : P.vy = m.Zᵀ *ᵥ (pmat m.X (vcov m th s2) *ᵥ m.y)

theorem vy_eq {m : Mme T n p} {V : Mat n n} :
    (fun i => (m.Zᵀ * V⁻¹ * m.Xy) i (Fin.last p)) -
      (m.Zᵀ * V⁻¹ * m.X) *ᵥ ((xvx m.X V)⁻¹ *ᵥ (m.Xᵀ *ᵥ (V⁻¹ *ᵥ m.y))) = m.Zᵀ *ᵥ (pmat m.X V *ᵥ m.y) := by
  have h1 : (fun i => (m.Zᵀ * V⁻¹ * m.Xy) i (Fin.last p)) = m.Zᵀ *ᵥ (V⁻¹ *ᵥ m.y) := by
    funext i
    rw [Xy_mulVec, mulVec_mulVec]
  rw [h1]
  unfold pmat
  rw [sub_mulVec, mulVec_sub]
  congr 1
  simp only [mulVec_mulVec, Matrix.mul_assoc]

theorem parts_ok (hT : T.Pd) {cq : Mat q q → Option (Mat q q)} (hq : CholOk cq) {e : T.RE ≃ Fin q} {m : Mme T n p}
    {th : T.Par → ℝ} {s2 : ℝ} (hs : s2 ≠ 0) {P : Parts T n p} (h : parts cq e m th s2 = some P) : PartsOk m th s2 P := by
  unfold parts at h
  cases hg : T.ginv? th with
  | none => simp [hg] at h
  | some Gi =>
  obtain ⟨h1, h2, h3⟩ := ginv_some hT hg
  subst h1
  cases hl : cq ((m.ZtRZ s2 + (T.gcov th)⁻¹).submatrix e.symm e.symm) with
  | none => simp [hg, hl] at h
  | some L =>
  obtain ⟨l1, l2, l3⟩ := hq.ok _ _ hl
  have hL := unit_chol l2 l3
  have hC := fac_unit e l1 hL
  simp only [hg, hl, Option.bind_eq_bind, Option.bind_some] at h
  have hS := schur_eq hs h2 l1 hL
  have hz : ∀ {k : Type} [Fintype k] (B : Matrix (Fin n) k ℝ), (1 / s2) • (m.Zᵀ * B) - (facSolve e L (m.ZtRZ s2))ᵀ *
      facSolve e L ((1 / s2) • (m.Zᵀ * B)) = m.Zᵀ * (vcov m th s2)⁻¹ * B := by
    intro k _ B
    have := facS_gram e l1 hL (m.ZtRZ s2) ((1 / s2) • (m.Zᵀ * B))
    rw [show facSolve e L (m.ZtRZ s2) = facS e L (m.ZtRZ s2) from rfl,
      show facSolve e L ((1 / s2) • (m.Zᵀ * B)) = facS e L ((1 / s2) • (m.Zᵀ * B)) from rfl, this, cross_eq hs h2 hC]
    rfl
  have hx : (m.XytRXy s2).submatrix Fin.castSucc Fin.castSucc - ((facSolve e L (m.ZtRXy s2)).submatrix id Fin.castSucc)ᵀ *
      (facSolve e L (m.ZtRXy s2)).submatrix id Fin.castSucc = xvx m.X (vcov m th s2) := by
    rw [xvx, ← Xy_gram, ← hS]
    rfl
  rw [hx] at h
  cases hi : inv? (xvx m.X (vcov m th s2)) with
  | none => simp [hi] at h
  | some M =>
  obtain ⟨xu, rfl⟩ := inv?_eq hi
  simp only [hi, Option.bind_some] at h
  have h := Option.some.inj h
  have huxy : ((fun i : Fin p => m.XytRXy s2 i.castSucc (Fin.last p)) -
      ((facSolve e L (m.ZtRXy s2)).submatrix id Fin.castSucc)ᵀ *ᵥ fun i => facSolve e L (m.ZtRXy s2) i (Fin.last p)) =
      m.Xᵀ *ᵥ ((vcov m th s2)⁻¹ *ᵥ m.y) := by
    funext i
    rw [← Xy_gram_y, ← hS]
    rfl
  have htzx : ((m.ZtRXy s2).submatrix id Fin.castSucc - (facSolve e L (m.ZtRZ s2))ᵀ *
      (facSolve e L (m.ZtRXy s2)).submatrix id Fin.castSucc) = m.Zᵀ * (vcov m th s2)⁻¹ * m.X := by
    rw [← Xy_mul, ← hz m.Xy]
    rfl
  have huzy : ((fun i => m.ZtRXy s2 i (Fin.last p)) - (facSolve e L (m.ZtRZ s2))ᵀ *ᵥ
      fun i => facSolve e L (m.ZtRXy s2) i (Fin.last p)) = fun i => (m.Zᵀ * (vcov m th s2)⁻¹ * m.Xy) i (Fin.last p) := by
    funext i
    rw [← hz m.Xy]
    rfl
  rw [huxy, htzx, huzy, vy_eq] at h
  subst h
  refine ⟨?_, xu, ?_, rfl, rfl, rfl, rfl⟩
  · unfold vcov
    rw [vdet_eq hs h2]
    exact ((pow_ne_zero _ hs).isUnit.mul h2).mul hC
  · have := hz m.Z
    rw [show (1 / s2) • (m.Zᵀ * m.Z) = m.ZtRZ s2 from rfl] at this
    rw [← this, transpose_transpose]

theorem partsV2_ok (hT : T.Pd) {cq : Mat q q → Option (Mat q q)} (hq : CholOk cq) {e : T.RE ≃ Fin q} {m : Mme T n p}
    {th : T.Par → ℝ} {s2 : ℝ} (hs : s2 ≠ 0) {P : Parts T n p} (h : partsV2 cq e m th s2 = some P) : PartsOk m th s2 P := by
  unfold partsV2 at h
  cases hg : T.ginv? th with
  | none => simp [hg] at h
  | some Gi =>
  obtain ⟨h1, h2, h3⟩ := ginv_some hT hg
  subst h1
  cases hl : cq ((m.ZtRZ s2 + (T.gcov th)⁻¹).submatrix e.symm e.symm) with
  | none => simp [hg, hl] at h
  | some L =>
  obtain ⟨l1, l2, l3⟩ := hq.ok _ _ hl
  have hL := unit_chol l2 l3
  have hC := fac_unit e l1 hL
  simp only [hg, hl, Option.bind_eq_bind, Option.bind_some] at h
  have hzt : (m.ZtRZ s2)ᵀ = m.ZtRZ s2 := by simp [Mme.ZtRZ]
  have hxy := cross_eq hs h2 hC m.Xy m.Xy
  have hzxy := cross_eq hs h2 hC m.Z m.Xy
  rw [show (1 / s2) • (m.Zᵀ * m.Z) = m.ZtRZ s2 from rfl, hzt] at hzxy
  have hx : (m.XytRXy s2).submatrix Fin.castSucc Fin.castSucc - ((m.ZtRXy s2).submatrix id Fin.castSucc)ᵀ *
      ((m.ZtRZ s2 + (T.gcov th)⁻¹)⁻¹ * (m.ZtRXy s2).submatrix id Fin.castSucc) = xvx m.X (vcov m th s2) := by
    rw [xvx, ← Xy_gram, hxy, ← Matrix.mul_assoc]
    rfl
  rw [hx] at h
  cases hi : inv? (xvx m.X (vcov m th s2)) with
  | none => simp [hi] at h
  | some M =>
  obtain ⟨xu, rfl⟩ := inv?_eq hi
  simp only [hi, Option.bind_some] at h
  have h := Option.some.inj h
  have huxy : ((fun i : Fin p => m.XytRXy s2 i.castSucc (Fin.last p)) - ((m.ZtRXy s2).submatrix id Fin.castSucc)ᵀ *ᵥ
      ((m.ZtRZ s2 + (T.gcov th)⁻¹)⁻¹ *ᵥ fun i => m.ZtRXy s2 i (Fin.last p))) = m.Xᵀ *ᵥ ((vcov m th s2)⁻¹ *ᵥ m.y) := by
    funext i
    rw [← Xy_gram_y, hxy, mulVec_mulVec]
    rfl
  have htzx : ((m.ZtRXy s2).submatrix id Fin.castSucc - m.ZtRZ s2 *
      ((m.ZtRZ s2 + (T.gcov th)⁻¹)⁻¹ * (m.ZtRXy s2).submatrix id Fin.castSucc)) = m.Zᵀ * (vcov m th s2)⁻¹ * m.X := by
    rw [← Xy_mul, hzxy, ← Matrix.mul_assoc]
    rfl
  have huzy : ((fun i => m.ZtRXy s2 i (Fin.last p)) - m.ZtRZ s2 *ᵥ ((m.ZtRZ s2 + (T.gcov th)⁻¹)⁻¹ *ᵥ
      fun i => m.ZtRXy s2 i (Fin.last p))) = fun i => (m.Zᵀ * (vcov m th s2)⁻¹ * m.Xy) i (Fin.last p) := by
    funext i
    rw [hzxy, mulVec_mulVec]
    rfl
  rw [huxy, htzx, huzy, vy_eq] at h
  subst h
  refine ⟨?_, xu, ?_, rfl, rfl, rfl, rfl⟩
  · unfold vcov
    rw [vdet_eq hs h2]
    exact ((pow_ne_zero _ hs).isUnit.mul h2).mul hC
  · have h1 := facS_gram e l1 hL (m.ZtRZ s2) (m.ZtRZ s2)
    have h2 := cross_eq hs h2 hC m.Z m.Z
    rw [h2, show facSolve e L (m.ZtRZ s2) = facS e L (m.ZtRZ s2) from rfl, transpose_transpose, h1]
    rfl

/-! ## The components -/

/-- The matrix whose inner product with a derivative of `G` is the derivative of the likelihood. -/
noncomputable def fmat (reml : Bool) (m : Mme T n p) (s2 : ℝ) (P : Parts T n p) : Matrix T.RE T.RE ℝ :=
  m.ZtRZ s2 - P.Lzz * P.Lzzᵀ - (if reml then P.Tzx * P.TxxInv * P.Tzxᵀ else 0) - vecMulVec P.vy P.vy

theorem vinv_symm {V : Mat n n} (hs : Vᵀ = V) : (V⁻¹)ᵀ = V⁻¹ := by rw [transpose_nonsing_inv, hs]

theorem xvx_symm {X : Mat n p} {V : Mat n n} (hs : Vᵀ = V) : (xvx X V)ᵀ = xvx X V := by
  simp only [xvx, transpose_mul, transpose_transpose, vinv_symm hs, Matrix.mul_assoc]

theorem xvxi_symm {X : Mat n p} {V : Mat n n} (hs : Vᵀ = V) : ((xvx X V)⁻¹)ᵀ = (xvx X V)⁻¹ := by
  rw [transpose_nonsing_inv, xvx_symm hs]

theorem fmat_symm (hT : T.Pd) {reml : Bool} {m : Mme T n p} {th : T.Par → ℝ} {s2 : ℝ} {P : Parts T n p}
    (h : PartsOk m th s2 P) : (fmat reml m s2 P)ᵀ = fmat reml m s2 P := by
  have hV := vcov_symm hT m th s2
  unfold fmat
  rw [h.zz, h.inv]
  cases reml <;>
  simp only [transpose_sub, transpose_mul, transpose_transpose, vinv_symm hV, xvxi_symm hV, transpose_vecMulVec,
    Matrix.mul_assoc, if_true, Bool.false_eq_true, if_false, transpose_zero]

theorem dform_fmat (hT : T.Pd) {reml : Bool} {m : Mme T n p} {th : T.Par → ℝ} {s2 : ℝ} {P : Parts T n p}
    (h : PartsOk m th s2 P) (D : Matrix T.RE T.RE ℝ) :
    dform reml m.X m.y (vcov m th s2) (m.Z * D * m.Zᵀ) = (fmat reml m s2 P * D).trace := by
  have hV := vcov_symm hT m th s2
  have h1 : ((vcov m th s2)⁻¹ * (m.Z * D * m.Zᵀ)).trace = (m.Zᵀ * (vcov m th s2)⁻¹ * m.Z * D).trace := by
    rw [← Matrix.mul_assoc, trace_mul_comm]
    simp only [Matrix.mul_assoc]
  have h2 : ((xvx m.X (vcov m th s2))⁻¹ * (m.Xᵀ * (vcov m th s2)⁻¹ * (m.Z * D * m.Zᵀ) * (vcov m th s2)⁻¹ * m.X)).trace =
      (P.Tzx * P.TxxInv * P.Tzxᵀ * D).trace := by
    rw [h.zx, h.inv]
    have e1 : (xvx m.X (vcov m th s2))⁻¹ * (m.Xᵀ * (vcov m th s2)⁻¹ * (m.Z * D * m.Zᵀ) * (vcov m th s2)⁻¹ * m.X) =
        ((xvx m.X (vcov m th s2))⁻¹ * (m.Xᵀ * (vcov m th s2)⁻¹ * m.Z * D)) * (m.Zᵀ * (vcov m th s2)⁻¹ * m.X) := by
      simp only [Matrix.mul_assoc]
    rw [e1, trace_mul_comm]
    simp only [transpose_mul, transpose_transpose, vinv_symm hV, Matrix.mul_assoc]
  have h3 : (pmat m.X (vcov m th s2) *ᵥ m.y) ⬝ᵥ ((m.Z * D * m.Zᵀ) *ᵥ (pmat m.X (vcov m th s2) *ᵥ m.y)) =
      (vecMulVec P.vy P.vy * D).trace := by
    rw [h.vy, vecMulVec_mul, trace_vecMulVec, ← mulVec_mulVec, ← mulVec_mulVec, dotProduct_mulVec, ← mulVec_transpose,
      dotProduct_mulVec, dotProduct_comm]
  unfold dform fmat
  rw [h.zz, h1, h2, h3]
  cases reml <;> simp [Matrix.sub_mul, trace_sub]

theorem dG_symm (hT : T.Pd) (j : T.Par) (x x' : Fin (T.nlv j.1) × Fin (T.nrv j.1)) : T.dG j x x' = T.dG j x' x := by
  rw [← dG_entry, ← dG_entry]
  exact (congrFun (congrFun (gcov_symm hT _) _) _).symm

theorem accBase_eq (hT : T.Pd) {reml : Bool} {m : Mme T n p} {th : T.Par → ℝ} {s2 : ℝ} {P : Parts T n p}
    (h : PartsOk m th s2 P) (j : T.Par) :
    accBase reml m s2 P j = (fmat reml m s2 P * T.gcov (Pi.single j 1)).trace := by
  have hV := vcov_symm hT m th s2
  rw [trace_block]
  have hM : ∀ c c', P.TxxInv c c' = P.TxxInv c' c := fun c c' => by
    rw [h.inv]; exact congrFun (congrFun (xvxi_symm hV).symm c) c'
  have e3 : ((T.dG j *ᵥ fun i => P.vy ⟨j.1, i⟩) ⬝ᵥ fun i => P.vy ⟨j.1, i⟩) =
      ∑ x, ∑ x', P.vy ⟨j.1, x⟩ * P.vy ⟨j.1, x'⟩ * T.dG j x' x := by
    simp only [dotProduct, mulVec, Finset.sum_mul]
    refine Finset.sum_congr rfl fun x _ => Finset.sum_congr rfl fun x' _ => ?_
    rw [dG_symm hT j x x']; ring
  have e1 : ∑ i, ∑ i', T.dG j i i' * ∑ l, P.Lzz ⟨j.1, i⟩ l * P.Lzz ⟨j.1, i'⟩ l =
      ∑ x, ∑ x', (P.Lzz * P.Lzzᵀ) ⟨j.1, x⟩ ⟨j.1, x'⟩ * T.dG j x' x := by
    refine Finset.sum_congr rfl fun x _ => Finset.sum_congr rfl fun x' _ => ?_
    rw [dG_symm hT j x x', mul_comm]
    rfl
  have e2 : ∑ c, ∑ c', (((P.Tzx.submatrix (fun x => (⟨j.1, x⟩ : T.RE)) id)ᵀ *
      (T.dG j * P.Tzx.submatrix (fun x => (⟨j.1, x⟩ : T.RE)) id)) c c') * P.TxxInv c c' =
      ∑ x, ∑ x', (P.Tzx * P.TxxInv * P.Tzxᵀ) ⟨j.1, x⟩ ⟨j.1, x'⟩ * T.dG j x' x := by
    set B := P.Tzx.submatrix (fun x => (⟨j.1, x⟩ : T.RE)) id with hB
    have t1 : ∑ c, ∑ c', (Bᵀ * (T.dG j * B)) c c' * P.TxxInv c c' = ((Bᵀ * (T.dG j * B)) * P.TxxInv).trace := by
      simp only [trace, diag, Matrix.mul_apply (N := P.TxxInv)]
      exact Finset.sum_congr rfl fun c _ => Finset.sum_congr rfl fun c' _ => by rw [hM c c']
    have t2 : ∑ x, ∑ x', (P.Tzx * P.TxxInv * P.Tzxᵀ) ⟨j.1, x⟩ ⟨j.1, x'⟩ * T.dG j x' x = (B * P.TxxInv * Bᵀ * T.dG j).trace := by
      simp only [trace, diag, Matrix.mul_apply (N := T.dG j)]
      rfl
    rw [t1, t2, Matrix.mul_assoc, trace_mul_comm]
    rw [show B * P.TxxInv * Bᵀ * T.dG j = (B * P.TxxInv) * (Bᵀ * T.dG j) by simp only [Matrix.mul_assoc]]
    rw [trace_mul_comm (B * P.TxxInv)]
    rw [show Bᵀ * T.dG j * (B * P.TxxInv) = Bᵀ * (T.dG j * B * P.TxxInv) by simp only [Matrix.mul_assoc],
      trace_mul_comm Bᵀ]
  have e4 : ∑ i, (((m.ZtRZ s2).submatrix (fun x => (⟨j.1, x⟩ : T.RE)) fun x => ⟨j.1, x⟩) * T.dG j) i i =
      ∑ x, ∑ x', m.ZtRZ s2 ⟨j.1, x⟩ ⟨j.1, x'⟩ * T.dG j x' x := rfl
  unfold accBase fmat
  simp only [e1, e2, e3, e4]
  cases reml <;>
  simp only [Matrix.sub_apply, sub_mul, Finset.sum_sub_distrib, vecMulVec_apply, if_true, Bool.false_eq_true, if_false,
    Matrix.zero_apply, zero_mul, Finset.sum_const_zero] <;> ring

theorem sum_dcov {r : ℕ} (N : Fin r → Fin r → ℝ) (hN : ∀ a b, N a b = N b a) (i : Tri r) :
    ∑ a, ∑ b, N a b * dcov i b a = N i.1.1 i.1.2 * (if i.1.1 = i.1.2 then 1 else 2) := by
  obtain ⟨⟨c, d⟩, hcd⟩ := i
  by_cases h : c = d
  · subst h
    have : ∀ a b, N a b * dcov ⟨(c, c), hcd⟩ b a = if b = c then if a = c then N a b else 0 else 0 := by
      intro a b
      by_cases hb : b = c <;> by_cases ha : a = c <;> simp [dcov, ha, hb]
    simp [this]
  · have : ∀ a b, N a b * dcov ⟨(c, d), hcd⟩ b a =
        (if b = c then if a = d then N a b else 0 else 0) + if b = d then if a = c then N a b else 0 else 0 := by
      intro a b
      by_cases hb : b = c <;> by_cases ha : a = d <;> by_cases hb' : b = d <;> by_cases ha' : a = c <;>
        simp_all [dcov]
    simp only [this, Finset.sum_add_distrib, Finset.sum_ite_eq', Finset.mem_univ, if_true, h, if_false]
    rw [hN d c]; ring

theorem accIG_eq (hT : T.Pd) {reml : Bool} {m : Mme T n p} {th : T.Par → ℝ} {s2 : ℝ} {P : Parts T n p}
    (h : PartsOk m th s2 P) (j : T.Par) (hj : T.acov j.1 = none) :
    accIG reml m s2 P j = (fmat reml m s2 P * T.gcov (Pi.single j 1)).trace := by
  rw [trace_block]
  have hF := fmat_symm hT (reml := reml) h
  have hA : T.A j.1 = 1 := by rw [Terms.A, hj]; rfl
  have hM : ∀ a b : Fin (T.nrv j.1), ∑ l, fmat reml m s2 P ⟨j.1, (l, a)⟩ ⟨j.1, (l, b)⟩ =
      (let M0 := ∑ l, m.ZtRZ s2 ⟨j.1, (l, a)⟩ ⟨j.1, (l, b)⟩ - ∑ l, ∑ x, P.Lzz ⟨j.1, (l, a)⟩ x * P.Lzz ⟨j.1, (l, b)⟩ x -
        ∑ l, P.vy ⟨j.1, (l, a)⟩ * P.vy ⟨j.1, (l, b)⟩
      if reml then M0 - ∑ l, ∑ c, ∑ c', P.Tzx ⟨j.1, (l, a)⟩ c * P.TxxInv c c' * P.Tzx ⟨j.1, (l, b)⟩ c' else M0) := by
    intro a b
    have e : ∀ x x', (P.Tzx * P.TxxInv * P.Tzxᵀ) x x' = ∑ c, ∑ c', P.Tzx x c * P.TxxInv c c' * P.Tzx x' c' := by
      intro x x'
      simp only [mul_apply, transpose_apply, Finset.sum_mul]
      exact Finset.sum_comm
    have e' : ∀ x x', (P.Lzz * P.Lzzᵀ) x x' = ∑ l, P.Lzz x l * P.Lzz x' l := fun x x' => rfl
    unfold fmat
    cases reml <;>
    simp only [Matrix.sub_apply, Finset.sum_sub_distrib, vecMulVec_apply, if_true, Bool.false_eq_true, if_false,
      Matrix.zero_apply, Finset.sum_const_zero, e, e'] <;> ring
  have hS : ∑ x, ∑ x', fmat reml m s2 P ⟨j.1, x⟩ ⟨j.1, x'⟩ * T.dG j x' x =
      ∑ a, ∑ b, (∑ l, fmat reml m s2 P ⟨j.1, (l, a)⟩ ⟨j.1, (l, b)⟩) * dcov j.2 b a := by
    have : ∀ x x' : Fin (T.nlv j.1) × Fin (T.nrv j.1), T.dG j x' x = (if x'.1 = x.1 then 1 else 0) * dcov j.2 x'.2 x.2 := by
      intro x x'
      show T.A j.1 x'.1 x.1 * _ = _
      rw [hA, Matrix.one_apply]
    simp only [this, Fintype.sum_prod_type]
    have e1 : ∀ (l : Fin (T.nlv j.1)) (a : Fin (T.nrv j.1)), ∑ l', ∑ b, fmat reml m s2 P ⟨j.1, (l, a)⟩ ⟨j.1, (l', b)⟩ *
        ((if l' = l then 1 else 0) * dcov j.2 b a) = ∑ b, fmat reml m s2 P ⟨j.1, (l, a)⟩ ⟨j.1, (l, b)⟩ * dcov j.2 b a := by
      intro l a
      rw [Finset.sum_eq_single l]
      · simp
      · intro l' _ hl
        simp [hl]
      · simp
    simp only [e1]
    rw [Finset.sum_comm]
    refine Finset.sum_congr rfl fun a _ => ?_
    rw [Finset.sum_comm]
    exact Finset.sum_congr rfl fun b _ => by rw [Finset.sum_mul]
  rw [hS, sum_dcov _ (fun a b => ?_)]
  · unfold accIG
    simp only [← hM]
  · exact Finset.sum_congr rfl fun l _ => congrFun (congrFun hF.symm _) _

theorem gradG_eq (hT : T.Pd) {reml : Bool} {m : Mme T n p} {th : T.Par → ℝ} {s2 : ℝ} {P : Parts T n p}
    (h : PartsOk m th s2 P) (j : T.Par) :
    gradG reml m s2 P j = dform reml m.X m.y (vcov m th s2) (m.Z * T.gcov (Pi.single j 1) * m.Zᵀ) := by
  rw [dform_fmat hT h]
  unfold gradG
  cases hj : T.acov j.1 with
  | none => exact accIG_eq hT h j hj
  | some B => exact accBase_eq hT h j

/-- The residual computed from the fixed and random effects. -/
theorem resid_eq {m : Mme T n p} {th : T.Par → ℝ} {s2 : ℝ} {P : Parts T n p} (h : PartsOk m th s2 P) :
    m.y - m.X *ᵥ (P.TxxInv *ᵥ P.uxy) - m.Z *ᵥ (T.gcov th *ᵥ P.vy) = s2 • (pmat m.X (vcov m th s2) *ᵥ m.y) := by
  have h1 : vcov m th s2 *ᵥ (pmat m.X (vcov m th s2) *ᵥ m.y) = m.y - m.X *ᵥ (P.TxxInv *ᵥ P.uxy) := by
    rw [mulVec_mulVec, vp_eq h.vu, sub_mulVec, one_mulVec, h.inv, h.uxy]
    simp only [mulVec_mulVec, Matrix.mul_assoc]
  rw [← h1, h.vy]
  generalize pmat m.X (vcov m th s2) *ᵥ m.y = w
  rw [vcov, add_mulVec, smul_mulVec, one_mulVec]
  simp only [mulVec_mulVec, Matrix.mul_assoc]
  abel

theorem gradR_eq (hT : T.Pd) {reml : Bool} {m : Mme T n p} {th : T.Par → ℝ} {s2 : ℝ} (hs : s2 ≠ 0) {P : Parts T n p}
    (h : PartsOk m th s2 P) : gradR reml m th s2 P = dform reml m.X m.y (vcov m th s2) 1 := by
  have hV := vcov_symm hT m th s2
  have he := dform_self reml (X := m.X) (y := m.y) hV h.vu h.xu
  have hv : dform reml m.X m.y (vcov m th s2) (vcov m th s2) = ∑ j, th j * gradG reml m s2 P j +
      s2 * dform reml m.X m.y (vcov m th s2) 1 := by
    have : vcov m th s2 = ∑ j, th j • (m.Z * T.gcov (Pi.single j 1) * m.Zᵀ) + s2 • (1 : Mat n n) := by
      unfold vcov
      conv_lhs => rw [gcov_sum th]
      rw [Matrix.mul_sum, Matrix.sum_mul]
      simp only [Matrix.mul_smul, Matrix.smul_mul]
    conv_lhs => arg 5; rw [this]
    rw [dform_add, dform_sum, dform_smul]
    simp only [dform_smul, gradG_eq hT h]
  unfold gradR
  simp only
  rw [resid_eq h, dotProduct_smul, smul_eq_mul]
  rw [he] at hv
  field_simp
  cases reml <;> simp only [if_true, Bool.false_eq_true, if_false] at hv ⊢ <;> linear_combination hv

theorem vcov_md {m : Mme T n p} {th : ℝ → T.Par → ℝ} {th' : T.Par → ℝ} {s2 : ℝ → ℝ} {s2' : ℝ}
    (h : ∀ j, HasDerivAt (fun t => th t j) (th' j) 0) (hs : HasDerivAt s2 s2' 0) :
    MD (fun t => vcov m (th t) (s2 t)) (m.Z * T.gcov th' * m.Zᵀ + s2' • 1) := by
  have h1 := ((MD.const m.Z).mul (gcov_md h)).mul (MD.const m.Zᵀ)
  have h2 : MD (fun t => s2 t • (1 : Mat n n)) (s2' • 1) := fun i j => by
    simp only [Matrix.smul_apply, smul_eq_mul]
    exact hs.mul_const _
  refine (h1.add h2).congr ?_
  simp

theorem parts_grad (hT : T.Pd) {reml : Bool} {m : Mme T n p} {th : ℝ → T.Par → ℝ} {th' : T.Par → ℝ} {s2 : ℝ → ℝ} {s2' : ℝ}
    (h : ∀ j, HasDerivAt (fun t => th t j) (th' j) 0) (hs : HasDerivAt s2 s2' 0) (h0 : s2 0 ≠ 0) {P : Parts T n p}
    (hP : PartsOk m (th 0) (s2 0) P) :
    HasDerivAt (fun t => devi reml m.X m.y (vcov m (th t) (s2 t)))
      (∑ j, th' j * gradG reml m (s2 0) P j + s2' * gradR reml m (th 0) (s2 0) P) 0 := by
  have hd := devi_deriv (reml := reml) (X := m.X) (y := m.y) (vcov_md h hs) (vcov_symm hT _ _ _) hP.vu hP.xu
  refine hd.congr_deriv ?_
  have : m.Z * T.gcov th' * m.Zᵀ = ∑ j, th' j • (m.Z * T.gcov (Pi.single j 1) * m.Zᵀ) := by
    conv_lhs => rw [gcov_sum th']
    rw [Matrix.mul_sum, Matrix.sum_mul]
    simp only [Matrix.mul_smul, Matrix.smul_mul]
  rw [this, dform_add, dform_sum, dform_smul, gradR_eq hT h0 hP]
  simp only [dform_smul, gradG_eq hT hP]

/-- The vector returned by `_gradient` is the gradient of the (restricted) likelihood of the marginal model: it gives the
derivative along every differentiable path of the covariance parameters. -/
theorem C110_gradient (hT : T.Pd) {cq : Mat q q → Option (Mat q q)} (hq : CholOk cq) {e : T.RE ≃ Fin q} {reml : Bool}
    {m : Mme T n p} {th : ℝ → T.Par → ℝ} {th' : T.Par → ℝ} {s2 : ℝ → ℝ} {s2' : ℝ}
    (h : ∀ j, HasDerivAt (fun t => th t j) (th' j) 0) (hs : HasDerivAt s2 s2' 0) (h0 : s2 0 ≠ 0) {gG : T.Par → ℝ} {gR : ℝ}
    (hg : gradient cq e m reml (th 0) (s2 0) = some (gG, gR)) :
    HasDerivAt (fun t => devi reml m.X m.y (vcov m (th t) (s2 t))) (∑ j, th' j * gG j + s2' * gR) 0 := by
  unfold gradient at hg
  cases hP : parts cq e m (th 0) (s2 0) with
  | none => simp [hP] at hg
  | some P =>
  simp only [hP, Option.bind_eq_bind, Option.bind_some] at hg
  have hg := Option.some.inj hg
  rw [Prod.mk.injEq] at hg
  rw [← hg.1, ← hg.2]
  exact parts_grad hT h hs h0 (parts_ok hT hq h0 hP)

/-- `_gradient` is the gradient of `_loglike`. -/
theorem C110_loglike_gradient (hT : T.Pd) {cq : Mat q q → Option (Mat q q)} (hq : CholOk cq)
    {cp : Mat (p + 1) (p + 1) → Option (Mat (p + 1) (p + 1))} (hp : CholOk cp) {e : T.RE ≃ Fin q} {reml : Bool}
    {m : Mme T n p} {th : ℝ → T.Par → ℝ} {th' : T.Par → ℝ} {s2 : ℝ → ℝ} {s2' : ℝ}
    (h : ∀ j, HasDerivAt (fun t => th t j) (th' j) 0) (hs : HasDerivAt s2 s2' 0) (h0 : s2 0 ≠ 0) {f : ℝ → ℝ}
    (hf : ∀ᶠ t in nhds 0, loglike cq cp e m reml (th t) (s2 t) = some (f t)) {gG : T.Par → ℝ} {gR : ℝ}
    (hg : gradient cq e m reml (th 0) (s2 0) = some (gG, gR)) :
    HasDerivAt f (∑ j, th' j * gG j + s2' * gR) 0 := by
  refine (C110_gradient hT hq h hs h0 hg).congr_of_eventuallyEq ?_
  filter_upwards [hf, hs.continuousAt.eventually_ne h0] with t ht hst
  exact C109_loglike hT hq hp hst ht

/-- `gradient_reparam`: multiplying by the Jacobian of the transformation gives the gradient in the transformed parameters. -/
theorem C110_reparam {ι : Type} [Fintype ι] (hT : T.Pd) {cq : Mat q q → Option (Mat q q)} (hq : CholOk cq) {e : T.RE ≃ Fin q}
    {reml : Bool} {m : Mme T n p} {th : ℝ → T.Par → ℝ} {s2 : ℝ → ℝ} {eta' : ι → ℝ} {J : T.Par → ι → ℝ} {Jr : ι → ℝ}
    (h : ∀ j, HasDerivAt (fun t => th t j) (∑ i, J j i * eta' i) 0) (hs : HasDerivAt s2 (∑ i, Jr i * eta' i) 0)
    (h0 : s2 0 ≠ 0) {gG : T.Par → ℝ} {gR : ℝ} (hg : gradient cq e m reml (th 0) (s2 0) = some (gG, gR)) :
    HasDerivAt (fun t => devi reml m.X m.y (vcov m (th t) (s2 t))) (∑ i, (∑ j, gG j * J j i + gR * Jr i) * eta' i) 0 := by
  refine (C110_gradient hT hq h hs h0 hg).congr_deriv ?_
  simp only [add_mul, Finset.sum_add_distrib, Finset.sum_mul]
  rw [Finset.sum_comm]
  congr 1
  · exact Finset.sum_congr rfl fun i _ => Finset.sum_congr rfl fun j _ => by ring
  · exact Finset.sum_congr rfl fun j _ => by ring

/-- `_gradient_v2` agrees with `_gradient` when no term has a level covariance. -/
theorem C110_v2_partial (hT : T.Pd) {cq : Mat q q → Option (Mat q q)} (hq : CholOk cq) {e : T.RE ≃ Fin q} {reml : Bool}
    {m : Mme T n p} {th : T.Par → ℝ} {s2 : ℝ} (h0 : s2 ≠ 0) {g g' : (T.Par → ℝ) × ℝ}
    (hg : gradient cq e m reml th s2 = some g) (hg' : gradientV2 cq e m reml th s2 = some g') : g = g' := by
  unfold gradient at hg
  unfold gradientV2 at hg'
  cases hP : parts cq e m th s2 with
  | none => simp [hP] at hg
  | some P =>
  cases hP' : partsV2 cq e m th s2 with
  | none => simp [hP'] at hg'
  | some P' =>
  have ok := parts_ok hT hq h0 hP
  have ok' := partsV2_ok hT hq h0 hP'
  simp only [hP, hP', Option.bind_eq_bind, Option.bind_some] at hg hg'
  split at hg'
  · rename_i hn
    have hg := Option.some.inj hg
    have hg' := Option.some.inj hg'
    rw [← hg, ← hg']
    have hn' : ∀ j : T.Par, accIG reml m s2 P' j = gradG reml m s2 P' j := fun j => by
      unfold gradG
      rw [Option.isNone_iff_eq_none.1 (hn j.1)]
    refine Prod.ext (funext fun j => ?_) ?_
    · show gradG reml m s2 P j = accIG reml m s2 P' j
      rw [hn', gradG_eq hT ok, gradG_eq hT ok']
    · show gradR reml m th s2 P = gradR reml m th s2 P'
      rw [gradR_eq hT h0 ok, gradR_eq hT h0 ok']
  · simp at hg'

/-- `_gradient_v2` raises as soon as one term has a level covariance. -/
theorem C110_v2_violated (cq : Mat q q → Option (Mat q q)) (e : T.RE ≃ Fin q) (reml : Bool) (m : Mme T n p)
    (th : T.Par → ℝ) (s2 : ℝ) {k : Fin T.K} (hk : (T.acov k).isSome) : gradientV2 cq e m reml th s2 = none := by
  unfold gradientV2
  cases hP' : partsV2 cq e m th s2 with
  | none => rfl
  | some P' =>
  simp only [Option.bind_eq_bind, Option.bind_some]
  rw [if_neg]
  intro h
  have := h k
  rw [Option.isNone_iff_eq_none] at this
  simp [this] at hk

/-- The gradient is defined for positive definite covariances and a design of full column rank. -/
theorem C110_defined (hT : T.Pd) {cq : Mat q q → Option (Mat q q)} (hq : CholOk cq) (e : T.RE ≃ Fin q) {m : Mme T n p}
    (reml : Bool) {th : T.Par → ℝ} {s2 : ℝ} (hs : 0 < s2) (hth : ∀ k, (invech (Terms.sl th k)).PosDef)
    (hpat : ∀ k, ∀ B, T.acov k = some B → ∀ i j, B⁻¹ i j = 0 ↔ B i j = 0) (hX : Function.Injective m.X.mulVec) :
    ∃ g, gradient cq e m reml th s2 = some g := by
  obtain ⟨Gi, hg⟩ := ginv_defined (T := T) (th := th) (fun k => (hth k).det_pos.ne'.isUnit) hpat
  obtain ⟨h1, h2, h3⟩ := ginv_some hT hg
  subst h1
  obtain ⟨L, hl⟩ := hq.total ((m.ZtRZ s2 + (T.gcov th)⁻¹).submatrix e.symm e.symm) ((cmat_posDef hT hs hth).submatrix e.symm.injective)
  obtain ⟨l1, l2, l3⟩ := hq.ok _ _ hl
  have hL := unit_chol l2 l3
  have hx : (m.XytRXy s2).submatrix Fin.castSucc Fin.castSucc - ((facSolve e L (m.ZtRXy s2)).submatrix id Fin.castSucc)ᵀ *
      (facSolve e L (m.ZtRXy s2)).submatrix id Fin.castSucc = xvx m.X (vcov m th s2) := by
    rw [xvx, ← Xy_gram, ← schur_eq hs.ne' h2 l1 hL]
    rfl
  have hw : (xvx m.X (vcov m th s2)).PosDef := by
    have := (vcov_posDef (m := m) hT hs hth).inv.conjTranspose_mul_mul_same hX
    rwa [conjTranspose_eq_transpose_of_trivial] at this
  unfold gradient parts
  simp only [hg, hl, hx, inv?_unit hw.det_pos.ne'.isUnit, Option.bind_eq_bind, Option.bind_some]
  exact ⟨_, rfl⟩

end Verif.Lmm
