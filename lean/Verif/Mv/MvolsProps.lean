import Verif.Mv.Mvols
import Verif.Lmm.LmCholProps
import Verif.Calc.Matrix
/-!
# C149: likelihood of the multivariate regression and its derivatives
-/
namespace Verif.Mv.Mvols
open Matrix Kronecker Verif.Fa Verif.Like Verif.Lmm Verif.Lmm.Lm Verif.Calc
variable {n p q : ℕ}

/-! ## packing -/

theorem cholOf_diag (lam : Tri q → ℝ) (i : Fin q) : cholOf lam i i = Real.exp (ltri lam i i) := by simp [cholOf, ltri]

theorem cholOf_upper (lam : Tri q → ℝ) (i j : Fin q) (h : i < j) : cholOf lam i j = 0 := ltri_upper _ _ _ h

theorem cholOf_pos (lam : Tri q → ℝ) (i : Fin q) : 0 < cholOf lam i i := by rw [cholOf_diag]; exact Real.exp_pos _

/-- Every factor is reached. -/
theorem C149_unpack_pack (B : Mat p q) {L : Mat q q} (h0 : ∀ i j, i < j → L i j = 0) (h1 : ∀ i, 0 < L i i) :
    beta (pack B L) = B ∧ pchol (pack B L) = L := by
  refine ⟨rfl, ?_⟩
  have : (fun a : Tri q => if a.1.1 = a.1.2 then Real.exp (lamOf L a) else lamOf L a) = vechM L := by
    funext a
    unfold lamOf vechM
    split
    · next h => rw [h, Real.exp_log (h1 _)]
    · rfl
  change ltri (fun a : Tri q => if a.1.1 = a.1.2 then Real.exp (lamOf L a) else lamOf L a) = L
  rw [this, ltri_vech h0]

/-- Every parameter is recovered. -/
theorem C149_pack_unpack (th : Ix p q → ℝ) : pack (beta th) (pchol th) = th := by
  funext x
  rcases x with x | a
  · rfl
  · simp only [pack, Sum.elim_inr, lamOf, pchol, cholOf, ltri_tri]
    split
    · next h => rw [Real.log_exp]
    · rfl

/-! ## likelihood -/

section like
variable (d : Data n p q) (th : Ix p q → ℝ)

def resid : Mat n q := d.Y - d.X * beta th
def sscp : Mat q q := (resid d th)ᵀ * (diagonal d.w * resid d th)
def xwe : Mat p q := d.Xᵀ * (diagonal d.w * resid d th)

theorem sscp_symm : (sscp d th)ᵀ = sscp d th := by
  simp only [sscp, transpose_mul, transpose_transpose, diagonal_transpose, Matrix.mul_assoc]

theorem quad_trace (U : Mat n q) (w : Fin n → ℝ) : ∑ i, (∑ k, U i k * U i k) * w i = (Uᵀ * (diagonal w * U)).trace := by
  simp only [trace, diag_apply, mul_apply, transpose_apply, diagonal_mul]
  rw [Finset.sum_comm]
  refine Finset.sum_congr rfl fun i _ => ?_
  rw [Finset.sum_mul]
  refine Finset.sum_congr rfl fun k _ => ?_
  simp [diagonal, mul_comm, mul_left_comm]

theorem nll_eq : nll d th = -((∑ i, ltri (fun a => th (Sum.inr a)) i i) * ∑ i, d.w i) +
    1 / 2 * ((pchol th)ᵀ * sscp d th * pchol th).trace + 1 / 2 * q * Real.log (2 * Real.pi) * ∑ i, d.w i := by
  have h1 : ∀ i, Real.log (pchol th i i) = ltri (fun a => th (Sum.inr a)) i i := fun i => by
    rw [pchol, cholOf_diag, Real.log_exp]
  unfold nll
  simp only [h1, quad_trace]
  have h2 : ((d.Y - d.X * beta th) * pchol th)ᵀ * (diagonal d.w * ((d.Y - d.X * beta th) * pchol th)) =
      (pchol th)ᵀ * sscp d th * pchol th := by
    simp only [sscp, resid, transpose_mul, Matrix.mul_assoc]
  rw [h2]
  norm_num
  ring

/-- `_loglike` is minus the weighted sum of the log densities of the normal distribution with mean `B' x` and covariance `(L L')⁻¹`. -/
theorem C149_loglike :
    let S := (pchol th * (pchol th)ᵀ)⁻¹
    nll d th = -∑ i, d.w i * (-(q * Real.log (2 * Real.pi) + Real.log S.det +
      (d.Y i - (beta th)ᵀ *ᵥ d.X i) ⬝ᵥ (S⁻¹ *ᵥ (d.Y i - (beta th)ᵀ *ᵥ d.X i))) / 2) := by
  intro S
  have hu : IsUnit (pchol th).det := unit_chol (cholOf_upper _) (cholOf_pos _)
  have hu2 : IsUnit (pchol th * (pchol th)ᵀ).det := by rw [det_mul, det_transpose]; exact hu.mul hu
  have hS : S⁻¹ = pchol th * (pchol th)ᵀ := nonsing_inv_nonsing_inv _ hu2
  have hdet : Real.log S.det = -2 * ∑ i, ltri (fun a => th (Sum.inr a)) i i := by
    have hd : (pchol th).det = ∏ i, pchol th i i :=
      det_of_isLowerTriangular _ fun i j h => cholOf_upper _ i j (OrderDual.toDual_lt_toDual.1 h)
    have hne : (pchol th).det ≠ 0 := hu.ne_zero
    rw [show S.det = ((pchol th).det * (pchol th).det)⁻¹ by
      simp only [S, det_nonsing_inv, Ring.inverse_eq_inv', det_mul, det_transpose], Real.log_inv, Real.log_mul hne hne, hd,
      show Real.log (∏ i, pchol th i i) = ∑ i, Real.log (pchol th i i) from Real.log_prod fun i _ => (cholOf_pos _ i).ne']
    have : ∀ i, Real.log (pchol th i i) = ltri (fun a => th (Sum.inr a)) i i := fun i => by
      rw [pchol, cholOf_diag, Real.log_exp]
    simp only [this]
    ring
  have hq : ∀ i, (d.Y i - (beta th)ᵀ *ᵥ d.X i) ⬝ᵥ (S⁻¹ *ᵥ (d.Y i - (beta th)ᵀ *ᵥ d.X i)) =
      ∑ k, (resid d th * pchol th) i k * (resid d th * pchol th) i k := fun i => by
    have hr : d.Y i - (beta th)ᵀ *ᵥ d.X i = resid d th i := by
      funext j
      simp [resid, mulVec, dotProduct, mul_apply, mul_comm]
    rw [hr, hS, ← mulVec_mulVec, dotProduct_mulVec]
    have : (resid d th i) ᵥ* pchol th = (resid d th * pchol th) i := rfl
    rw [mulVec_transpose, this]
    rfl
  simp only [hq, hdet]
  rw [nll_eq]
  have h2 : (pchol th)ᵀ * sscp d th * pchol th = (resid d th * pchol th)ᵀ * (diagonal d.w * (resid d th * pchol th)) := by
    simp only [sscp, transpose_mul, Matrix.mul_assoc]
  rw [h2, ← quad_trace]
  generalize (∑ i, ltri (fun a => th (Sum.inr a)) i i) = D
  generalize resid d th * pchol th = U
  have h3 : ∀ i, d.w i * (-(q * Real.log (2 * Real.pi) + -2 * D + ∑ k, U i k * U i k) / 2) =
      D * d.w i - (1 / 2 * ((∑ k, U i k * U i k) * d.w i) + 1 / 2 * q * Real.log (2 * Real.pi) * d.w i) := fun i => by ring
  simp only [h3, Finset.sum_sub_distrib, Finset.sum_add_distrib, ← Finset.mul_sum]
  ring

/-! ## first derivatives -/

theorem gradient_inl (x : Fin q × Fin p) : gradient d th (Sum.inl x) = -(xwe d th * (pchol th * (pchol th)ᵀ)) x.2 x.1 := by
  simp only [gradient, xwe, resid, Pi.neg_apply, Sum.elim_inl, transpose_mul, diagonal_transpose, Matrix.mul_assoc]

theorem gradient_inr (a : Tri q) : gradient d th (Sum.inr a) =
    factor (pchol th) a * (sscp d th * pchol th) a.1.1 a.1.2 - if a.1.1 = a.1.2 then ∑ i, d.w i else 0 := by
  simp only [gradient, sscp, resid, Pi.neg_apply, Sum.elim_inr, factor, Matrix.mul_assoc]
  split
  · next h => rw [← h]; ring
  · ring

/-- The rows of `_gradient_i` add up to `_gradient`. -/
theorem C149_gradient_i : ∑ i, gradientI d th i = gradient d th := by
  funext x
  rw [Finset.sum_apply]
  rcases x with x | a
  · simp only [gradientI, gradient, Sum.elim_inl, Pi.neg_apply]
    rw [mul_apply, ← Finset.sum_neg_distrib]
    refine Finset.sum_congr rfl fun i _ => ?_
    rw [transpose_apply, diagonal_mul]
    ring
  · simp only [gradientI, gradient, Sum.elim_inr, Pi.neg_apply]
    split
    · next h =>
      rw [mul_apply, Finset.mul_sum, ← Finset.sum_sub_distrib, ← Finset.sum_neg_distrib]
      refine Finset.sum_congr rfl fun i _ => ?_
      rw [transpose_apply, diagonal_mul]
      ring
    · rw [neg_neg, mul_apply]
      refine Finset.sum_congr rfl fun i _ => ?_
      rw [transpose_apply, diagonal_mul]
      ring

end like

section deriv
variable (d : Data n p q) {th : ℝ → Ix p q → ℝ} {th' : Ix p q → ℝ}

/-- Derivative of the factor. -/
noncomputable def dL (th th' : Ix p q → ℝ) : Mat q q := ltri fun a => factor (pchol th) a * th' (Sum.inr a)

theorem beta_md (h : VD th th') : MD (fun t => beta (th t)) (beta th') := fun i j => h (Sum.inl (j, i))

theorem lam_deriv (h : VD th th') (a : Tri q) :
    HasDerivAt (fun t => if a.1.1 = a.1.2 then Real.exp (th t (Sum.inr a)) else th t (Sum.inr a))
      (factor (pchol (th 0)) a * th' (Sum.inr a)) 0 := by
  unfold factor
  split
  · next e =>
    have h1 : pchol (th 0) a.1.1 a.1.1 = Real.exp (th 0 (Sum.inr a)) := by
      have : pchol (th 0) a.1.1 a.1.2 = Real.exp (th 0 (Sum.inr a)) := by simp only [pchol, cholOf, ltri_tri, if_pos e]
      rwa [← e] at this
    rw [h1]
    exact (h (Sum.inr a)).exp
  · simpa using h (Sum.inr a)

theorem pchol_md (h : VD th th') : MD (fun t => pchol (th t)) (dL (th 0) th') := fun x y => ltri_md (lam_deriv h) x y

theorem resid_md (h : VD th th') : MD (fun t => resid d (th t)) (-(d.X * beta th')) :=
  ((MD.const d.Y).sub ((MD.const d.X).mul (beta_md h))).congr (by simp)

theorem sscp_md (h : VD th th') :
    MD (fun t => sscp d (th t)) (-((beta th')ᵀ * xwe d (th 0)) - ((beta th')ᵀ * xwe d (th 0))ᵀ) :=
  ((resid_md d h).transpose.mul ((MD.const (diagonal d.w)).mul (resid_md d h))).congr (by
    simp only [xwe, transpose_mul, transpose_neg, transpose_transpose, diagonal_transpose, Matrix.mul_assoc, Matrix.neg_mul,
      Matrix.mul_neg, Matrix.zero_mul, zero_add]
    abel)

theorem xwe_md (h : VD th th') : MD (fun t => xwe d (th t)) (-(d.Xᵀ * (diagonal d.w * d.X) * beta th')) :=
  ((MD.const d.Xᵀ).mul ((MD.const (diagonal d.w)).mul (resid_md d h))).congr (by
    simp only [Matrix.mul_assoc, Matrix.mul_neg, Matrix.zero_mul, zero_add])

theorem sum_lam (th' : Ix p q → ℝ) (c : ℝ) :
    ∑ a : Tri q, (if a.1.1 = a.1.2 then c else 0) * th' (Sum.inr a) = (∑ i, ltri (fun a => th' (Sum.inr a)) i i) * c := by
  rw [sum_tri (fun x y => if x = y then c else 0), Finset.sum_mul]
  refine Finset.sum_congr rfl fun x _ => ?_
  simp [mul_comm]

/-- `_gradient` is the derivative of `_loglike`, in every direction of the parameters. -/
theorem C149_gradient (h : VD th th') : HasDerivAt (fun t => nll d (th t)) (gradient d (th 0) ⬝ᵥ th') 0 := by
  have h1 : HasDerivAt (fun t => ∑ i, ltri (fun a => th t (Sum.inr a)) i i) (∑ i, ltri (fun a => th' (Sum.inr a)) i i) 0 :=
    HasDerivAt.fun_sum fun i _ => ltri_md (fun j => h (Sum.inr j)) i i
  have h2 := trace_deriv (((pchol_md h).transpose.mul (sscp_md d h)).mul (pchol_md h))
  have h3 := ((h1.mul_const (∑ i, d.w i)).neg.add (h2.const_mul (1 / 2 : ℝ))).add_const
    (1 / 2 * q * Real.log (2 * Real.pi) * ∑ i, d.w i)
  refine (h3.congr_of_eventuallyEq (Filter.Eventually.of_forall fun t => nll_eq d (th t))).congr_deriv ?_
  have e1 : (gradient d (th 0) ⬝ᵥ th') = -((beta th')ᵀ * (xwe d (th 0) * (pchol (th 0) * (pchol (th 0))ᵀ))).trace +
      (((sscp d (th 0) * pchol (th 0))ᵀ * dL (th 0) th').trace - (∑ i, ltri (fun a => th' (Sum.inr a)) i i) * ∑ i, d.w i) := by
    simp only [dotProduct, Fintype.sum_sum_type, gradient_inl, gradient_inr]
    congr 1
    · rw [Fintype.sum_prod_type, trace, ← Finset.sum_neg_distrib]
      refine Finset.sum_congr rfl fun j _ => ?_
      rw [diag_apply, mul_apply, ← Finset.sum_neg_distrib]
      refine Finset.sum_congr rfl fun i _ => ?_
      rw [transpose_apply, show beta th' i j = th' (Sum.inl (j, i)) from rfl]
      ring
    · simp only [sub_mul, Finset.sum_sub_distrib]
      rw [sum_lam]
      congr 1
      have : ∀ a : Tri q, factor (pchol (th 0)) a * (sscp d (th 0) * pchol (th 0)) a.1.1 a.1.2 * th' (Sum.inr a) =
          (sscp d (th 0) * pchol (th 0)) a.1.1 a.1.2 * (factor (pchol (th 0)) a * th' (Sum.inr a)) := fun a => by ring
      simp only [this]
      rw [sum_tri (fun x y => (sscp d (th 0) * pchol (th 0)) x y), Finset.sum_comm]
      simp only [trace, diag_apply, mul_apply, transpose_apply, dL]
  rw [e1]
  have hS := sscp_symm d (th 0)
  generalize sscp d (th 0) = S at *
  generalize pchol (th 0) = L at *
  generalize dL (th 0) th' = K at *
  generalize xwe d (th 0) = G at *
  generalize beta th' = B' at *
  have t1 : (Kᵀ * S * L).trace = ((S * L)ᵀ * K).trace := by
    rw [← trace_transpose]; simp only [transpose_mul, transpose_transpose, Matrix.mul_assoc]
  have t2 : (Lᵀ * S * K).trace = ((S * L)ᵀ * K).trace := by
    rw [transpose_mul, hS]
  have t3 : (Lᵀ * (B'ᵀ * G) * L).trace = (B'ᵀ * (G * (L * Lᵀ))).trace := by
    rw [trace_mul_comm, ← Matrix.mul_assoc, trace_mul_comm, Matrix.mul_assoc]
  have t4 : (Lᵀ * (B'ᵀ * G)ᵀ * L).trace = (B'ᵀ * (G * (L * Lᵀ))).trace := by
    rw [← t3, ← trace_transpose]; simp only [transpose_mul, transpose_transpose, Matrix.mul_assoc]
  simp only [Matrix.add_mul, Matrix.mul_sub, Matrix.sub_mul, Matrix.mul_neg, Matrix.neg_mul, trace_add, trace_sub, trace_neg,
    t1, t2, t3, t4]
  ring

/-! ## second derivatives -/

theorem omStack_sum (L G : Mat q q) (a : Tri q) :
    ∑ k, ∑ l, omStack L a k l * G k l = factor L a * ((G * L) a.1.1 a.1.2 + (Gᵀ * L) a.1.1 a.1.2) := by
  simp only [omStack, of_apply, add_mul, ite_mul, zero_mul, Finset.sum_add_distrib]
  rw [Finset.sum_comm]
  simp only [Finset.sum_ite_eq', Finset.mem_univ, if_true, mul_apply, transpose_apply, mul_add, Finset.mul_sum]
  congr 1 <;> exact Finset.sum_congr rfl fun i _ => by ring

theorem omStack_dir (th th' : Ix p q → ℝ) (k l : Fin q) : ∑ a : Tri q, omStack (pchol th) a k l * th' (Sum.inr a) =
    (dL th th' * (pchol th)ᵀ + pchol th * (dL th th')ᵀ) k l := by
  have : ∀ a : Tri q, omStack (pchol th) a k l * th' (Sum.inr a) =
      ((if k = a.1.1 then pchol th l a.1.2 else 0) + (if l = a.1.1 then pchol th k a.1.2 else 0)) *
        (factor (pchol th) a * th' (Sum.inr a)) := fun a => by
    simp only [omStack, of_apply]
    split_ifs <;> ring
  simp only [this]
  rw [sum_tri (fun x y => (if k = x then pchol th l y else 0) + (if l = x then pchol th k y else 0))]
  simp only [add_mul, ite_mul, zero_mul, Finset.sum_add_distrib]
  rw [Matrix.add_apply, mul_apply, mul_apply, Finset.sum_comm]
  congr 1
  · refine Finset.sum_congr rfl fun y _ => ?_
    simp only [Finset.sum_ite_eq, Finset.mem_univ, if_true, transpose_apply, dL]
    ring
  · rw [Finset.sum_comm]
    refine Finset.sum_congr rfl fun y _ => ?_
    simp only [Finset.sum_ite_eq, Finset.mem_univ, if_true, transpose_apply, dL]

theorem hess11 (th : Ix p q → ℝ) (x y : Fin q × Fin p) : hessian d th (Sum.inl x) (Sum.inl y) =
    (pchol th * (pchol th)ᵀ) x.1 y.1 * (d.Xᵀ * (diagonal d.w * d.X)) x.2 y.2 := by
  simp only [hessian, Matrix.neg_apply, fromBlocks_apply₁₁, neg_neg, kroneckerMap_apply]

theorem hess12 (th : Ix p q → ℝ) (x : Fin q × Fin p) (a : Tri q) : hessian d th (Sum.inl x) (Sum.inr a) =
    -(xwe d th * omStack (pchol th) a) x.2 x.1 := rfl

theorem hess21 (th : Ix p q → ℝ) (x : Fin q × Fin p) (a : Tri q) : hessian d th (Sum.inr a) (Sum.inl x) =
    -(xwe d th * omStack (pchol th) a) x.2 x.1 := rfl

theorem hess22 (th : Ix p q → ℝ) (a b : Tri q) : hessian d th (Sum.inr a) (Sum.inr b) =
    factor (pchol th) a * factor (pchol th) b * sscp d th a.1.1 b.1.1 * (if a.1.2 = b.1.2 then 1 else 0) +
      if a = b then (if a.1.1 = a.1.2 then factor (pchol th) a * (sscp d th * pchol th) a.1.1 a.1.2 else 0) else 0 := by
  have h := omStack_sum (pchol th) (sscp d th) a
  rw [sscp_symm] at h
  simp only [hessian, Matrix.neg_apply, fromBlocks_apply₂₂, Matrix.add_apply, of_apply, diagonal_apply]
  change -(-(_ * sscp d th _ _ * _) + if a = b then if _ then -0.5 * ∑ k, ∑ l, omStack (pchol th) a k l * sscp d th k l else 0 else 0) = _
  rw [h]
  split_ifs <;> norm_num <;> ring

theorem kron_dir (th th' : Ix p q → ℝ) (x : Fin q × Fin p) :
    ∑ y : Fin q × Fin p, (pchol th * (pchol th)ᵀ) x.1 y.1 * (d.Xᵀ * (diagonal d.w * d.X)) x.2 y.2 * th' (Sum.inl y) =
      (d.Xᵀ * (diagonal d.w * d.X) * beta th' * (pchol th * (pchol th)ᵀ)) x.2 x.1 := by
  have hs : (pchol th * (pchol th)ᵀ)ᵀ = pchol th * (pchol th)ᵀ := by simp
  generalize pchol th * (pchol th)ᵀ = Om at *
  generalize d.Xᵀ * (diagonal d.w * d.X) = XX
  rw [Fintype.sum_prod_type, mul_apply]
  refine Finset.sum_congr rfl fun k _ => ?_
  rw [mul_apply, Finset.sum_mul]
  refine Finset.sum_congr rfl fun l _ => ?_
  have : Om k x.1 = Om x.1 k := (congrFun (congrFun hs x.1) k)
  rw [show beta th' l k = th' (Sum.inl (k, l)) from rfl, this]
  ring

theorem dd_dir (th th' : Ix p q → ℝ) (a : Tri q) :
    ∑ b : Tri q, factor (pchol th) a * factor (pchol th) b * sscp d th a.1.1 b.1.1 *
      (if a.1.2 = b.1.2 then 1 else 0) * th' (Sum.inr b) = factor (pchol th) a * (sscp d th * dL th th') a.1.1 a.1.2 := by
  have : ∀ b : Tri q, factor (pchol th) a * factor (pchol th) b * sscp d th a.1.1 b.1.1 *
      (if a.1.2 = b.1.2 then 1 else 0) * th' (Sum.inr b) = (factor (pchol th) a * (sscp d th a.1.1 b.1.1 *
      if a.1.2 = b.1.2 then 1 else 0)) * (factor (pchol th) b * th' (Sum.inr b)) := fun b => by ring
  simp only [this]
  rw [sum_tri (fun x y => factor (pchol th) a * (sscp d th a.1.1 x * if a.1.2 = y then 1 else 0)), mul_apply,
    Finset.mul_sum]
  refine Finset.sum_congr rfl fun x _ => ?_
  simp only [mul_ite, mul_one, mul_zero, ite_mul, zero_mul, Finset.sum_ite_eq, Finset.mem_univ, if_true, dL]
  ring

/-- `_hessian` is symmetric. -/
theorem C149_hessian_symm (th : Ix p q → ℝ) : (hessian d th)ᵀ = hessian d th := by
  ext x y
  rw [transpose_apply]
  rcases x with x | a <;> rcases y with y | b
  · have h1 : (pchol th * (pchol th)ᵀ)ᵀ = pchol th * (pchol th)ᵀ := by simp
    have h2 : (d.Xᵀ * (diagonal d.w * d.X))ᵀ = d.Xᵀ * (diagonal d.w * d.X) := by simp [Matrix.mul_assoc]
    rw [hess11, hess11]
    conv_rhs => rw [← h1, ← h2]
    rfl
  · rfl
  · rfl
  · have h1 := sscp_symm d th
    rw [hess22, hess22, show sscp d th b.1.1 a.1.1 = sscp d th a.1.1 b.1.1 from congrFun (congrFun h1 a.1.1) b.1.1]
    by_cases e : a = b
    · rw [e]
    · rw [if_neg e, if_neg (Ne.symm e)]
      by_cases e2 : a.1.2 = b.1.2
      · rw [if_pos e2, if_pos e2.symm]; ring
      · rw [if_neg e2, if_neg (Ne.symm e2)]; ring

/-- `_hessian` is the derivative of `_gradient`, in every direction of the parameters. -/
theorem C149_hessian (h : VD th th') : VD (fun t => gradient d (th t)) (hessian d (th 0) *ᵥ th') := by
  have hL := pchol_md h
  intro x
  rcases x with x | a
  · simp only [gradient_inl]
    refine (((xwe_md d h).mul (hL.mul hL.transpose)).neg x.2 x.1).congr_deriv ?_
    simp only [mulVec, dotProduct, Fintype.sum_sum_type, hess11, hess12]
    have e1 := kron_dir d (th 0) th' x
    have e2 : ∑ a : Tri q, -(xwe d (th 0) * omStack (pchol (th 0)) a) x.2 x.1 * th' (Sum.inr a) =
        -(xwe d (th 0) * (dL (th 0) th' * (pchol (th 0))ᵀ + pchol (th 0) * (dL (th 0) th')ᵀ)) x.2 x.1 := by
      rw [mul_apply]
      simp only [← omStack_dir, mul_apply, Finset.mul_sum, Finset.sum_mul, neg_mul, Finset.sum_neg_distrib]
      rw [Finset.sum_comm]
      simp only [mul_assoc]
    rw [e1, e2]
    simp only [Matrix.neg_mul, Matrix.neg_apply, Matrix.add_apply]
    ring
  · simp only [gradient_inr]
    have hf : HasDerivAt (fun t => factor (pchol (th t)) a) (if a.1.1 = a.1.2 then factor (pchol (th 0)) a * th' (Sum.inr a) else 0) 0 := by
      have h1 := lam_deriv h a
      by_cases e : a.1.1 = a.1.2
      · simp only [if_pos e] at h1 ⊢
        refine h1.congr_of_eventuallyEq (Filter.Eventually.of_forall fun t => ?_)
        have : pchol (th t) a.1.1 a.1.2 = Real.exp (th t (Sum.inr a)) := by simp only [pchol, cholOf, ltri_tri, if_pos e]
        simp only [factor, if_pos e]
        rw [← this, ← e]
      · simp only [factor, if_neg e]
        exact hasDerivAt_const _ _
    have hM := ((sscp_md d h).mul hL) a.1.1 a.1.2
    refine ((hf.fun_mul hM).sub_const _).congr_deriv ?_
    simp only [mulVec, dotProduct, Fintype.sum_sum_type, hess21, hess22]
    have e1 : ∑ x : Fin q × Fin p, -(xwe d (th 0) * omStack (pchol (th 0)) a) x.2 x.1 * th' (Sum.inl x) =
        factor (pchol (th 0)) a * ((-((beta th')ᵀ * xwe d (th 0)) - ((beta th')ᵀ * xwe d (th 0))ᵀ) * pchol (th 0)) a.1.1 a.1.2 := by
      have := omStack_sum (pchol (th 0)) ((beta th')ᵀ * xwe d (th 0))ᵀ a
      rw [transpose_transpose] at this
      rw [Matrix.sub_mul, Matrix.neg_mul, Matrix.sub_apply, Matrix.neg_apply,
        show ∀ u v w : ℝ, u * (-v - w) = -(u * (w + v)) from fun u v w => by ring, ← this]
      simp only [neg_mul, Finset.sum_neg_distrib]
      congr 1
      generalize omStack (pchol (th 0)) a = O
      generalize xwe d (th 0) = G
      have t1 : ∑ k, ∑ l, O k l * ((beta th')ᵀ * G)ᵀ k l = ∑ l, ∑ i, ∑ k, G i k * O k l * th' (Sum.inl (l, i)) := by
        rw [Finset.sum_comm]
        refine Finset.sum_congr rfl fun l _ => ?_
        rw [Finset.sum_comm]
        refine Finset.sum_congr rfl fun k _ => ?_
        rw [transpose_apply, mul_apply, Finset.mul_sum]
        refine Finset.sum_congr rfl fun i _ => ?_
        rw [transpose_apply, show beta th' i l = th' (Sum.inl (l, i)) from rfl]
        ring
      rw [t1, Fintype.sum_prod_type]
      simp only [mul_apply, Finset.sum_mul]
    have e2 := dd_dir d (th 0) th' a
    have e3 : ∑ b : Tri q, (if a = b then (if a.1.1 = a.1.2 then factor (pchol (th 0)) a * (sscp d (th 0) * pchol (th 0)) a.1.1 a.1.2
        else 0) else 0) * th' (Sum.inr b) = (if a.1.1 = a.1.2 then factor (pchol (th 0)) a * th' (Sum.inr a) else 0) *
        (sscp d (th 0) * pchol (th 0)) a.1.1 a.1.2 := by
      simp only [ite_mul, zero_mul, Finset.sum_ite_eq, Finset.mem_univ, if_true]
      split_ifs
      · ring
      · rfl
    rw [e1]
    simp only [add_mul, Finset.sum_add_distrib]
    simp only [mul_ite, mul_one, mul_zero, ite_mul, zero_mul] at e2 e3 ⊢
    rw [e2, e3, Matrix.add_apply]
    split_ifs <;> ring

end deriv

/-- A curve to which the derivatives apply. -/
example (a b : Ix p q → ℝ) : VD (fun t => a + t • b) b := VD.line a b

end Verif.Mv.Mvols
