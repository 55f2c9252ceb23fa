import Verif.Gam.GaulsLinkProps
import Verif.Calc.Implicit

namespace Verif.Gam.Gauls
open Matrix Verif.Calc

variable {n p q s r : ℕ} {g : Ls n p q s r}

/-- Links that meet the contract, with positive inverse standard deviations. -/
structure Ls.Ok (g : Ls n p q s r) : Prop where
  m : ∃ d, LnkOk g.lm d
  s : ∃ d, LnkOk g.ls d
  pos : ∀ e, 0 < g.ls.inv e

/-- The weight of an observation. -/
def Ls.wc (g : Ls n p q s r) (k : Fin n) : ℝ :=
  match g.w with
  | none => 1
  | some w => w k

theorem wt_eq (k : Fin n) (x : ℝ) : g.wt k x = g.wc k * x := by
  unfold Ls.wt Ls.wc
  cases g.w <;> simp

theorem etam_apply (b : Cf p q → ℝ) (k : Fin n) : g.etam b k = ∑ i, g.Xm k i * b (.inl i) := rfl

theorem etas_apply (b : Cf p q → ℝ) (k : Fin n) : g.etas b k = ∑ i, g.Xs k i * b (.inr i) := rfl

/-- The predictors of an observation as a linear map. -/
noncomputable def Ls.etaL (g : Ls n p q s r) (k : Fin n) : (Cf p q → ℝ) →L[ℝ] ℝ × ℝ :=
  LinearMap.toContinuousLinearMap
    { toFun := fun b => (g.etam b k, g.etas b k)
      map_add' := fun x y => by simp [etam_apply, etas_apply, mul_add, Finset.sum_add_distrib]
      map_smul' := fun c x => by simp [etam_apply, etas_apply, Finset.mul_sum, mul_left_comm] }

theorem etaL_apply (k : Fin n) (b : Cf p q → ℝ) : g.etaL k b = (g.etam b k, g.etas b k) := rfl

theorem obs_fderiv {f : ℝ → ℝ → ℝ} {fa fb : ℝ} {b : Cf p q → ℝ} {k : Fin n} (h : D2 f fa fb (g.etam b k) (g.etas b k)) :
    HasFDerivAt (fun b => f (g.etam b k) (g.etas b k))
      ((fa • ContinuousLinearMap.fst ℝ ℝ ℝ + fb • ContinuousLinearMap.snd ℝ ℝ ℝ).comp (g.etaL k)) b :=
  HasFDerivAt.comp (f := fun b => g.etaL k b) b h (g.etaL k).hasFDerivAt

theorem obs_deriv {f : ℝ → ℝ → ℝ} {fa fb : ℝ} {c : ℝ → Cf p q → ℝ} {c' : Cf p q → ℝ} {k : Fin n} (h : D2 f fa fb (g.etam (c 0) k) (g.etas (c 0) k))
    (hc : VD c c') : HasDerivAt (fun t => f (g.etam (c t) k) (g.etas (c t) k)) (fa * g.etam c' k + fb * g.etas c' k) 0 := by
  have h1 : HasDerivAt (fun t => f (g.etam (c t) k) (g.etas (c t) k)) _ 0 := (obs_fderiv h).comp_hasDerivAt (0 : ℝ) (VD_iff.1 hc)
  exact h1.congr_deriv (by simp [etaL_apply])

theorem etam_deriv {c : ℝ → Cf p q → ℝ} {c' : Cf p q → ℝ} (hc : VD c c') (k : Fin n) : HasDerivAt (fun t => g.etam (c t) k) (g.etam c' k) 0 :=
  HasDerivAt.fun_sum (u := Finset.univ) fun i _ => (hc (.inl i)).const_mul _

theorem etas_deriv {c : ℝ → Cf p q → ℝ} {c' : Cf p q → ℝ} (hc : VD c c') (k : Fin n) : HasDerivAt (fun t => g.etas (c t) k) (g.etas c' k) 0 :=
  HasDerivAt.fun_sum (u := Finset.univ) fun i _ => (hc (.inr i)).const_mul _

/-! ### The blocks -/

theorem cross_apply {a b : ℕ} (X : Matrix (Fin n) (Fin a) ℝ) (Y : Matrix (Fin n) (Fin b) ℝ) (v : Fin n → ℝ) (i : Fin a) (j : Fin b) :
    (Xᵀ * diagonal v * Y) i j = ∑ k, X k i * v k * Y k j := by
  simp only [Matrix.mul_apply (N := Y), Matrix.mul_diagonal, Matrix.transpose_apply]

theorem blocks_ll (v1 v2 v3 : Fin n → ℝ) (i j : Fin p) : g.blocks v1 v2 v3 (.inl i) (.inl j) = -∑ k, g.Xm k i * v1 k * g.Xm k j := by
  simp only [Ls.blocks, Matrix.neg_apply, fromBlocks_apply₁₁, cross_apply]

theorem blocks_lr (v1 v2 v3 : Fin n → ℝ) (i : Fin p) (j : Fin q) : g.blocks v1 v2 v3 (.inl i) (.inr j) = -∑ k, g.Xm k i * v2 k * g.Xs k j := by
  simp only [Ls.blocks, Matrix.neg_apply, fromBlocks_apply₁₂, cross_apply]

theorem blocks_rl (v1 v2 v3 : Fin n → ℝ) (i : Fin q) (j : Fin p) : g.blocks v1 v2 v3 (.inr i) (.inl j) = -∑ k, g.Xm k j * v2 k * g.Xs k i := by
  simp only [Ls.blocks, Matrix.neg_apply, fromBlocks_apply₂₁, Matrix.transpose_apply (M := g.Xmᵀ * diagonal v2 * g.Xs), cross_apply]

theorem blocks_rr (v1 v2 v3 : Fin n → ℝ) (i j : Fin q) : g.blocks v1 v2 v3 (.inr i) (.inr j) = -∑ k, g.Xs k i * v3 k * g.Xs k j := by
  simp only [Ls.blocks, Matrix.neg_apply, fromBlocks_apply₂₂, cross_apply]

theorem blocks_symm (v1 v2 v3 : Fin n → ℝ) : (g.blocks v1 v2 v3)ᵀ = g.blocks v1 v2 v3 := by
  ext (i | i) (j | j)
  · rw [Matrix.transpose_apply, blocks_ll, blocks_ll]
    exact congrArg _ (Finset.sum_congr rfl fun k _ => by ring)
  · rw [Matrix.transpose_apply, blocks_rl, blocks_lr]
  · rw [Matrix.transpose_apply, blocks_lr, blocks_rl]
  · rw [Matrix.transpose_apply, blocks_rr, blocks_rr]
    exact congrArg _ (Finset.sum_congr rfl fun k _ => by ring)

theorem blocks_deriv {v1 v2 v3 : ℝ → Fin n → ℝ} {w1 w2 w3 : Fin n → ℝ} (h1 : VD v1 w1) (h2 : VD v2 w2) (h3 : VD v3 w3) :
    MD (fun t => g.blocks (v1 t) (v2 t) (v3 t)) (g.blocks w1 w2 w3) := by
  rintro (i | i) (j | j)
  · simp only [blocks_ll]
    exact (HasDerivAt.fun_sum fun k _ => ((h1 k).const_mul _).mul_const _).fun_neg
  · simp only [blocks_lr]
    exact (HasDerivAt.fun_sum fun k _ => ((h2 k).const_mul _).mul_const _).fun_neg
  · simp only [blocks_rl]
    exact (HasDerivAt.fun_sum fun k _ => ((h2 k).const_mul _).mul_const _).fun_neg
  · simp only [blocks_rr]
    exact (HasDerivAt.fun_sum fun k _ => ((h3 k).const_mul _).mul_const _).fun_neg

theorem blocks_mulVec_l (v1 v2 v3 : Fin n → ℝ) (x : Cf p q → ℝ) (i : Fin p) : (g.blocks v1 v2 v3 *ᵥ x) (.inl i) =
    -∑ k, g.Xm k i * (v1 k * g.etam x k + v2 k * g.etas x k) := by
  simp only [Matrix.mulVec, dotProduct, Fintype.sum_sum_type, blocks_ll, blocks_lr, neg_mul, Finset.sum_neg_distrib, etam_apply, etas_apply]
  rw [← neg_add]
  congr 1
  simp only [mul_add, Finset.sum_add_distrib, Finset.sum_mul, Finset.mul_sum]
  rw [Finset.sum_comm, Finset.sum_comm (γ := Fin q)]
  congr 1 <;> exact Finset.sum_congr rfl fun k _ => Finset.sum_congr rfl fun j _ => by ring

theorem blocks_mulVec_r (v1 v2 v3 : Fin n → ℝ) (x : Cf p q → ℝ) (i : Fin q) : (g.blocks v1 v2 v3 *ᵥ x) (.inr i) =
    -∑ k, g.Xs k i * (v2 k * g.etam x k + v3 k * g.etas x k) := by
  simp only [Matrix.mulVec, dotProduct, Fintype.sum_sum_type, blocks_rl, blocks_rr, neg_mul, Finset.sum_neg_distrib, etam_apply, etas_apply]
  rw [← neg_add]
  congr 1
  simp only [mul_add, Finset.sum_add_distrib, Finset.sum_mul, Finset.mul_sum]
  rw [Finset.sum_comm, Finset.sum_comm (γ := Fin q)]
  congr 1 <;> exact Finset.sum_congr rfl fun k _ => Finset.sum_congr rfl fun j _ => by ring

theorem hess_symm (b : Cf p q → ℝ) : (g.hess b)ᵀ = g.hess b := blocks_symm _ _ _

theorem dH_symm (b v : Cf p q → ℝ) : (g.dH b v)ᵀ = g.dH b v := blocks_symm _ _ _

theorem d2H_symm (b u v z : Cf p q → ℝ) : (g.d2H b u v z)ᵀ = g.d2H b u v z := blocks_symm _ _ _

/-- The third derivatives are symmetric. -/
theorem dH_swap (b u v : Cf p q → ℝ) : g.dH b u *ᵥ v = g.dH b v *ᵥ u := by
  funext i
  rcases i with i | i
  · rw [Ls.dH, Ls.dH, blocks_mulVec_l, blocks_mulVec_l]
    exact congrArg _ (Finset.sum_congr rfl fun k _ => by ring)
  · rw [Ls.dH, Ls.dH, blocks_mulVec_r, blocks_mulVec_r]
    exact congrArg _ (Finset.sum_congr rfl fun k _ => by ring)

theorem d2H_swap (b u v z : Cf p q → ℝ) : g.d2H b u v z = g.d2H b v u z := by
  simp only [Ls.d2H]
  congr 1 <;> funext k <;> ring

/-! ### Derivatives in the coefficients -/

/-- The scalar product with a fixed vector. -/
noncomputable def dotL {ι : Type*} [Fintype ι] (w : ι → ℝ) : (ι → ℝ) →L[ℝ] ℝ :=
  LinearMap.toContinuousLinearMap
    { toFun := fun v => w ⬝ᵥ v
      map_add' := fun x y => dotProduct_add w x y
      map_smul' := fun c x => by simp }

@[simp] theorem dotL_apply {ι : Type*} [Fintype ι] (w v : ι → ℝ) : dotL w v = w ⬝ᵥ v := rfl

theorem loglike_fderiv (h : g.Ok) (b : Cf p q → ℝ) : HasFDerivAt g.loglike (dotL (g.grad b)) b := by
  obtain ⟨⟨dm, hm⟩, ⟨ds, hs⟩, h0⟩ := h
  have h1 : ∀ k : Fin n, HasFDerivAt (fun b => g.wc k * lik (g.y k) (g.lm.inv (g.etam b k)) (g.ls.inv (g.etas b k))) _ b := fun k =>
    (obs_fderiv (C156_derivs hm hs (y := g.y k) (a := g.etam b k) (h0 (g.etas b k)).ne').1).const_mul (g.wc k)
  have h2 := (HasFDerivAt.fun_sum (u := Finset.univ) fun k _ => h1 k).fun_neg
  simp only [← wt_eq] at h2
  refine h2.congr_fderiv ?_
  ext x
  simp only [_root_.neg_apply, _root_.sum_apply, _root_.smul_apply, ContinuousLinearMap.comp_apply, etaL_apply,
    _root_.add_apply, ContinuousLinearMap.coe_fst', ContinuousLinearMap.coe_snd', smul_eq_mul, dotL_apply]
  rw [Ls.grad, neg_dotProduct]
  congr 1
  simp only [dotProduct, Fintype.sum_sum_type, Sum.elim_inl, Sum.elim_inr, Matrix.mulVec, Matrix.transpose_apply, wt_eq, Finset.sum_mul, etam_apply, etas_apply,
    mul_add, Finset.sum_add_distrib, Finset.mul_sum]
  rw [Finset.sum_comm, Finset.sum_comm (γ := Fin q)]
  congr 1 <;> exact Finset.sum_congr rfl fun k _ => Finset.sum_congr rfl fun j _ => by simp only [Ls.D, etam_apply, etas_apply]; ring

theorem grad_fderiv (h : g.Ok) (b : Cf p q → ℝ) : HasFDerivAt g.grad (mv (g.hess b)) b := by
  obtain ⟨⟨dm, hm⟩, ⟨ds, hs⟩, h0⟩ := h
  refine hasFDerivAt_pi'' fun i => ?_
  rcases i with i | i
  · have h1 : ∀ k : Fin n, HasFDerivAt (fun b => g.Xm k i * (g.wc k * (g.D b k).m)) _ b := fun k =>
      ((obs_fderiv (C156_derivs hm hs (y := g.y k) (a := g.etam b k) (h0 (g.etas b k)).ne').2.1).const_mul (g.wc k)).const_mul (g.Xm k i)
    have h2 := (HasFDerivAt.fun_sum (u := Finset.univ) fun k _ => h1 k).fun_neg
    simp only [← wt_eq] at h2
    refine h2.congr_fderiv ?_
    ext x
    simp only [_root_.neg_apply, _root_.sum_apply, _root_.smul_apply, ContinuousLinearMap.comp_apply, etaL_apply,
      _root_.add_apply, ContinuousLinearMap.coe_fst', ContinuousLinearMap.coe_snd', smul_eq_mul, ContinuousLinearMap.proj_apply, mv_apply]
    rw [Ls.hess, blocks_mulVec_l]
    congr 1
    exact Finset.sum_congr rfl fun k _ => by simp only [wt_eq, Ls.D]; ring
  · have h1 : ∀ k : Fin n, HasFDerivAt (fun b => g.Xs k i * (g.wc k * (g.D b k).s)) _ b := fun k =>
      ((obs_fderiv (C156_derivs hm hs (y := g.y k) (a := g.etam b k) (h0 (g.etas b k)).ne').2.2.1).const_mul (g.wc k)).const_mul (g.Xs k i)
    have h2 := (HasFDerivAt.fun_sum (u := Finset.univ) fun k _ => h1 k).fun_neg
    simp only [← wt_eq] at h2
    refine h2.congr_fderiv ?_
    ext x
    simp only [_root_.neg_apply, _root_.sum_apply, _root_.smul_apply, ContinuousLinearMap.comp_apply, etaL_apply,
      _root_.add_apply, ContinuousLinearMap.coe_fst', ContinuousLinearMap.coe_snd', smul_eq_mul, ContinuousLinearMap.proj_apply, mv_apply]
    rw [Ls.hess, blocks_mulVec_r]
    congr 1
    exact Finset.sum_congr rfl fun k _ => by simp only [wt_eq, Ls.D]; ring

theorem hess_deriv (h : g.Ok) {c : ℝ → Cf p q → ℝ} {c' : Cf p q → ℝ} (hc : VD c c') : MD (fun t => g.hess (c t)) (g.dH (c 0) c') := by
  obtain ⟨⟨dm, hm⟩, ⟨ds, hs⟩, h0⟩ := h
  have T := fun k => C156_derivs hm hs (y := g.y k) (a := g.etam (c 0) k) (h0 (g.etas (c 0) k)).ne'
  refine blocks_deriv (fun k => ?_) (fun k => ?_) (fun k => ?_)
  · simp only [wt_eq]
    exact ((obs_deriv (T k).2.2.2.1 hc).const_mul (g.wc k)).congr_deriv (by simp only [Ls.D]; ring)
  · simp only [wt_eq]
    exact ((obs_deriv (T k).2.2.2.2.1 hc).const_mul (g.wc k)).congr_deriv (by simp only [Ls.D]; ring)
  · simp only [wt_eq]
    exact ((obs_deriv (T k).2.2.2.2.2.1 hc).const_mul (g.wc k)).congr_deriv (by simp only [Ls.D]; ring)

theorem dH_deriv (h : g.Ok) {c v : ℝ → Cf p q → ℝ} {c' v' : Cf p q → ℝ} (hc : VD c c') (hv : VD v v') :
    MD (fun t => g.dH (c t) (v t)) (g.d2H (c 0) (v 0) c' v') := by
  obtain ⟨⟨dm, hm⟩, ⟨ds, hs⟩, h0⟩ := h
  have T := fun k => C156_derivs hm hs (y := g.y k) (a := g.etam (c 0) k) (h0 (g.etas (c 0) k)).ne'
  have a1 := fun k => obs_deriv (T k).2.2.2.2.2.2.1 hc
  have a2 := fun k => obs_deriv (T k).2.2.2.2.2.2.2.1 hc
  have a3 := fun k => obs_deriv (T k).2.2.2.2.2.2.2.2.1 hc
  have a4 := fun k => obs_deriv (T k).2.2.2.2.2.2.2.2.2 hc
  have em := etam_deriv (g := g) hv
  have es := etas_deriv (g := g) hv
  refine blocks_deriv (fun k => ?_) (fun k => ?_) (fun k => ?_)
  · simp only [wt_eq]
    exact ((((a1 k).const_mul (g.wc k)).fun_mul (em k)).fun_add (((a2 k).const_mul (g.wc k)).fun_mul (es k))).congr_deriv (by simp only [Ls.D]; ring)
  · simp only [wt_eq]
    exact ((((a2 k).const_mul (g.wc k)).fun_mul (em k)).fun_add (((a3 k).const_mul (g.wc k)).fun_mul (es k))).congr_deriv (by simp only [Ls.D]; ring)
  · simp only [wt_eq]
    exact ((((a3 k).const_mul (g.wc k)).fun_mul (em k)).fun_add (((a4 k).const_mul (g.wc k)).fun_mul (es k))).congr_deriv (by simp only [Ls.D]; ring)

end Verif.Gam.Gauls
