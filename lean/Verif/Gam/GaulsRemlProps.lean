import Verif.Gam.GaulsBetaProps
import Mathlib.LinearAlgebra.Matrix.PosDef
import Mathlib.Analysis.Matrix.PosDef
import Mathlib.Analysis.Matrix.Spectrum

namespace Verif.Gam.Gauls
open Matrix Verif.Calc

variable {n p q s r : ℕ} {g : Ls n p q s r} {rho d : Fin s ⊕ Fin r → ℝ} {beta : ℝ → Cf p q → ℝ}

theorem dot_symm {ι : Type*} [Fintype ι] {A : Matrix ι ι ℝ} (hA : Aᵀ = A) (v w : ι → ℝ) : v ⬝ᵥ (A *ᵥ w) = w ⬝ᵥ (A *ᵥ v) := by
  rw [Matrix.dotProduct_mulVec, ← Matrix.mulVec_transpose, hA, dotProduct_comm]

theorem pen_symm (hs : ∀ i, (g.S i)ᵀ = g.S i) (lam : Fin s ⊕ Fin r → ℝ) : (g.pen lam)ᵀ = g.pen lam := by
  simp only [Ls.pen, Matrix.transpose_sum, Matrix.transpose_smul, hs]

/-! ### First derivatives -/

/-- The derivative of the penalised Hessian in one parameter. -/
noncomputable def Ls.Mi (g : Ls n p q s r) (b : Cf p q → ℝ) (rho : Fin s ⊕ Fin r → ℝ) (i : Fin s ⊕ Fin r) : CM p q :=
  expv rho i • g.S i + g.dH b (g.B1 b rho i)

theorem Md_eq (b : Cf p q → ℝ) : g.Md b rho d = ∑ i, d i • g.Mi b rho i := by
  rw [Ls.Md, Ls.Bd, dH_sum, Ls.pen, ← Finset.sum_add_distrib]
  exact Finset.sum_congr rfl fun i _ => by rw [Ls.Mi, smul_add, smul_smul, add_comm]

/-- The gradient in closed form. -/
noncomputable def Ls.gI (g : Ls n p q s r) (b : Cf p q → ℝ) (rho : Fin s ⊕ Fin r → ℝ) (i : Fin s ⊕ Fin r) : ℝ :=
  (b ⬝ᵥ (g.S i *ᵥ b)) * expv rho i / 2 - g.ranks i / 2 + (g.A b rho * g.Mi b rho i).trace / 2

theorem dhess_some {b : Cf p q → ℝ} (h : IsUnit (g.hess b + g.pen (expv rho)).det) : g.dhess b (expv rho) = some fun i => g.dH b (g.B1 b rho i) := by
  rw [Ls.dhess, gradBeta_some h]; rfl

theorem gradient_some {b : Cf p q → ℝ} (h : IsUnit (g.hess b + g.pen (expv rho)).det) : g.gradient b rho = some (g.gI b rho) := by
  simp only [Ls.gradient, dhess_some h, inv?_some h, Option.bind_eq_bind, Option.bind_some]
  rfl

theorem pll_deriv (h : Branch g rho d beta) :
    HasDerivAt (fun t => g.pll (beta t) (g.pen (expv (onLine rho d t)))) (∑ i, d i * (expv rho i * (beta 0 ⬝ᵥ (g.S i *ᵥ beta 0)) / 2)) 0 := by
  have hb := branch_deriv h
  have h1 : HasDerivAt (fun t => g.loglike (beta t)) (g.grad (beta 0) ⬝ᵥ g.Bd (beta 0) rho d) 0 :=
    (loglike_fderiv h.ok (beta 0)).comp_hasDerivAt (0 : ℝ) (VD_iff.1 hb)
  have h2 := (dot_deriv hb (VD.mulVec (pen_deriv (g := g) (rho := rho) (d := d)) hb)).div_const 2
  refine (h1.add h2).congr_deriv ?_
  have hst : g.gradP (beta 0) (g.pen (expv rho)) = 0 := by
    have := h.stat.self_of_nhds
    rwa [onLine_zero] at this
  have e1 : g.grad (beta 0) = -(g.pen (expv rho) *ᵥ beta 0) := eq_neg_of_add_eq_zero_left hst
  have e3 := dot_symm (pen_symm h.symm (expv rho)) (beta 0) (g.Bd (beta 0) rho d)
  have e4 : beta 0 ⬝ᵥ (g.pen (fun i => d i * expv rho i) *ᵥ beta 0) = ∑ i, d i * (expv rho i * (beta 0 ⬝ᵥ (g.S i *ᵥ beta 0))) := by
    rw [pen_mulVec, dotProduct_sum]
    exact Finset.sum_congr rfl fun i _ => by rw [dotProduct_smul, smul_eq_mul, mul_assoc]
  rw [dotProduct_add, onLine_zero, e3, e4, e1, neg_dotProduct, dotProduct_comm (g.pen (expv rho) *ᵥ beta 0)]
  have e5 : ∑ i, d i * (expv rho i * (beta 0 ⬝ᵥ (g.S i *ᵥ beta 0)) / 2) = (∑ i, d i * (expv rho i * (beta 0 ⬝ᵥ (g.S i *ᵥ beta 0)))) / 2 := by
    rw [Finset.sum_div]
    exact Finset.sum_congr rfl fun i _ => by ring
  rw [e5]
  ring

/-- **C158** `gradient` is the gradient of `reml` in the log smoothing parameters, the coefficients following a continuous branch of
stationary points; it needs smooths in the location, or none at all. -/
theorem C158_gradient (h : Branch g rho d beta) (hsr : s ≠ 0 ∨ r = 0) : ∃ (gr : Fin s ⊕ Fin r → ℝ) (f : ℝ → ℝ), g.gradient (beta 0) rho = some gr ∧
    (∀ t, g.reml (beta t) (onLine rho d t) = some (f t)) ∧ HasDerivAt f (∑ i, gr i * d i) 0 := by
  have hl : ∀ x, g.logdetS x = some (∑ i, (g.rm i * x (.inl i) + g.ldm i) + ∑ j, (g.rs j * x (.inr j) + g.lds j)) := fun x => by
    rw [Ls.logdetS, if_neg (by tauto)]
  refine ⟨_, fun t => -(-g.pll (beta t) (g.pen (expv (onLine rho d t))) + (∑ i, (g.rm i * onLine rho d t (.inl i) + g.ldm i) +
      ∑ j, (g.rs j * onLine rho d t (.inr j) + g.lds j)) / 2 - Real.log |(g.Hp rho d beta t).det| / 2 + g.mp * Real.log (2 * Real.pi) / 2),
    gradient_some h.unit, fun t => ?_, ?_⟩
  · simp only [Ls.reml, hl, Option.bind_eq_bind, Option.bind_some]
    rfl
  · have hid : ∀ i, HasDerivAt (fun t => onLine rho d t i) (d i) 0 := fun i => by
      simpa [onLine] using ((hasDerivAt_id (0 : ℝ)).mul_const (d i)).const_add (rho i)
    have h1 := HasDerivAt.fun_sum (u := Finset.univ) fun i (_ : i ∈ (Finset.univ : Finset (Fin s))) => ((hid (.inl i)).const_mul (g.rm i)).add_const (g.ldm i)
    have h2 := HasDerivAt.fun_sum (u := Finset.univ) fun i (_ : i ∈ (Finset.univ : Finset (Fin r))) => ((hid (.inr i)).const_mul (g.rs i)).add_const (g.lds i)
    have h3 := (logdet_deriv (Hp_deriv h) (Hp_unit0 h)).div_const 2
    have h4 := ((((pll_deriv h).fun_neg.fun_add ((h1.fun_add h2).div_const 2)).fun_sub h3).add_const (g.mp * Real.log (2 * Real.pi) / 2)).fun_neg
    refine h4.congr_deriv ?_
    have e1 : (g.Hp rho d beta 0)⁻¹ = g.A (beta 0) rho := by rw [Hp_zero]; rfl
    have e2 : ∑ i, g.rm i * d (.inl i) + ∑ j, g.rs j * d (.inr j) = ∑ i, g.ranks i * d i := by
      rw [Fintype.sum_sum_type]; rfl
    have e3 : ∑ i, g.gI (beta 0) rho i * d i = ∑ i, d i * (expv rho i * (beta 0 ⬝ᵥ (g.S i *ᵥ beta 0)) / 2) - (∑ i, g.ranks i * d i) / 2 +
        (g.A (beta 0) rho * g.Md (beta 0) rho d).trace / 2 := by
      rw [Md_eq, Matrix.mul_sum, Matrix.trace_sum, Finset.sum_div, Finset.sum_div, ← Finset.sum_sub_distrib, ← Finset.sum_add_distrib]
      refine Finset.sum_congr rfl fun i _ => ?_
      rw [Ls.gI, Matrix.mul_smul, Matrix.trace_smul, smul_eq_mul]
      ring
    rw [e1, e2, e3]
    ring

/-- **C158** Violated: with smooths in the scale and none in the location the criterion cannot be evaluated. -/
theorem C158_gradient_violated (g : Ls n p q 0 (r + 1)) (b : Cf p q → ℝ) (rho : Fin 0 ⊕ Fin (r + 1) → ℝ) : g.reml b rho = none := by
  simp [Ls.reml, Ls.logdetS]

/-! ### Second derivatives -/

theorem d2H_sum (b u : Cf p q → ℝ) (v z : Fin s ⊕ Fin r → Cf p q → ℝ) (d : Fin s ⊕ Fin r → ℝ) :
    g.d2H b u (∑ i, d i • v i) (∑ i, d i • z i) = ∑ i, d i • g.d2H b u (v i) (z i) := by
  have em : ∀ (v : Fin s ⊕ Fin r → Cf p q → ℝ) k, g.etam (∑ i, d i • v i) k = ∑ i, d i * g.etam (v i) k := fun v k => by
    simp only [etam_apply, Finset.sum_apply, Pi.smul_apply, smul_eq_mul, Finset.mul_sum]
    rw [Finset.sum_comm]
    exact Finset.sum_congr rfl fun i _ => Finset.sum_congr rfl fun j _ => by ring
  have es : ∀ (v : Fin s ⊕ Fin r → Cf p q → ℝ) k, g.etas (∑ i, d i • v i) k = ∑ i, d i * g.etas (v i) k := fun v k => by
    simp only [etas_apply, Finset.sum_apply, Pi.smul_apply, smul_eq_mul, Finset.mul_sum]
    rw [Finset.sum_comm]
    exact Finset.sum_congr rfl fun i _ => Finset.sum_congr rfl fun j _ => by ring
  have key : ∀ (c1 c2 c3 c4 c5 c6 : ℝ) (a1 a2 a3 a4 : Fin s ⊕ Fin r → ℝ),
      c1 * ∑ i, d i * a1 i + c2 * ∑ i, d i * a2 i + c3 * ∑ i, d i * a1 i + c4 * ∑ i, d i * a2 i + c5 * ∑ i, d i * a3 i + c6 * ∑ i, d i * a4 i =
      ∑ i, d i * (c1 * a1 i + c2 * a2 i + c3 * a1 i + c4 * a2 i + c5 * a3 i + c6 * a4 i) := fun c1 c2 c3 c4 c5 c6 a1 a2 a3 a4 => by
    simp only [Finset.mul_sum, ← Finset.sum_add_distrib]
    exact Finset.sum_congr rfl fun i _ => by ring
  ext (i | i) (j | j) <;>
  · simp only [Matrix.sum_apply, Matrix.smul_apply, smul_eq_mul, Ls.d2H, blocks_ll, blocks_lr, blocks_rl, blocks_rr, em, es, mul_neg, Finset.sum_neg_distrib, neg_inj,
      key]
    simp only [Finset.mul_sum, Finset.sum_mul]
    rw [Finset.sum_comm]
    exact Finset.sum_congr rfl fun _ _ => Finset.sum_congr rfl fun _ _ => by ring

/-- `hessian` above the diagonal. -/
noncomputable def Ls.hI (g : Ls n p q s r) (b : Cf p q → ℝ) (rho : Fin s ⊕ Fin r → ℝ) (i j : Fin s ⊕ Fin r) : ℝ :=
  (if i = j then 1 else 0) * expv rho i / 2 * (b ⬝ᵥ (g.S i *ᵥ b)) + -(g.B1 b rho i ⬝ᵥ ((g.hess b + g.pen (expv rho)) *ᵥ g.B1 b rho j)) +
    -((g.A b rho * g.Mi b rho i * g.A b rho * g.Mi b rho j).trace -
      (g.A b rho * (g.d2H b (g.B1 b rho i) (g.B1 b rho j) (g.B2 b rho i j) + ((if i = j then 1 else 0) * expv rho i) • g.S i)).trace) / 2

theorem trace_cycle (A M N : CM p q) : (A * M * A * N).trace = (A * N * A * M).trace := by
  rw [Matrix.mul_assoc (A * M), Matrix.trace_mul_comm, ← Matrix.mul_assoc]

theorem hI_symm (hs : ∀ i, (g.S i)ᵀ = g.S i) (b : Cf p q → ℝ) (i j : Fin s ⊕ Fin r) : g.hI b rho i j = g.hI b rho j i := by
  have hh : (g.hess b + g.pen (expv rho))ᵀ = g.hess b + g.pen (expv rho) := by rw [Matrix.transpose_add, hess_symm, pen_symm hs]
  by_cases h : i = j
  · subst h; rfl
  · rw [Ls.hI, Ls.hI, trace_cycle, dot_symm hh, d2H_swap, B2_symm, if_neg h, if_neg (Ne.symm h)]
    simp

theorem hessian_some (hs : ∀ i, (g.S i)ᵀ = g.S i) {b : Cf p q → ℝ} (h : IsUnit (g.hess b + g.pen (expv rho)).det) :
    g.hessian b rho = some (g.hI b rho) := by
  have h2 : g.d2hess b (expv rho) = some fun i j => g.d2H b (g.B1 b rho i) (g.B1 b rho j) (g.B2 b rho i j) := by
    simp only [Ls.d2hess, gradBeta_some h, hessBeta_some h, Option.bind_eq_bind, Option.bind_some]
    congr 1
    funext i j
    split
    · rfl
    · rw [d2H_swap, B2_symm]
  simp only [Ls.hessian, dhess_some h, h2, gradBeta_some h, inv?_some h, Option.bind_eq_bind, Option.bind_some]
  congr 1
  funext i j
  have e : ∀ i, g.dH b (g.B1 b rho i) + expv rho i • g.S i = g.Mi b rho i := fun i => by rw [Ls.Mi, add_comm]
  simp only [e]
  split
  · rfl
  · exact hI_symm hs b j i

theorem MD.fsmul {ι κ : Type*} {c : ℝ → ℝ} {c' : ℝ} (hc : HasDerivAt c c' 0) (M : Matrix ι κ ℝ) : MD (fun t => c t • M) (c' • M) :=
  fun i j => hc.mul_const (M i j)

theorem gI_deriv (h : Branch g rho d beta) (i : Fin s ⊕ Fin r) :
    HasDerivAt (fun t => g.gI (beta t) (onLine rho d t) i) (∑ j, g.hI (beta 0) rho i j * d j) 0 := by
  have hb := branch_deriv h
  have h1 : VD (fun t => g.S i *ᵥ beta t) (g.S i *ᵥ g.Bd (beta 0) rho d) := (VD.mulVec (MD.const (g.S i)) hb).congr (by simp)
  have h2 := ((((dot_deriv hb h1).mul (lam_deriv rho d i)).div_const 2).sub_const (g.ranks i / 2))
  have h3 : MD (fun t => g.Mi (beta t) (onLine rho d t) i) ((d i * expv rho i) • g.S i + g.d2H (beta 0) (g.B1 (beta 0) (onLine rho d 0) i) (g.Bd (beta 0) rho d)
      (∑ j, d j • g.B2 (beta 0) rho i j)) :=
    (MD.fsmul (lam_deriv rho d i) (g.S i)).add (dH_deriv h.ok hb (B1_deriv h i))
  have h4 := (trace_deriv ((A_deriv h).mul h3)).div_const 2
  refine (h2.add h4).congr_deriv ?_
  simp only [onLine_zero]
  have hh : (g.hess (beta 0) + g.pen (expv rho))ᵀ = g.hess (beta 0) + g.pen (expv rho) := by rw [Matrix.transpose_add, hess_symm, pen_symm h.symm]
  have hu := h.unit
  clear h4 h3 h2 h1 hb
  generalize beta 0 = b at *
  rw [Ls.Bd, d2H_sum, ← Ls.Bd]
  have e0 : g.hess b + g.pen (expv rho) = g.hess b + g.pen (expv rho) := rfl
  have eH : (g.hess b + g.pen (expv rho)) *ᵥ g.B1 b rho i = (-expv rho i) • (g.S i *ᵥ b) := by
    rw [Ls.B1, Ls.A, Matrix.mulVec_smul, Matrix.mulVec_mulVec, Matrix.mul_nonsing_inv _ hu, Matrix.one_mulVec]
  have e1 : ∑ j, d j * (g.B1 b rho i ⬝ᵥ ((g.hess b + g.pen (expv rho)) *ᵥ g.B1 b rho j)) = -expv rho i * (g.Bd b rho d ⬝ᵥ (g.S i *ᵥ b)) := by
    have : ∀ j, g.B1 b rho i ⬝ᵥ ((g.hess b + g.pen (expv rho)) *ᵥ g.B1 b rho j) = -expv rho i * (g.B1 b rho j ⬝ᵥ (g.S i *ᵥ b)) := fun j => by
      rw [dot_symm hh, eH, dotProduct_smul, smul_eq_mul]
    simp only [this, Ls.Bd, sum_dotProduct, smul_dotProduct, smul_eq_mul, Finset.mul_sum]
    exact Finset.sum_congr rfl fun j _ => by ring
  have e2 : ∑ j, d j * (g.A b rho * g.Mi b rho i * g.A b rho * g.Mi b rho j).trace = (g.A b rho * g.Md b rho d * g.A b rho * g.Mi b rho i).trace := by
    rw [trace_cycle, Md_eq, Matrix.mul_sum, Matrix.trace_sum]
    exact Finset.sum_congr rfl fun j _ => by rw [Matrix.mul_smul, Matrix.trace_smul, smul_eq_mul]
  have e3 : ∑ j, d j * (g.A b rho * (g.d2H b (g.B1 b rho i) (g.B1 b rho j) (g.B2 b rho i j) + ((if i = j then 1 else 0) * expv rho i) • g.S i)).trace =
      (g.A b rho * ((d i * expv rho i) • g.S i + ∑ j, d j • g.d2H b (g.B1 b rho i) (g.B1 b rho j) (g.B2 b rho i j))).trace := by
    simp only [Matrix.mul_add, Matrix.trace_add, Matrix.mul_smul, Matrix.trace_smul, smul_eq_mul, mul_add, Finset.sum_add_distrib, Matrix.mul_sum, Matrix.trace_sum]
    rw [add_comm]
    congr 1
    rw [Finset.sum_eq_single i]
    · simp [mul_assoc]
    · intro j _ hj; simp [Ne.symm hj]
    · simp
  have e4 : ∑ j, d j * ((if i = j then (1 : ℝ) else 0) * expv rho i / 2 * (b ⬝ᵥ (g.S i *ᵥ b))) = d i * (expv rho i / 2 * (b ⬝ᵥ (g.S i *ᵥ b))) := by
    rw [Finset.sum_eq_single i]
    · simp
    · intro j _ hj; simp [Ne.symm hj]
    · simp
  have e5 : ∑ j, g.hI b rho i j * d j = ∑ j, d j * ((if i = j then (1 : ℝ) else 0) * expv rho i / 2 * (b ⬝ᵥ (g.S i *ᵥ b)))
      - ∑ j, d j * (g.B1 b rho i ⬝ᵥ ((g.hess b + g.pen (expv rho)) *ᵥ g.B1 b rho j))
      - (∑ j, d j * (g.A b rho * g.Mi b rho i * g.A b rho * g.Mi b rho j).trace) / 2
      + (∑ j, d j * (g.A b rho * (g.d2H b (g.B1 b rho i) (g.B1 b rho j) (g.B2 b rho i j) + ((if i = j then 1 else 0) * expv rho i) • g.S i)).trace) / 2 := by
    rw [Finset.sum_div, Finset.sum_div, ← Finset.sum_sub_distrib, ← Finset.sum_sub_distrib, ← Finset.sum_add_distrib]
    exact Finset.sum_congr rfl fun j _ => by rw [Ls.hI]; ring
  have hSi : b ⬝ᵥ (g.S i *ᵥ g.Bd b rho d) = g.Bd b rho d ⬝ᵥ (g.S i *ᵥ b) := dot_symm (h.symm i) _ _
  rw [e5, e1, e2, e3, e4, hSi, Matrix.trace_add, Matrix.neg_mul, Matrix.trace_neg]
  ring

/-- **C158** `hessian` is the Jacobian of `gradient` along any line of log smoothing parameters, and is symmetric. -/
theorem C158_hessian (h : Branch g rho d beta) : ∃ H, g.hessian (beta 0) rho = some H ∧ (∀ i j, H i j = H j i) ∧
    (∀ᶠ t in nhds 0, g.gradient (beta t) (onLine rho d t) = some (g.gI (beta t) (onLine rho d t))) ∧
    ∀ i, HasDerivAt (fun t => g.gI (beta t) (onLine rho d t) i) (∑ j, H i j * d j) 0 :=
  ⟨_, hessian_some h.symm h.unit, hI_symm h.symm _, (Hp_units h).mono fun _ ht => gradient_some ht, gI_deriv h⟩

end Verif.Gam.Gauls
