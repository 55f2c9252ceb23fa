import Verif.Gam.Gcv
import Verif.Fa.RotationProps
import Verif.Calc.Matrix
import Mathlib.LinearAlgebra.Matrix.PosDef
import Mathlib.Analysis.Matrix.Order
import Mathlib.Analysis.Calculus.Deriv.MeanValue
import Mathlib.Analysis.Calculus.Deriv.Shift

namespace Verif.Gam
open Matrix Verif.Fa Verif.Calc

variable {n p : ℕ} {X : Matrix (Fin n) (Fin p) ℝ} {S : Matrix (Fin p) (Fin p) ℝ}

/-- The hat matrix where the penalised Gram matrix is invertible. -/
noncomputable def hat (X : Matrix (Fin n) (Fin p) ℝ) (S : Matrix (Fin p) (Fin p) ℝ) (a : ℝ) : Matrix (Fin n) (Fin n) ℝ :=
  X * (Xᵀ * X + a • S)⁻¹ * Xᵀ

/-- `M` of the gradients. -/
noncomputable def hatD (X : Matrix (Fin n) (Fin p) ℝ) (S : Matrix (Fin p) (Fin p) ℝ) (a : ℝ) : Matrix (Fin n) (Fin n) ℝ :=
  X * (Xᵀ * X + a • S)⁻¹ * S * (Xᵀ * X + a • S)⁻¹ * Xᵀ

theorem hat?_unit {a : ℝ} (h : IsUnit (Xᵀ * X + a • S).det) : hat? a X S = some (hat X S a) := by
  rw [hat?, inv?_unit h]; rfl

theorem hat_deriv {a : ℝ} (h : IsUnit (Xᵀ * X + a • S).det) : MD (fun t => hat X S (a + t)) (-hatD X S a) := by
  have h1 : MD (fun t => (Xᵀ * X + a • S) + t • S) S := MD.line _ _
  have h2 := h1.inv (by simpa using h)
  have h3 := ((MD.const X).mul h2).mul (MD.const Xᵀ)
  have e : (fun t => hat X S (a + t)) = fun t => X * ((Xᵀ * X + a • S) + t • S)⁻¹ * Xᵀ := by
    funext t; simp only [hat, add_smul, add_assoc]
  rw [e]
  refine h3.congr ?_
  simp only [zero_smul, add_zero, Matrix.mul_zero, Matrix.zero_mul, zero_add, hatD, Matrix.mul_neg, Matrix.neg_mul, Matrix.mul_assoc]

theorem eventually_unit {a : ℝ} (h : IsUnit (Xᵀ * X + a • S).det) : ∀ᶠ t in nhds a, IsUnit (Xᵀ * X + t • S).det := by
  have h1 : MD (fun t => (Xᵀ * X + a • S) + t • S) S := MD.line _ _
  have h2 := h1.eventually_isUnit (by simpa using h)
  have h3 : Filter.Tendsto (fun t => t - a) (nhds a) (nhds 0) := by
    have h : Continuous fun t : ℝ => t - a := continuous_id.sub continuous_const
    simpa using h.tendsto a
  refine (h3.eventually h2).mono fun t ht => ?_
  rwa [add_assoc, ← add_smul, add_sub_cancel] at ht

/-- Derivative at `a` from derivative at zero of the shifted function. -/
theorem shift_deriv {f : ℝ → ℝ} {f' a : ℝ} (h : HasDerivAt (fun t => f (a + t)) f' 0) : HasDerivAt f f' a := by
  have h' : HasDerivAt (fun t => f (a + t)) f' (-a + a) := by simpa using h
  have := h'.comp_const_add (-a) a
  simpa using this

theorem resid_deriv {a : ℝ} (h : IsUnit (Xᵀ * X + a • S).det) (y : Fin n → ℝ) :
    VD (fun t => y - hat X S (a + t) *ᵥ y) (hatD X S a *ᵥ y) := by
  have := (VD.const y).sub (VD.mulVec (hat_deriv h) (VD.const y))
  refine this.congr ?_
  simp [Matrix.neg_mulVec]

/-- The residual sum of squares as a function of the penalty. -/
noncomputable def rss (X : Matrix (Fin n) (Fin p) ℝ) (S : Matrix (Fin p) (Fin p) ℝ) (y : Fin n → ℝ) (a : ℝ) : ℝ :=
  (y - hat X S a *ᵥ y) ⬝ᵥ (y - hat X S a *ᵥ y)

theorem rss_deriv {a : ℝ} (h : IsUnit (Xᵀ * X + a • S).det) (y : Fin n → ℝ) :
    HasDerivAt (rss X S y) (2 * ((y - hat X S a *ᵥ y) ⬝ᵥ (hatD X S a *ᵥ y))) a := by
  refine shift_deriv ((dot_deriv (resid_deriv h y) (resid_deriv h y)).congr_deriv ?_)
  simp only [add_zero]
  rw [dotProduct_comm (hatD X S a *ᵥ y), two_mul]

theorem edf_deriv {a : ℝ} (h : IsUnit (Xᵀ * X + a • S).det) : HasDerivAt (fun a => (hat X S a).trace) (-(hatD X S a).trace) a := by
  refine shift_deriv ((trace_deriv (hat_deriv h)).congr_deriv ?_)
  rw [Matrix.trace_neg]

theorem double_eq {γ a : ℝ} (h : IsUnit (Xᵀ * X + a • S).det) (y : Fin n → ℝ) :
    doubleGcv γ a X y S = some (n * rss X S y a / (n - γ * (hat X S a).trace) ^ 2) := by
  rw [doubleGcv, hat?_unit h]; rfl

/-- **C122** `grad_double_gcv` is the derivative of `double_gcv` in the penalty, wherever the
penalised Gram matrix is invertible and the denominator is not zero. -/
theorem C122_gradient {γ a : ℝ} (h : IsUnit (Xᵀ * X + a • S).det) (y : Fin n → ℝ) (hu : (n : ℝ) - γ * (hat X S a).trace ≠ 0) :
    ∃ g, gradDoubleGcv γ a X y S = some g ∧ HasDerivAt (fun a => (doubleGcv γ a X y S).getD 0) g a := by
  refine ⟨_, by rw [gradDoubleGcv, inv?_unit h]; rfl, ?_⟩
  have hev : (fun a => (doubleGcv γ a X y S).getD 0) =ᶠ[nhds a]
      fun a => n * rss X S y a / (n - γ * (hat X S a).trace) ^ 2 :=
    (eventually_unit h).mono fun t ht => by simp only [double_eq ht, Option.getD_some]
  refine HasDerivAt.congr_of_eventuallyEq ?_ hev
  have hd := ((rss_deriv h y).const_mul (n : ℝ)).div ((((edf_deriv h).const_mul γ).const_sub (n : ℝ)).pow 2) (pow_ne_zero 2 hu)
  refine hd.congr_deriv ?_
  have e1 : X * (Xᵀ * X + a • S)⁻¹ * Xᵀ = hat X S a := rfl
  have e2 : X * (Xᵀ * X + a • S)⁻¹ * S * (Xᵀ * X + a • S)⁻¹ * Xᵀ = hatD X S a := rfl
  simp only [e1, e2, rss, dotProduct_sub, dotProduct_smul, smul_eq_mul, Pi.pow_apply]
  rw [← dotProduct_sub]
  obtain ⟨u, hue⟩ : ∃ u, u = (n : ℝ) - γ * (hat X S a).trace := ⟨_, rfl⟩
  obtain ⟨q, hq⟩ : ∃ q, q = (y - hat X S a *ᵥ y) ⬝ᵥ (y - hat X S a *ᵥ y) := ⟨_, rfl⟩
  obtain ⟨s, hs⟩ : ∃ s, s = (y - hat X S a *ᵥ y) ⬝ᵥ (hatD X S a *ᵥ y) := ⟨_, rfl⟩
  rw [← hue] at hu ⊢
  rw [← hq, ← hs]
  field_simp
  push_cast
  ring

/-- **C122** `gcv` is `double_gcv` with `gamma=1`, and so are the gradients. -/
theorem C122_gamma_one (a : ℝ) (X : Matrix (Fin n) (Fin p) ℝ) (y : Fin n → ℝ) (S : Matrix (Fin p) (Fin p) ℝ) :
    gcv a X y S = doubleGcv 1 a X y S ∧ gradGcv a X y S = gradDoubleGcv 1 a X y S := by
  constructor
  · simp only [gcv, doubleGcv, one_mul]
  · simp only [gradGcv, gradDoubleGcv, one_mul]

theorem C122_gradient_gcv {a : ℝ} (h : IsUnit (Xᵀ * X + a • S).det) (y : Fin n → ℝ) (hu : (n : ℝ) - (hat X S a).trace ≠ 0) :
    ∃ g, gradGcv a X y S = some g ∧ HasDerivAt (fun a => (gcv a X y S).getD 0) g a := by
  simp only [(C122_gamma_one _ X y S).1, (C122_gamma_one _ X y S).2]
  exact C122_gradient h y (by simpa using hu)

/-! ### Positive penalties -/

/-- No direction is invisible to both the data and the penalty. -/
def Ident (X : Matrix (Fin n) (Fin p) ℝ) (S : Matrix (Fin p) (Fin p) ℝ) : Prop :=
  ∀ v : Fin p → ℝ, X *ᵥ v = 0 → S *ᵥ v = 0 → v = 0

theorem gram_dot (X : Matrix (Fin n) (Fin p) ℝ) (v : Fin p → ℝ) : v ⬝ᵥ ((Xᵀ * X) *ᵥ v) = (X *ᵥ v) ⬝ᵥ (X *ᵥ v) := by
  rw [← Matrix.mulVec_mulVec, Matrix.dotProduct_mulVec, Matrix.vecMul_transpose]

theorem psd_zero (hS : S.PosSemidef) {v : Fin p → ℝ} (h : v ⬝ᵥ (S *ᵥ v) = 0) : S *ᵥ v = 0 := by
  have := (hS.dotProduct_mulVec_zero_iff v).1 (by simpa using h)
  exact this

theorem gram_posDef (hS : S.PosSemidef) (hi : Ident X S) {a : ℝ} (ha : 0 < a) : (Xᵀ * X + a • S).PosDef := by
  have hsym : (Xᵀ * X + a • S).IsHermitian := by
    have h1 : (Xᵀ * X).IsHermitian := by simpa using Matrix.isHermitian_conjTranspose_mul_self X
    have h2 : (a • S).IsHermitian := by
      have := hS.1
      rw [Matrix.IsHermitian, Matrix.conjTranspose_smul, this.eq]; simp
    exact h1.add h2
  refine Matrix.PosDef.of_dotProduct_mulVec_pos hsym fun v hv => ?_
  have e : star v ⬝ᵥ ((Xᵀ * X + a • S) *ᵥ v) = (X *ᵥ v) ⬝ᵥ (X *ᵥ v) + a * (v ⬝ᵥ (S *ᵥ v)) := by
    simp only [star_trivial, Matrix.add_mulVec, dotProduct_add, gram_dot, Matrix.smul_mulVec, dotProduct_smul, smul_eq_mul]
  rw [e]
  have h1 : 0 ≤ (X *ᵥ v) ⬝ᵥ (X *ᵥ v) := Finset.sum_nonneg fun i _ => mul_self_nonneg _
  have h2 : 0 ≤ v ⬝ᵥ (S *ᵥ v) := by simpa using hS.dotProduct_mulVec_nonneg v
  rcases h1.lt_or_eq with h1 | h1
  · nlinarith
  rcases h2.lt_or_eq with h2 | h2
  · nlinarith
  exact absurd (hi v (dotProduct_self_eq_zero.1 h1.symm) (psd_zero hS h2.symm)) hv

/-- **C122** With a positive semidefinite penalty that sees whatever the data do not, the scores are
defined at every positive penalty. -/
theorem C122_defined (hS : S.PosSemidef) (hi : Ident X S) {a : ℝ} (ha : 0 < a) (γ : ℝ) (y : Fin n → ℝ) :
    (doubleGcv γ a X y S).isSome ∧ (gradDoubleGcv γ a X y S).isSome := by
  have h : IsUnit (Xᵀ * X + a • S).det := (Matrix.isUnit_iff_isUnit_det _).1 (gram_posDef hS hi ha).isUnit
  rw [double_eq h, gradDoubleGcv, inv?_unit h]
  exact ⟨rfl, rfl⟩

theorem inv_symm (hS : S.PosSemidef) (a : ℝ) (X : Matrix (Fin n) (Fin p) ℝ) : ((Xᵀ * X + a • S)⁻¹)ᵀ = (Xᵀ * X + a • S)⁻¹ := by
  have h : Sᵀ = S := by simpa [Matrix.conjTranspose_eq_transpose_of_trivial] using hS.1.eq
  rw [Matrix.transpose_nonsing_inv]
  simp [Matrix.transpose_add, Matrix.transpose_mul, h]

theorem hatD_psd (hS : S.PosSemidef) (a : ℝ) : (hatD X S a).PosSemidef := by
  have := hS.mul_mul_conjTranspose_same (X * (Xᵀ * X + a • S)⁻¹)
  rw [Matrix.conjTranspose_eq_transpose_of_trivial, Matrix.transpose_mul, inv_symm hS] at this
  simpa only [hatD, Matrix.mul_assoc] using this

/-- **C122** The trace of the hat matrix (the effective degrees of freedom) decreases as the penalty
grows. -/
theorem C122_edf (hS : S.PosSemidef) (hi : Ident X S) : AntitoneOn (fun a => (hat X S a).trace) (Set.Ioi 0) := by
  have hd : ∀ a ∈ Set.Ioi (0 : ℝ), HasDerivAt (fun a => (hat X S a).trace) (-(hatD X S a).trace) a := fun a ha =>
    edf_deriv ((Matrix.isUnit_iff_isUnit_det _).1 (gram_posDef hS hi ha).isUnit)
  refine antitoneOn_of_deriv_nonpos (convex_Ioi 0) (fun a ha => (hd a ha).continuousAt.continuousWithinAt)
    (fun a ha => (hd a (interior_subset ha)).differentiableAt.differentiableWithinAt) fun a ha => ?_
  rw [(hd a (interior_subset ha)).deriv]
  exact neg_nonpos.2 (hatD_psd hS a).trace_nonneg

theorem resid_dot (hS : S.PosSemidef) {a : ℝ} (h : IsUnit (Xᵀ * X + a • S).det) (y : Fin n → ℝ) :
    (y - hat X S a *ᵥ y) ⬝ᵥ (hatD X S a *ᵥ y) =
      a * ((Sᵀ *ᵥ (((Xᵀ * X + a • S)⁻¹) *ᵥ (Xᵀ *ᵥ y))) ⬝ᵥ ((Xᵀ * X + a • S)⁻¹ *ᵥ (S *ᵥ ((Xᵀ * X + a • S)⁻¹ *ᵥ (Xᵀ *ᵥ y))))) := by
  have hsy := inv_symm hS a X
  obtain ⟨V, hV⟩ : ∃ V, V = (Xᵀ * X + a • S)⁻¹ := ⟨_, rfl⟩
  have hVK : V * (Xᵀ * X + a • S) = 1 := by rw [hV]; exact Matrix.nonsing_inv_mul _ h
  have hKV : (Xᵀ * X + a • S) * V = 1 := by rw [hV]; exact Matrix.mul_nonsing_inv _ h
  have hT : Sᵀ = S := by simpa [Matrix.conjTranspose_eq_transpose_of_trivial] using hS.1.eq
  have e1 : Xᵀ *ᵥ (y - hat X S a *ᵥ y) = a • (S *ᵥ (V *ᵥ (Xᵀ *ᵥ y))) := by
    have e2 : Xᵀ - Xᵀ * hat X S a = a • (S * V * Xᵀ) := by
      rw [hat, ← hV]
      have : Xᵀ = (Xᵀ * X + a • S) * V * Xᵀ := by rw [hKV, Matrix.one_mul]
      conv_lhs => lhs; rw [this]
      rw [Matrix.add_mul, Matrix.add_mul, Matrix.smul_mul, Matrix.smul_mul, ← Matrix.mul_assoc Xᵀ, ← Matrix.mul_assoc Xᵀ, add_sub_cancel_left]
    rw [Matrix.mulVec_sub, Matrix.mulVec_mulVec, ← Matrix.sub_mulVec, e2, Matrix.smul_mulVec, Matrix.mulVec_mulVec, Matrix.mulVec_mulVec, Matrix.mul_assoc]
  have e3 : hatD X S a *ᵥ y = X *ᵥ (V *ᵥ (S *ᵥ (V *ᵥ (Xᵀ *ᵥ y)))) := by
    rw [hatD, ← hV]; simp only [Matrix.mulVec_mulVec, Matrix.mul_assoc]
  rw [e3, Matrix.dotProduct_mulVec, ← Matrix.mulVec_transpose, e1, smul_dotProduct, ← hV, hT, smul_eq_mul]

/-- **C122** The residual sum of squares grows with the penalty. -/
theorem C122_rss (hS : S.PosSemidef) (hi : Ident X S) (y : Fin n → ℝ) : MonotoneOn (rss X S y) (Set.Ioi 0) := by
  have hU : ∀ a ∈ Set.Ioi (0 : ℝ), IsUnit (Xᵀ * X + a • S).det := fun a ha => (Matrix.isUnit_iff_isUnit_det _).1 (gram_posDef hS hi ha).isUnit
  have hd := fun a ha => rss_deriv (hU a ha) y
  refine monotoneOn_of_deriv_nonneg (convex_Ioi 0) (fun a ha => (hd a ha).continuousAt.continuousWithinAt)
    (fun a ha => (hd a (interior_subset ha)).differentiableAt.differentiableWithinAt) fun a ha => ?_
  have ha' : a ∈ Set.Ioi (0 : ℝ) := interior_subset ha
  rw [(hd a ha').deriv, resid_dot hS (hU a ha') y]
  have hT : Sᵀ = S := by simpa [Matrix.conjTranspose_eq_transpose_of_trivial] using hS.1.eq
  rw [hT]
  have hp := (gram_posDef hS hi ha').inv.posSemidef.dotProduct_mulVec_nonneg (S *ᵥ ((Xᵀ * X + a • S)⁻¹ *ᵥ (Xᵀ *ᵥ y)))
  simp only [star_trivial] at hp
  have : (0 : ℝ) < a := ha'
  positivity

/-- The penalised least squares criterion. -/
def pls (X : Matrix (Fin n) (Fin p) ℝ) (S : Matrix (Fin p) (Fin p) ℝ) (y : Fin n → ℝ) (a : ℝ) (b : Fin p → ℝ) : ℝ :=
  (y - X *ᵥ b) ⬝ᵥ (y - X *ᵥ b) + a * (b ⬝ᵥ (S *ᵥ b))

/-- **C122** `A y` are the fitted values of the unique minimiser of the penalised least squares
criterion. -/
theorem C122_fitted (hS : S.PosSemidef) (hi : Ident X S) {a : ℝ} (ha : 0 < a) (y : Fin n → ℝ) :
    ∃ b, hat X S a *ᵥ y = X *ᵥ b ∧ ∀ c, c ≠ b → pls X S y a b < pls X S y a c := by
  have hP := gram_posDef hS hi ha
  have hU := (Matrix.isUnit_iff_isUnit_det _).1 hP.isUnit
  have hT : Sᵀ = S := by simpa [Matrix.conjTranspose_eq_transpose_of_trivial] using hS.1.eq
  refine ⟨(Xᵀ * X + a • S)⁻¹ *ᵥ (Xᵀ *ᵥ y), by simp only [hat, Matrix.mulVec_mulVec, Matrix.mul_assoc], fun c hc => ?_⟩
  obtain ⟨b, hb⟩ : ∃ b, b = (Xᵀ * X + a • S)⁻¹ *ᵥ (Xᵀ *ᵥ y) := ⟨_, rfl⟩
  rw [← hb] at hc ⊢
  have hn : Xᵀ *ᵥ (X *ᵥ b) + a • (S *ᵥ b) = Xᵀ *ᵥ y := by
    have : (Xᵀ * X + a • S) *ᵥ b = Xᵀ *ᵥ y := by
      rw [hb, Matrix.mulVec_mulVec, Matrix.mul_nonsing_inv _ hU, Matrix.one_mulVec]
    rwa [Matrix.add_mulVec, Matrix.smul_mulVec, ← Matrix.mulVec_mulVec] at this
  obtain ⟨d, hd⟩ : ∃ d, d = c - b := ⟨_, rfl⟩
  have hc' : c = b + d := by rw [hd]; abel
  have hd0 : d ≠ 0 := by rw [hd]; exact sub_ne_zero.2 hc
  have hpos := hP.dotProduct_mulVec_pos hd0
  have e : star d ⬝ᵥ ((Xᵀ * X + a • S) *ᵥ d) = (X *ᵥ d) ⬝ᵥ (X *ᵥ d) + a * (d ⬝ᵥ (S *ᵥ d)) := by
    simp only [star_trivial, Matrix.add_mulVec, dotProduct_add, gram_dot, Matrix.smul_mulVec, dotProduct_smul, smul_eq_mul]
  rw [e] at hpos
  have hdot : (X *ᵥ d) ⬝ᵥ (X *ᵥ b) + a * (d ⬝ᵥ (S *ᵥ b)) = (X *ᵥ d) ⬝ᵥ y := by
    have := congrArg (fun v => d ⬝ᵥ v) hn
    simp only [dotProduct_add, dotProduct_smul, smul_eq_mul, Matrix.dotProduct_mulVec d Xᵀ, Matrix.vecMul_transpose] at this
    exact this
  have hs : b ⬝ᵥ (S *ᵥ d) = d ⬝ᵥ (S *ᵥ b) := by
    rw [Matrix.dotProduct_mulVec, ← Matrix.mulVec_transpose, hT, dotProduct_comm]
  rw [hc']
  simp only [pls, Matrix.mulVec_add, dotProduct_add, add_dotProduct, sub_dotProduct, dotProduct_sub, hs]
  rw [dotProduct_comm y (X *ᵥ d), dotProduct_comm (X *ᵥ b) (X *ᵥ d), dotProduct_comm y (X *ᵥ b)]
  nlinarith

example : Ident (1 : Matrix (Fin 2) (Fin 2) ℝ) 0 := fun v h _ => by simpa using h
example : (0 : Matrix (Fin 2) (Fin 2) ℝ).PosSemidef := Matrix.PosSemidef.zero

end Verif.Gam
