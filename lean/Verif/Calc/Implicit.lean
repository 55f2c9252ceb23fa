import Verif.Calc.Matrix
import Mathlib.Analysis.Calculus.FDeriv.Linear
import Mathlib.Analysis.Calculus.FDeriv.Pi
import Mathlib.Analysis.Calculus.Deriv.Prod
import Mathlib.Analysis.Calculus.FDeriv.Add
import Mathlib.LinearAlgebra.Matrix.ToLin
import Mathlib.Topology.Algebra.Module.FiniteDimension
import Mathlib.Analysis.Normed.Module.FiniteDimension
/-!
# The derivative of a branch of stationary points

A continuous branch of solutions of `G b + S t *ᵥ b = 0` is differentiable where the derivative of the left side is invertible.
-/
namespace Verif.Calc
open Matrix Asymptotics Filter Topology

variable {ι : Type*} [Fintype ι] [DecidableEq ι]

/-- A matrix as a continuous linear map. -/
noncomputable def mv (A : Matrix ι ι ℝ) : (ι → ℝ) →L[ℝ] (ι → ℝ) := LinearMap.toContinuousLinearMap (Matrix.mulVecLin A)

@[simp] theorem mv_apply (A : Matrix ι ι ℝ) (v : ι → ℝ) : mv A v = A *ᵥ v := rfl

theorem VD_iff {v : ℝ → ι → ℝ} {v' : ι → ℝ} : VD v v' ↔ HasDerivAt v v' 0 := (hasDerivAt_pi (φ := v)).symm

/-- The chain rule along a curve. -/
theorem VD.comp {G : (ι → ℝ) → ι → ℝ} {A : Matrix ι ι ℝ} {b : ℝ → ι → ℝ} {b' : ι → ℝ} (hG : HasFDerivAt G (mv A) (b 0)) (hb : VD b b') :
    VD (fun t => G (b t)) (A *ᵥ b') :=
  VD_iff.2 (hG.comp_hasDerivAt (0 : ℝ) (VD_iff.1 hb))

theorem implicit {G : (ι → ℝ) → ι → ℝ} {H : Matrix ι ι ℝ} {S : ℝ → Matrix ι ι ℝ} {S' : Matrix ι ι ℝ} {b : ℝ → ι → ℝ}
    (hG : HasFDerivAt G (mv H) (b 0)) (hS : MD S S') (hst : ∀ᶠ t in 𝓝 0, G (b t) + S t *ᵥ b t = 0) (hc : ContinuousAt b 0)
    (hu : IsUnit (H + S 0).det) : VD b (-((H + S 0)⁻¹ *ᵥ (S' *ᵥ b 0))) := by
  obtain ⟨K, hK⟩ : ∃ K, K = (H + S 0)⁻¹ := ⟨_, rfl⟩
  have hKH : K * (H + S 0) = 1 := by rw [hK]; exact Matrix.nonsing_inv_mul _ hu
  -- remainders
  let e : ℝ → ι → ℝ := fun t => G (b t) - G (b 0) - H *ᵥ (b t - b 0)
  let f : ℝ → ι → ℝ := fun t => (S t - S 0) *ᵥ (b t - b 0)
  let h : ℝ → ι → ℝ := fun t => (S t - S 0) *ᵥ b 0
  have he : e =o[𝓝 0] fun t => b t - b 0 := by
    have := hG.isLittleO.comp_tendsto hc
    exact this
  have hid : ∀ᶠ t in 𝓝 0, b t - b 0 + K *ᵥ (e t + f t) = -(K *ᵥ h t) := by
    filter_upwards [hst] with t ht
    have h0 := hst.self_of_nhds
    have e1 : (H + S 0) *ᵥ (b t - b 0) + (e t + f t) = -h t := by
      have g1 : G (b t) = -(S t *ᵥ b t) := eq_neg_of_add_eq_zero_left ht
      have g0 : G (b 0) = -(S 0 *ᵥ b 0) := eq_neg_of_add_eq_zero_left h0
      simp only [e, f, h, g1, g0, Matrix.add_mulVec, Matrix.sub_mulVec, Matrix.mulVec_sub]
      abel
    have e2 := congrArg (fun v => K *ᵥ v) e1
    simp only [Matrix.mulVec_add, Matrix.mulVec_mulVec, hKH, Matrix.one_mulVec, Matrix.mulVec_neg] at e2
    rw [Matrix.mulVec_add]
    exact e2
  have hSc : ∀ i j, Tendsto (fun t => (S t - S 0) i j) (𝓝 0) (𝓝 0) := fun i j => by
    have := (hS i j).continuousAt.tendsto.sub_const (S 0 i j)
    simpa using this
  have hf : f =o[𝓝 0] fun t => b t - b 0 := by
    rw [isLittleO_pi (f := f)]
    intro i
    have : (fun t => f t i) = fun t => ∑ j, (S t - S 0) i j * (b t - b 0) j := rfl
    rw [this]
    refine IsLittleO.fun_sum fun j _ => ?_
    have h1 : (fun t => (S t - S 0) i j) =o[𝓝 0] (fun _ => (1 : ℝ)) := (isLittleO_one_iff ℝ).2 (hSc i j)
    have h2 : (fun t => (b t - b 0) j) =O[𝓝 0] fun t => b t - b 0 := isBigO_of_le _ fun t => norm_le_pi_norm (b t - b 0) j
    have h3 := h1.mul_isBigO h2.norm_right
    refine (h3.congr_right fun t => one_mul _).of_norm_right
  have hef : (fun t => K *ᵥ (e t + f t)) =o[𝓝 0] fun t => b t - b 0 :=
    ((mv K).isBigO_comp (fun t => e t + f t) (𝓝 0)).trans_isLittleO (he.add hf)
  have hh : HasDerivAt h (S' *ᵥ b 0) 0 := by
    have := VD.mulVec (hS.sub (MD.const (S 0))) (VD.const (b 0))
    refine VD_iff.1 (this.congr ?_)
    simp
  have hKh : HasDerivAt (fun t => -(K *ᵥ h t)) (-(K *ᵥ (S' *ᵥ b 0))) 0 := ((mv K).hasFDerivAt.comp_hasDerivAt (0 : ℝ) hh).neg
  have h00 : -(K *ᵥ h 0) = 0 := by simp [h]
  have hO : (fun t => -(K *ᵥ h t)) =O[𝓝 0] fun t : ℝ => t := by
    have := hKh.isBigO_sub
    simpa only [h00, sub_zero] using this
  have hbO : (fun t => b t - b 0) =O[𝓝 0] fun t : ℝ => t := by
    have h1 := hef.right_isBigO_add
    refine h1.trans (hO.congr' ?_ EventuallyEq.rfl)
    filter_upwards [hid] with t ht
    rw [← ht, add_comm]
  have hlo : (fun t => K *ᵥ (e t + f t)) =o[𝓝 0] fun t : ℝ => t := hef.trans_isBigO hbO
  have hd : HasDerivAt (fun t => K *ᵥ (e t + f t)) 0 0 := by
    rw [hasDerivAt_iff_isLittleO]
    have h0 : K *ᵥ (e 0 + f 0) = 0 := by simp [e, f]
    simpa only [h0, sub_zero, smul_zero] using hlo
  have hfin : HasDerivAt (fun t => b 0 + (-(K *ᵥ h t) - K *ᵥ (e t + f t))) (-(K *ᵥ (S' *ᵥ b 0))) 0 := by
    have := (hKh.fun_sub hd).const_add (b 0)
    simpa using this
  rw [← hK]
  refine VD_iff.2 (hfin.congr_of_eventuallyEq ?_)
  filter_upwards [hid] with t ht
  rw [← ht]
  abel

end Verif.Calc
