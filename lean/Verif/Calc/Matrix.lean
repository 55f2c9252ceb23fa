import Mathlib.Analysis.Calculus.Deriv.Mul
import Mathlib.Analysis.Calculus.Deriv.Add
import Mathlib.Analysis.Calculus.Deriv.Inv
import Mathlib.Analysis.Calculus.Deriv.Slope
import Mathlib.Analysis.SpecialFunctions.Log.Deriv
import Mathlib.Topology.Instances.Matrix
import Mathlib.LinearAlgebra.Matrix.Adjugate
import Mathlib.LinearAlgebra.Matrix.NonsingularInverse
import Mathlib.LinearAlgebra.Matrix.Trace
/-!
# Entrywise derivatives of matrix-valued functions of one real variable

`MD A A'` says that every entry of `A` has the corresponding entry of `A'` as derivative at 0.
-/
namespace Verif.Calc
open Matrix

variable {m n k : Type*}

/-- `A' ` is the (entrywise) derivative of `A` at `0`. -/
def MD (A : ℝ → Matrix m n ℝ) (A' : Matrix m n ℝ) : Prop :=
  ∀ i j, HasDerivAt (fun t => A t i j) (A' i j) 0

/-- Vector version. -/
def VD (v : ℝ → n → ℝ) (v' : n → ℝ) : Prop := ∀ i, HasDerivAt (fun t => v t i) (v' i) 0

theorem MD.congr {A : ℝ → Matrix m n ℝ} {A' B' : Matrix m n ℝ} (h : MD A A') (e : A' = B') :
    MD A B' := e ▸ h

theorem VD.congr {v : ℝ → n → ℝ} {v' w' : n → ℝ} (h : VD v v') (e : v' = w') : VD v w' := e ▸ h

theorem MD.const (A : Matrix m n ℝ) : MD (fun _ => A) 0 := fun i j => by
  simpa using hasDerivAt_const (0 : ℝ) (A i j)

theorem VD.const (v : n → ℝ) : VD (fun _ => v) 0 := fun i => by
  simpa using hasDerivAt_const (0 : ℝ) (v i)

theorem MD.line (A J : Matrix m n ℝ) : MD (fun t => A + t • J) J := fun i j => by
  have h := ((hasDerivAt_id (0 : ℝ)).mul_const (J i j)).const_add (A i j)
  simpa using h

theorem VD.line (a j : n → ℝ) : VD (fun t => a + t • j) j := fun i => by
  have h := ((hasDerivAt_id (0 : ℝ)).mul_const (j i)).const_add (a i)
  simpa using h

theorem MD.add {A B : ℝ → Matrix m n ℝ} {A' B' : Matrix m n ℝ} (hA : MD A A') (hB : MD B B') :
    MD (fun t => A t + B t) (A' + B') := fun i j => (hA i j).add (hB i j)

theorem MD.sub {A B : ℝ → Matrix m n ℝ} {A' B' : Matrix m n ℝ} (hA : MD A A') (hB : MD B B') :
    MD (fun t => A t - B t) (A' - B') := fun i j => (hA i j).sub (hB i j)

theorem MD.neg {A : ℝ → Matrix m n ℝ} {A' : Matrix m n ℝ} (hA : MD A A') :
    MD (fun t => - A t) (- A') := fun i j => (hA i j).neg

theorem MD.smul {A : ℝ → Matrix m n ℝ} {A' : Matrix m n ℝ} (c : ℝ) (hA : MD A A') :
    MD (fun t => c • A t) (c • A') := fun i j => (hA i j).const_mul c

theorem VD.add {v w : ℝ → n → ℝ} {v' w' : n → ℝ} (hv : VD v v') (hw : VD w w') :
    VD (fun t => v t + w t) (v' + w') := fun i => (hv i).add (hw i)

theorem VD.sub {v w : ℝ → n → ℝ} {v' w' : n → ℝ} (hv : VD v v') (hw : VD w w') :
    VD (fun t => v t - w t) (v' - w') := fun i => (hv i).sub (hw i)

theorem VD.neg {v : ℝ → n → ℝ} {v' : n → ℝ} (hv : VD v v') : VD (fun t => - v t) (- v') :=
  fun i => (hv i).neg

theorem MD.transpose {A : ℝ → Matrix m n ℝ} {A' : Matrix m n ℝ} (hA : MD A A') :
    MD (fun t => (A t)ᵀ) A'ᵀ := fun i j => hA j i

theorem MD.mul [Fintype n] {A : ℝ → Matrix m n ℝ} {B : ℝ → Matrix n k ℝ} {A' : Matrix m n ℝ}
    {B' : Matrix n k ℝ} (hA : MD A A') (hB : MD B B') :
    MD (fun t => A t * B t) (A' * B 0 + A 0 * B') := fun i j => by
  have h := HasDerivAt.fun_sum (u := Finset.univ) fun x _ => (hA i x).mul (hB x j)
  simp only [Matrix.mul_apply, Matrix.add_apply, ← Finset.sum_add_distrib]
  exact h

theorem VD.mulVec [Fintype n] {A : ℝ → Matrix m n ℝ} {v : ℝ → n → ℝ} {A' : Matrix m n ℝ}
    {v' : n → ℝ} (hA : MD A A') (hv : VD v v') :
    VD (fun t => A t *ᵥ v t) (A' *ᵥ v 0 + A 0 *ᵥ v') := fun i => by
  have h := HasDerivAt.fun_sum (u := Finset.univ) fun x _ => (hA i x).mul (hv x)
  simp only [Matrix.mulVec, dotProduct, Pi.add_apply, ← Finset.sum_add_distrib]
  exact h

theorem dot_deriv [Fintype n] {v w : ℝ → n → ℝ} {v' w' : n → ℝ} (hv : VD v v') (hw : VD w w') :
    HasDerivAt (fun t => v t ⬝ᵥ w t) (v' ⬝ᵥ w 0 + v 0 ⬝ᵥ w') 0 := by
  have h := HasDerivAt.fun_sum (u := Finset.univ) fun x _ => (hv x).mul (hw x)
  simp only [dotProduct, ← Finset.sum_add_distrib]
  exact h

theorem trace_deriv [Fintype n] {A : ℝ → Matrix n n ℝ} {A' : Matrix n n ℝ} (hA : MD A A') :
    HasDerivAt (fun t => (A t).trace) A'.trace 0 := by
  have h := HasDerivAt.fun_sum (u := Finset.univ) fun x _ => hA x x
  simpa only [Matrix.trace, Matrix.diag] using h

/-- Product of a continuous function and a differentiable one that vanishes at the point. -/
theorem hasDerivAt_mul_of_zero {u v : ℝ → ℝ} {v' : ℝ} (hu : ContinuousAt u 0)
    (hv : HasDerivAt v v' 0) (h0 : v 0 = 0) : HasDerivAt (fun t => u t * v t) (u 0 * v') 0 := by
  rw [hasDerivAt_iff_tendsto_slope] at hv ⊢
  have h1 : Filter.Tendsto u (nhdsWithin 0 {0}ᶜ) (nhds (u 0)) := hu.mono_left nhdsWithin_le_nhds
  have h2 := h1.mul hv
  refine h2.congr ?_
  intro t
  simp only [slope, h0, vsub_eq_sub, sub_zero, mul_zero, smul_eq_mul]
  ring

section inverse
variable [Fintype n] [DecidableEq n]

theorem MD.continuousAt {A : ℝ → Matrix n n ℝ} {A' : Matrix n n ℝ} (hA : MD A A') :
    ContinuousAt A 0 :=
  tendsto_pi_nhds.2 fun i => tendsto_pi_nhds.2 fun j => (hA i j).continuousAt

theorem MD.eventually_isUnit {A : ℝ → Matrix n n ℝ} {A' : Matrix n n ℝ} (hA : MD A A')
    (h0 : IsUnit (A 0).det) : ∀ᶠ t in nhds 0, IsUnit (A t).det := by
  have hc : ContinuousAt (fun t => (A t).det) 0 :=
    (Continuous.matrix_det (A := fun M : Matrix n n ℝ => M) continuous_id).continuousAt.comp
      hA.continuousAt
  have := hc.eventually_ne h0.ne_zero
  exact this.mono fun t ht => isUnit_iff_ne_zero.2 ht

theorem MD.inv_continuousAt {A : ℝ → Matrix n n ℝ} {A' : Matrix n n ℝ} (hA : MD A A')
    (h0 : IsUnit (A 0).det) (i j : n) : ContinuousAt (fun t => (A t)⁻¹ i j) 0 := by
  have hc : ContinuousAt (fun t => (A t).det) 0 :=
    (Continuous.matrix_det (A := fun M : Matrix n n ℝ => M) continuous_id).continuousAt.comp
      hA.continuousAt
  have ha : ContinuousAt (fun t => (A t).adjugate) 0 :=
    (Continuous.matrix_adjugate (A := fun M : Matrix n n ℝ => M) continuous_id).continuousAt.comp
      hA.continuousAt
  have haij : ContinuousAt (fun t => (A t).adjugate i j) 0 :=
    tendsto_pi_nhds.1 (tendsto_pi_nhds.1 ha i) j
  have he : (fun t => (A t)⁻¹ i j) = fun t => (A t).det⁻¹ * (A t).adjugate i j := by
    funext t
    rw [Matrix.inv_def, Ring.inverse_eq_inv', Matrix.smul_apply, smul_eq_mul]
  rw [he]
  exact (hc.inv₀ h0.ne_zero).mul haij

/-- Derivative of the matrix inverse. -/
theorem MD.inv {A : ℝ → Matrix n n ℝ} {A' : Matrix n n ℝ} (hA : MD A A')
    (h0 : IsUnit (A 0).det) :
    MD (fun t => (A t)⁻¹) (-((A 0)⁻¹ * A' * (A 0)⁻¹)) := by
  intro i j
  -- resolvent identity
  have hres : ∀ᶠ t in nhds 0, (A t)⁻¹ i j =
      (A 0)⁻¹ i j - ∑ l, (∑ k, (A t)⁻¹ i k * (A t k l - A 0 k l)) * (A 0)⁻¹ l j := by
    filter_upwards [hA.eventually_isUnit h0] with t ht
    have h1 : (A t)⁻¹ = (A 0)⁻¹ - (A t)⁻¹ * (A t - A 0) * (A 0)⁻¹ := by
      rw [Matrix.mul_sub, Matrix.nonsing_inv_mul _ ht, Matrix.sub_mul, Matrix.one_mul,
        Matrix.mul_assoc, Matrix.mul_nonsing_inv _ h0, Matrix.mul_one, sub_sub_cancel]
    conv_lhs => rw [h1]
    simp only [Matrix.sub_apply, Matrix.mul_apply]
  refine HasDerivAt.congr_of_eventuallyEq ?_ hres
  have hterm : ∀ k l, HasDerivAt (fun t => (A t)⁻¹ i k * (A t k l - A 0 k l))
      ((A 0)⁻¹ i k * A' k l) 0 := by
    intro k l
    exact hasDerivAt_mul_of_zero (hA.inv_continuousAt h0 i k) ((hA k l).sub_const _) (by simp)
  have hsum : ∀ l, HasDerivAt (fun t => ∑ k, (A t)⁻¹ i k * (A t k l - A 0 k l))
      (∑ k, (A 0)⁻¹ i k * A' k l) 0 := fun l => HasDerivAt.fun_sum fun k _ => hterm k l
  have hall := HasDerivAt.fun_sum (u := Finset.univ) fun l _ =>
    (hsum l).mul_const ((A 0)⁻¹ l j)
  have := hall.const_sub ((A 0)⁻¹ i j)
  simpa only [Matrix.neg_apply, Matrix.mul_apply] using this

/-- Derivative of the determinant (Jacobi). -/
theorem det_deriv {A : ℝ → Matrix n n ℝ} {A' : Matrix n n ℝ} (hA : MD A A') :
    HasDerivAt (fun t => (A t).det) ((A 0).adjugate * A').trace 0 := by
  have h1 : ∀ σ : Equiv.Perm n, HasDerivAt (fun t => ∏ i, A t (σ i) i)
      (∑ i, (∏ j ∈ Finset.univ.erase i, A 0 (σ j) j) * A' (σ i) i) 0 := by
    intro σ
    have := HasDerivAt.fun_finset_prod (u := Finset.univ) (f := fun i t => A t (σ i) i)
      (f' := fun i => A' (σ i) i) (x := (0 : ℝ)) fun i _ => hA (σ i) i
    simpa only [smul_eq_mul] using this
  have h2 := HasDerivAt.fun_sum (u := Finset.univ) fun σ _ =>
    (h1 σ).const_mul (((Equiv.Perm.sign σ : ℤˣ) : ℤ) : ℝ)
  have e1 : (fun t => (A t).det) = fun t => ∑ σ : Equiv.Perm n,
      (((Equiv.Perm.sign σ : ℤˣ) : ℤ) : ℝ) * ∏ i, A t (σ i) i := by
    funext t; rw [Matrix.det_apply']
  rw [e1]
  refine h2.congr_deriv ?_
  have e2 : ∀ i, ((A 0).updateCol i fun k => A' k i).det =
      ∑ σ : Equiv.Perm n, (((Equiv.Perm.sign σ : ℤˣ) : ℤ) : ℝ) *
        ((∏ j ∈ Finset.univ.erase i, A 0 (σ j) j) * A' (σ i) i) := by
    intro i
    rw [Matrix.det_apply']
    apply Finset.sum_congr rfl
    intro σ _
    congr 1
    rw [← Finset.prod_erase_mul Finset.univ _ (Finset.mem_univ i)]
    congr 1
    · apply Finset.prod_congr rfl
      intro j hj
      rw [Matrix.updateCol_ne (Finset.ne_of_mem_erase hj)]
    · rw [Matrix.updateCol_self]
  have e3 : ((A 0).adjugate * A').trace = ∑ i, ((A 0).updateCol i fun k => A' k i).det := by
    rw [Matrix.trace]
    apply Finset.sum_congr rfl
    intro i _
    rw [← Matrix.cramer_apply, Matrix.cramer_eq_adjugate_mulVec]
    rfl
  rw [e3]
  simp only [e2]
  rw [Finset.sum_comm]
  apply Finset.sum_congr rfl
  intro σ _
  rw [Finset.mul_sum]

/-- Derivative of `log |det A|`. -/
theorem logdet_deriv {A : ℝ → Matrix n n ℝ} {A' : Matrix n n ℝ} (hA : MD A A')
    (h0 : IsUnit (A 0).det) :
    HasDerivAt (fun t => Real.log |(A t).det|) ((A 0)⁻¹ * A').trace 0 := by
  simp only [Real.log_abs]
  have := (det_deriv hA).log h0.ne_zero
  refine this.congr_deriv ?_
  rw [Matrix.inv_def, Ring.inverse_eq_inv', Matrix.smul_mul, Matrix.trace_smul, smul_eq_mul,
    div_eq_inv_mul]

end inverse
end Verif.Calc
