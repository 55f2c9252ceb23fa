import Verif.Fa.Align
import Verif.Calc.Matrix
import Mathlib.Analysis.SpecialFunctions.Sqrt
import Mathlib.LinearAlgebra.Dimension.Finrank
import Mathlib.LinearAlgebra.FiniteDimensional.Lemmas
/-!
# Eigenvalues and eigenvectors along a path of symmetric matrices

The sorted eigenvalues are continuous (Weyl's inequality), and an eigenvector of a simple eigenvalue, with its sign
fixed, is differentiable.  Nothing is assumed about the eigenvectors besides the contract of `eigh`.
-/
namespace Verif.Fa
open Matrix Verif.Calc

variable {p : ℕ}

theorem EighOk.vec {W V : Matrix (Fin p) (Fin p) ℝ} {u : Fin p → ℝ} (h : EighOk W u V) (i : Fin p) :
    W *ᵥ (fun a => V a i) = u i • fun a => V a i := by
  funext a
  have := congrFun (congrFun h.eig a) i
  rw [Matrix.mul_diagonal, Matrix.mul_apply] at this
  simp only [mulVec, dotProduct, Pi.smul_apply, smul_eq_mul]
  rw [this, mul_comm]

theorem EighOk.dot {W V : Matrix (Fin p) (Fin p) ℝ} {u : Fin p → ℝ} (h : EighOk W u V) (i j : Fin p) :
    ∑ a, V a i * V a j = if i = j then 1 else 0 := by
  have := congrFun (congrFun h.orth i) j
  rw [Matrix.mul_apply, Matrix.one_apply] at this
  exact this

theorem EighOk.row {W V : Matrix (Fin p) (Fin p) ℝ} {u : Fin p → ℝ} (h : EighOk W u V) (a b : Fin p) :
    ∑ i, V a i * V b i = if a = b then 1 else 0 := by
  have h1 : V * Vᵀ = 1 := mul_eq_one_comm.1 h.orth
  have := congrFun (congrFun h1 a) b
  rw [Matrix.mul_apply, Matrix.one_apply] at this
  exact this

theorem EighOk.symm {W V : Matrix (Fin p) (Fin p) ℝ} {u : Fin p → ℝ} (h : EighOk W u V) : Wᵀ = W := by
  have : W = V * diagonal u * Vᵀ := by
    rw [← h.eig, Matrix.mul_assoc, mul_eq_one_comm.1 h.orth, Matrix.mul_one]
  rw [this, transpose_mul, transpose_mul, transpose_transpose, diagonal_transpose, Matrix.mul_assoc]

theorem EighOk.quad {W V : Matrix (Fin p) (Fin p) ℝ} {u : Fin p → ℝ} (h : EighOk W u V) (x : Fin p → ℝ) :
    x ⬝ᵥ (W *ᵥ x) = ∑ j, u j * (Vᵀ *ᵥ x) j ^ 2 := by
  have : W = V * diagonal u * Vᵀ := by
    rw [← h.eig, Matrix.mul_assoc, mul_eq_one_comm.1 h.orth, Matrix.mul_one]
  rw [this, ← mulVec_mulVec, ← mulVec_mulVec, dotProduct_mulVec, ← mulVec_transpose]
  simp only [dotProduct, mulVec_diagonal]
  exact Finset.sum_congr rfl fun j _ => by ring

theorem EighOk.len {W V : Matrix (Fin p) (Fin p) ℝ} {u : Fin p → ℝ} (h : EighOk W u V) (x : Fin p → ℝ) :
    x ⬝ᵥ x = ∑ j, (Vᵀ *ᵥ x) j ^ 2 := by
  have : x ⬝ᵥ x = (Vᵀ *ᵥ x) ⬝ᵥ (Vᵀ *ᵥ x) := by
    rw [dotProduct_mulVec, ← mulVec_transpose, transpose_transpose, mulVec_mulVec, mul_eq_one_comm.1 h.orth, one_mulVec]
  rw [this]
  simp only [dotProduct]
  exact Finset.sum_congr rfl fun j _ => by ring

/-- A nonzero vector orthogonal to the later eigenvectors of one matrix and to the earlier ones of another. -/
theorem exists_between (V V' : Matrix (Fin p) (Fin p) ℝ) (i : Fin p) :
    ∃ x : Fin p → ℝ, x ≠ 0 ∧ (∀ j, i < j → (Vᵀ *ᵥ x) j = 0) ∧ ∀ j, j < i → (V'ᵀ *ᵥ x) j = 0 := by
  let T : (Fin p → ℝ) →ₗ[ℝ] ({j : Fin p // j ≠ i} → ℝ) :=
    LinearMap.pi fun j => if i < j.1 then (LinearMap.proj j.1).comp (Matrix.mulVecLin Vᵀ) else (LinearMap.proj j.1).comp (Matrix.mulVecLin V'ᵀ)
  have hlt : Module.finrank ℝ ({j : Fin p // j ≠ i} → ℝ) < Module.finrank ℝ (Fin p → ℝ) := by
    rw [Module.finrank_fintype_fun_eq_card, Module.finrank_fintype_fun_eq_card]
    exact Fintype.card_subtype_lt (x := i) (by simp)
  obtain ⟨x, hx, h0⟩ := (Submodule.ne_bot_iff _).1 (LinearMap.ker_ne_bot_of_finrank_lt (f := T) hlt)
  have hT : ∀ j, T x j = 0 := fun j => congrFun (LinearMap.mem_ker.1 hx) j
  refine ⟨x, h0, fun j hj => ?_, fun j hj => ?_⟩
  · have := hT ⟨j, hj.ne'⟩
    rw [mulVec_transpose]; simpa [T, hj] using this
  · have := hT ⟨j, hj.ne⟩
    rw [mulVec_transpose]; simpa [T, not_lt.2 hj.le] using this

/-- Weyl's inequality for the sorted eigenvalues. -/
theorem weyl {A B V V' : Matrix (Fin p) (Fin p) ℝ} {u u' : Fin p → ℝ} (hA : EighOk A u V) (hB : EighOk B u' V') (c : ℝ)
    (hc : ∀ x : Fin p → ℝ, x ⬝ᵥ (B *ᵥ x) ≤ x ⬝ᵥ (A *ᵥ x) + c * (x ⬝ᵥ x)) (i : Fin p) : u' i ≤ u i + c := by
  obtain ⟨x, h0, h1, h2⟩ := exists_between V V' i
  have hpos : 0 < x ⬝ᵥ x := by
    simp only [dotProduct]
    refine lt_of_le_of_ne (Finset.sum_nonneg fun a _ => mul_self_nonneg _) fun e => h0 (funext fun a => ?_)
    have := (Finset.sum_eq_zero_iff_of_nonneg fun a _ => mul_self_nonneg (x a)).1 e.symm a (Finset.mem_univ _)
    exact mul_self_eq_zero.1 this
  have e1 : x ⬝ᵥ (A *ᵥ x) ≤ u i * (x ⬝ᵥ x) := by
    rw [hA.quad, hA.len, Finset.mul_sum]
    refine Finset.sum_le_sum fun j _ => ?_
    rcases lt_or_ge i j with hj | hj
    · rw [h1 j hj]; simp
    · exact mul_le_mul_of_nonneg_right (hA.mono hj) (sq_nonneg _)
  have e2 : u' i * (x ⬝ᵥ x) ≤ x ⬝ᵥ (B *ᵥ x) := by
    rw [hB.quad, hB.len, Finset.mul_sum]
    refine Finset.sum_le_sum fun j _ => ?_
    rcases lt_or_ge j i with hj | hj
    · rw [h2 j hj]; simp
    · exact mul_le_mul_of_nonneg_right (hB.mono hj) (sq_nonneg _)
  have := hc x
  refine le_of_mul_le_mul_right ?_ hpos
  linarith

/-- Sum of the absolute differences of the elements. -/
def absD (A B : Matrix (Fin p) (Fin p) ℝ) : ℝ := ∑ a, ∑ b, |A a b - B a b|

theorem quad_absD (A B : Matrix (Fin p) (Fin p) ℝ) (x : Fin p → ℝ) :
    x ⬝ᵥ (B *ᵥ x) ≤ x ⬝ᵥ (A *ᵥ x) + absD B A * (x ⬝ᵥ x) := by
  have hx : ∀ a, x a ^ 2 ≤ x ⬝ᵥ x := fun a => by
    rw [dotProduct, sq]
    exact Finset.single_le_sum (f := fun a => x a * x a) (fun b _ => mul_self_nonneg _) (Finset.mem_univ a)
  have e : ∀ M : Matrix (Fin p) (Fin p) ℝ, x ⬝ᵥ (M *ᵥ x) = ∑ a, ∑ b, M a b * (x a * x b) := fun M => by
    simp only [dotProduct, mulVec, Finset.mul_sum]
    exact Finset.sum_congr rfl fun a _ => Finset.sum_congr rfl fun b _ => by ring
  rw [e, e, absD, Finset.sum_mul, ← Finset.sum_add_distrib]
  refine Finset.sum_le_sum fun a _ => ?_
  rw [Finset.sum_mul, ← Finset.sum_add_distrib]
  refine Finset.sum_le_sum fun b _ => ?_
  have h1 : |x a * x b| ≤ x ⬝ᵥ x := by
    rw [abs_mul]
    have := hx a; have := hx b
    nlinarith [sq_nonneg (|x a| - |x b|), sq_abs (x a), sq_abs (x b)]
  have h2 : (B a b - A a b) * (x a * x b) ≤ |B a b - A a b| * (x ⬝ᵥ x) := by
    refine (le_abs_self _).trans ?_
    rw [abs_mul]
    exact mul_le_mul_of_nonneg_left h1 (abs_nonneg _)
  linarith

theorem absD_comm (A B : Matrix (Fin p) (Fin p) ℝ) : absD A B = absD B A :=
  Finset.sum_congr rfl fun _ _ => Finset.sum_congr rfl fun _ _ => abs_sub_comm _ _

theorem eig_dist {A B V V' : Matrix (Fin p) (Fin p) ℝ} {u u' : Fin p → ℝ} (hA : EighOk A u V) (hB : EighOk B u' V') (i : Fin p) :
    |u' i - u i| ≤ absD B A := by
  have h1 := weyl hA hB (absD B A) (quad_absD A B) i
  have h2 := weyl hB hA (absD A B) (quad_absD B A) i
  rw [absD_comm A B] at h2
  exact abs_le.2 ⟨by linarith, by linarith⟩

variable {W : ℝ → Matrix (Fin p) (Fin p) ℝ} {u : ℝ → Fin p → ℝ} {V : ℝ → Matrix (Fin p) (Fin p) ℝ}

theorem absD_tendsto (hW : ∀ a b, ContinuousAt (fun t => W t a b) 0) :
    Filter.Tendsto (fun t => absD (W t) (W 0)) (nhds 0) (nhds 0) := by
  have : Filter.Tendsto (fun t => absD (W t) (W 0)) (nhds 0) (nhds (∑ a, ∑ b, |W 0 a b - W 0 a b|)) :=
    tendsto_finsetSum _ fun a _ => tendsto_finsetSum _ fun b _ => ((hW a b).sub continuousAt_const).abs
  simpa using this

/-- The sorted eigenvalues are continuous. -/
theorem eig_cont (hW : ∀ a b, ContinuousAt (fun t => W t a b) 0) (h : ∀ t, EighOk (W t) (u t) (V t)) (i : Fin p) :
    ContinuousAt (fun t => u t i) 0 := by
  rw [ContinuousAt, tendsto_iff_dist_tendsto_zero]
  refine squeeze_zero (fun _ => dist_nonneg) (fun t => ?_) (absD_tendsto hW)
  rw [Real.dist_eq]
  exact eig_dist (h 0) (h t) i

/-- The sign that turns column `i` of `V` to the side of column `i` of `V0`. -/
noncomputable def sgn0 (V0 V : Matrix (Fin p) (Fin p) ℝ) (i : Fin p) : ℝ := if 0 ≤ ∑ a, V0 a i * V a i then 1 else -1

theorem sgn0_sq (V0 V : Matrix (Fin p) (Fin p) ℝ) (i : Fin p) : sgn0 V0 V i * sgn0 V0 V i = 1 := by
  unfold sgn0; split <;> norm_num

/-- `V` with the signs of its columns fixed by `V0`. -/
noncomputable def fixV (V0 V : Matrix (Fin p) (Fin p) ℝ) : Matrix (Fin p) (Fin p) ℝ := V * diagonal (sgn0 V0 V)

theorem fixV_apply (V0 V : Matrix (Fin p) (Fin p) ℝ) (a i : Fin p) : fixV V0 V a i = V a i * sgn0 V0 V i :=
  Matrix.mul_diagonal _ _ _ _

theorem fixV_sq (V0 V : Matrix (Fin p) (Fin p) ℝ) (a i : Fin p) : fixV V0 V a i ^ 2 = V a i ^ 2 := by
  rw [fixV_apply]; linear_combination V a i ^ 2 * sgn0_sq V0 V i

theorem fixV_side (V0 V : Matrix (Fin p) (Fin p) ℝ) (i : Fin p) : 0 ≤ ∑ a, V0 a i * fixV V0 V a i := by
  have : ∑ a, V0 a i * fixV V0 V a i = (∑ a, V0 a i * V a i) * sgn0 V0 V i := by
    rw [Finset.sum_mul]; exact Finset.sum_congr rfl fun a _ => by rw [fixV_apply]; ring
  rw [this, sgn0]
  split
  · next h => simpa using h
  · next h => push Not at h; linarith

theorem EighOk.fix {W V : Matrix (Fin p) (Fin p) ℝ} {u : Fin p → ℝ} (h : EighOk W u V) (V0 : Matrix (Fin p) (Fin p) ℝ) :
    EighOk W u (fixV V0 V) := by
  refine ⟨?_, ?_, h.mono⟩
  · rw [fixV, transpose_mul, diagonal_transpose, Matrix.mul_assoc, ← Matrix.mul_assoc Vᵀ, h.orth, Matrix.one_mul, diagonal_mul_diagonal,
      ← diagonal_one]
    congr 1; funext i; exact sgn0_sq V0 V i
  · rw [fixV, ← Matrix.mul_assoc, h.eig, Matrix.mul_assoc, Matrix.mul_assoc, diagonal_mul_diagonal, diagonal_mul_diagonal]
    congr 2; funext i; exact mul_comm _ _

theorem fixV_self {W V : Matrix (Fin p) (Fin p) ℝ} {u : Fin p → ℝ} (h : EighOk W u V) : fixV V V = V := by
  ext a i
  rw [fixV_apply, sgn0, h.dot, if_pos rfl, if_pos zero_le_one, mul_one]

/-- Coordinates of the eigenvector `i` at `t` in the eigenvectors at `0`. -/
theorem coord {W0 W1 V0 V1 : Matrix (Fin p) (Fin p) ℝ} {u0 u1 : Fin p → ℝ} (h0 : EighOk W0 u0 V0) (h1 : EighOk W1 u1 V1) (i j : Fin p) :
    (u1 i - u0 j) * ∑ a, V0 a j * V1 a i = ∑ a, ∑ b, (V0 a j * V1 b i) * (W1 a b - W0 a b) := by
  have e1 : (fun a => V0 a j) ⬝ᵥ (W1 *ᵥ fun a => V1 a i) = u1 i * ∑ a, V0 a j * V1 a i := by
    rw [h1.vec, dotProduct_smul, smul_eq_mul]; rfl
  have e2 : (fun a => V0 a j) ⬝ᵥ (W0 *ᵥ fun a => V1 a i) = u0 j * ∑ a, V0 a j * V1 a i := by
    rw [dotProduct_mulVec, ← mulVec_transpose, h0.symm, h0.vec, smul_dotProduct, smul_eq_mul]; rfl
  have h3 : ∀ X : Matrix (Fin p) (Fin p) ℝ, (fun a => V0 a j) ⬝ᵥ (X *ᵥ fun a => V1 a i) = ∑ a, ∑ b, (V0 a j * V1 b i) * X a b := fun X => by
    simp only [dotProduct, mulVec, Finset.mul_sum]
    exact Finset.sum_congr rfl fun a _ => Finset.sum_congr rfl fun b _ => by ring
  simp only [mul_sub, Finset.sum_sub_distrib]
  rw [← h3, ← h3, e1, e2]; ring

theorem EighOk.le_one {W V : Matrix (Fin p) (Fin p) ℝ} {u : Fin p → ℝ} (h : EighOk W u V) (a i : Fin p) : |V a i| ≤ 1 := by
  have h1 := h.dot i i
  rw [if_pos rfl] at h1
  have h2 := Finset.single_le_sum (f := fun a => V a i * V a i) (fun b _ => mul_self_nonneg _) (Finset.mem_univ a)
  rw [abs_le_one_iff_mul_self_le_one]
  linarith

/-- Coordinates: the sum of squares is one. -/
theorem coord_sq {W0 W1 V0 V1 : Matrix (Fin p) (Fin p) ℝ} {u0 u1 : Fin p → ℝ} (h0 : EighOk W0 u0 V0) (h1 : EighOk W1 u1 V1) (i : Fin p) :
    ∑ j, (∑ a, V0 a j * V1 a i) ^ 2 = 1 := by
  have := h0.len fun a => V1 a i
  have h2 := h1.dot i i
  rw [if_pos rfl] at h2
  rw [← h2]
  exact this.symm

variable {W' : Matrix (Fin p) (Fin p) ℝ}

/-- The coordinates other than `i` tend to zero when eigenvalue `i` is simple. -/
theorem coord_cont (hW : ∀ a b, ContinuousAt (fun t => W t a b) 0) (h : ∀ t, EighOk (W t) (u t) (V t)) {i j : Fin p}
    (hij : u 0 i ≠ u 0 j) : Filter.Tendsto (fun t => ∑ a, V 0 a j * V t a i) (nhds 0) (nhds 0) := by
  have hu : ContinuousAt (fun t => u t i - u 0 j) 0 := (eig_cont hW h i).sub continuousAt_const
  have hne : u 0 i - u 0 j ≠ 0 := sub_ne_zero.2 hij
  have hev : ∀ᶠ t in nhds (0 : ℝ), u t i - u 0 j ≠ 0 := hu.eventually_ne hne
  have hb : Filter.Tendsto (fun t => |(u t i - u 0 j)⁻¹| * absD (W t) (W 0)) (nhds 0) (nhds (|(u 0 i - u 0 j)⁻¹| * 0)) :=
    Filter.Tendsto.mul (hu.inv₀ hne).abs (absD_tendsto hW)
  rw [mul_zero] at hb
  refine squeeze_zero_norm' (hev.mono fun t ht => ?_) hb
  rw [Real.norm_eq_abs, show ∑ a, V 0 a j * V t a i = (u t i - u 0 j)⁻¹ * ((u t i - u 0 j) * ∑ a, V 0 a j * V t a i) by
    rw [inv_mul_cancel_left₀ ht], coord (h 0) (h t), abs_mul]
  refine mul_le_mul_of_nonneg_left ?_ (abs_nonneg _)
  refine (Finset.abs_sum_le_sum_abs _ _).trans (Finset.sum_le_sum fun a _ => (Finset.abs_sum_le_sum_abs _ _).trans (Finset.sum_le_sum fun b _ => ?_))
  rw [abs_mul, abs_mul]
  have h1 := (h 0).le_one a j; have h2 := (h t).le_one b i
  have h3 : |V 0 a j| * |V t b i| ≤ 1 := mul_le_one₀ h1 (abs_nonneg _) h2
  calc _ ≤ 1 * |W t a b - W 0 a b| := mul_le_mul_of_nonneg_right h3 (abs_nonneg _)
    _ = _ := one_mul _

/-- Coordinate `i` is the square root of what the others leave. -/
theorem coord_self (h : ∀ t, EighOk (W t) (u t) (V t)) {i : Fin p} (t : ℝ) (hs : 0 ≤ ∑ a, V 0 a i * V t a i) :
    ∑ a, V 0 a i * V t a i = Real.sqrt (1 - ∑ j, if j = i then 0 else (∑ a, V 0 a j * V t a i) ^ 2) := by
  have h1 := coord_sq (h 0) (h t) i
  have h2 : ∑ j, (∑ a, V 0 a j * V t a i) ^ 2 = (∑ j, if j = i then 0 else (∑ a, V 0 a j * V t a i) ^ 2) + (∑ a, V 0 a i * V t a i) ^ 2 := by
    have : ∀ j, (∑ a, V 0 a j * V t a i) ^ 2 = (if j = i then 0 else (∑ a, V 0 a j * V t a i) ^ 2) + if j = i then (∑ a, V 0 a i * V t a i) ^ 2 else 0 := fun j => by
      by_cases hj : j = i
      · subst hj; simp
      · simp [hj]
    rw [Finset.sum_congr rfl fun j _ => this j, Finset.sum_add_distrib, Finset.sum_ite_eq' Finset.univ i, if_pos (Finset.mem_univ _)]
  rw [show 1 - (∑ j, if j = i then 0 else (∑ a, V 0 a j * V t a i) ^ 2) = (∑ a, V 0 a i * V t a i) ^ 2 by linarith, Real.sqrt_sq hs]

/-- The eigenvector of a simple eigenvalue, on the side of its value at `0`, is differentiable. -/
theorem eigvec_diff (hW : MD W W') (h : ∀ t, EighOk (W t) (u t) (V t)) (i : Fin p)
    (hs : ∀ t, 0 ≤ ∑ a, V 0 a i * V t a i) (hi : ∀ j, j ≠ i → u 0 i ≠ u 0 j) :
    ∃ v' : Fin p → ℝ, ∀ a, HasDerivAt (fun t => V t a i) (v' a) 0 := by
  have hWc : ∀ a b, ContinuousAt (fun t => W t a b) 0 := fun a b => (hW a b).continuousAt
  have hx : ∀ a, (fun t => V t a i) = fun t => ∑ j, V 0 a j * ∑ b, V 0 b j * V t b i := fun a => funext fun t => by
    have e : ∑ j, V 0 a j * ∑ b, V 0 b j * V t b i = ∑ b, (∑ j, V 0 a j * V 0 b j) * V t b i := by
      simp only [Finset.mul_sum, Finset.sum_mul]
      rw [Finset.sum_comm]
      exact Finset.sum_congr rfl fun b _ => Finset.sum_congr rfl fun j _ => by ring
    rw [e]
    simp [(h 0).row]
  -- continuity
  have hc0 : ∀ j, j ≠ i → ∑ a, V 0 a j * V 0 a i = 0 := fun j hj => by rw [(h 0).dot, if_neg hj]
  have hcj : ∀ j, j ≠ i → ContinuousAt (fun t => ∑ a, V 0 a j * V t a i) 0 := fun j hj => by
    rw [ContinuousAt, hc0 j hj]; exact coord_cont hWc h (hi j hj)
  have hself : (fun t => ∑ a, V 0 a i * V t a i) =
      fun t => Real.sqrt (1 - ∑ j, if j = i then 0 else (∑ a, V 0 a j * V t a i) ^ 2) := funext fun t => coord_self h t (hs t)
  have hci : ContinuousAt (fun t => ∑ a, V 0 a i * V t a i) 0 := by
    rw [hself]
    refine (continuousAt_const.sub (tendsto_finsetSum _ fun j _ => ?_)).sqrt
    by_cases hj : j = i
    · simp only [hj, if_true]; exact tendsto_const_nhds
    · simp only [hj, if_false]; exact (hcj j hj).pow 2
  have hvc : ∀ a, ContinuousAt (fun t => V t a i) 0 := fun a => by
    rw [hx a]
    refine tendsto_finsetSum _ fun j _ => ?_
    by_cases hj : j = i
    · subst hj; exact hci.const_mul (V 0 a j)
    · exact (hcj j hj).const_mul (V 0 a j)
  -- derivative of the coordinates
  have hdj : ∀ j, j ≠ i → ∃ c', HasDerivAt (fun t => ∑ a, V 0 a j * V t a i) c' 0 := fun j hj => by
    have hu : ContinuousAt (fun t => u t i - u 0 j) 0 := (eig_cont hWc h i).sub continuousAt_const
    have hne : u 0 i - u 0 j ≠ 0 := sub_ne_zero.2 (hi j hj)
    have hd : HasDerivAt (fun t => ∑ a, ∑ b, (V 0 a j * V t b i) * (W t a b - W 0 a b)) (∑ a, ∑ b, (V 0 a j * V 0 b i) * W' a b) 0 :=
      HasDerivAt.fun_sum fun a _ => HasDerivAt.fun_sum fun b _ =>
        hasDerivAt_mul_of_zero (u := fun t => V 0 a j * V t b i) (v := fun t => W t a b - W 0 a b) ((hvc b).const_mul (V 0 a j)) ((hW a b).sub_const _) (by simp)
    have hq := hasDerivAt_mul_of_zero (hu.inv₀ hne) hd (by simp)
    refine ⟨_, hq.congr_of_eventuallyEq ((hu.eventually_ne hne).mono fun t ht => ?_)⟩
    beta_reduce
    simp only [Pi.inv_apply]
    rw [← coord (h 0) (h t), inv_mul_cancel_left₀ ht]
  have hdi : ∃ c', HasDerivAt (fun t => ∑ a, V 0 a i * V t a i) c' 0 := by
    rw [hself]
    have hz : (1 - ∑ j, if j = i then 0 else (∑ a, V 0 a j * V 0 a i) ^ 2) ≠ 0 := by
      rw [Finset.sum_eq_zero fun j _ => by
        by_cases hj : j = i
        · rw [if_pos hj]
        · rw [if_neg hj, hc0 j hj]; ring]
      norm_num
    choose! c hc using hdj
    have h1 : HasDerivAt (fun t => 1 - ∑ j, if j = i then 0 else (∑ a, V 0 a j * V t a i) ^ 2)
        (-∑ j, if j = i then 0 else ((2 : ℕ) : ℝ) * (∑ a, V 0 a j * V 0 a i) ^ (2 - 1) * c j) 0 := by
      refine HasDerivAt.const_sub _ (HasDerivAt.fun_sum fun j _ => ?_)
      by_cases hj : j = i
      · simp only [hj, if_true]; exact hasDerivAt_const _ _
      · simp only [hj, if_false]; exact (hc j hj).fun_pow 2
    exact ⟨_, h1.sqrt hz⟩
  have hall : ∀ j, ∃ c', HasDerivAt (fun t => ∑ a, V 0 a j * V t a i) c' 0 := fun j => by
    by_cases hj : j = i
    · subst hj; exact hdi
    · exact hdj j hj
  choose c hc using hall
  refine ⟨fun a => ∑ j, V 0 a j * c j, fun a => ?_⟩
  rw [hx a]
  exact HasDerivAt.fun_sum fun j _ => (hc j).const_mul (V 0 a j)

end Verif.Fa
