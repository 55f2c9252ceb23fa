import Verif.Fa.Rotation
import Verif.Fa.CriterionProps
import Mathlib.Tactic.NoncommRing
/-! # C84, C85: rotation primitives and the Cayley-coordinate gradient -/
namespace Verif.Fa
open Matrix Verif.Calc Verif.Index Verif.Np Verif.Vec

variable {p m : ℕ}

theorem fro_trace (A B : Matrix (Fin p) (Fin m) ℝ) : fro A B = (Aᵀ * B).trace := by
  simp only [fro, Matrix.trace, Matrix.diag, Matrix.mul_apply, Matrix.transpose_apply]
  rw [Finset.sum_comm]

theorem fro_comm (A B : Matrix (Fin p) (Fin m) ℝ) : fro A B = fro B A := by
  simp only [fro, mul_comm]

theorem fro_self_nonneg (A : Matrix (Fin p) (Fin m) ℝ) : 0 ≤ fro A A :=
  Finset.sum_nonneg fun _ _ => Finset.sum_nonneg fun _ _ => mul_self_nonneg _

theorem froNorm_sq (G : Matrix (Fin m) (Fin m) ℝ) : froNorm G * froNorm G = fro G G := by
  rw [froNorm, Real.mul_self_sqrt]; rfl; exact fro_self_nonneg G

theorem inv?_unit {T : Matrix (Fin m) (Fin m) ℝ} (h : IsUnit T.det) : inv? T = some T⁻¹ := if_pos h

theorem inv?_eq {T X : Matrix (Fin m) (Fin m) ℝ} (h : inv? T = some X) : IsUnit T.det ∧ X = T⁻¹ := by
  unfold inv? at h
  split at h
  · next hu => exact ⟨hu, (Option.some.inj h).symm⟩
  · cases h

/-- C84: `OrthoRotation.grad` is the gradient of the criterion in `T`. -/
theorem C84_ortho_grad (c : Crit p m) (hc : CritOk c) (A : Matrix (Fin p) (Fin m) ℝ)
    (T : ℝ → Matrix (Fin m) (Fin m) ℝ) (D) (h : MD T D) :
    HasDerivAt (fun t => c.Q (orthoLoad A (T t))) (fro (orthoGrad A (T 0) (c.dQ (orthoLoad A (T 0)))) D) 0 := by
  have h1 : MD (fun t => orthoLoad A (T t)) (A * D) :=
    ((MD.const A).mul h).congr (by rw [Matrix.zero_mul, zero_add])
  refine (hc.grad _ _ h1).congr_deriv ?_
  rw [fro_trace, fro_trace, orthoGrad, transpose_mul, transpose_transpose, Matrix.mul_assoc]

/-- C84: `ObliqueRotation.grad` is the gradient of the criterion in `T`, wherever `T` is invertible. -/
theorem C84_oblique_grad (c : Crit p m) (hc : CritOk c) (A : Matrix (Fin p) (Fin m) ℝ)
    (T : ℝ → Matrix (Fin m) (Fin m) ℝ) (D) (h : MD T D) (h0 : IsUnit (T 0).det) :
    ∃ L : ℝ → Matrix (Fin p) (Fin m) ℝ, ∃ G, (∀ᶠ t in nhds 0, oblLoad A (T t) = some (L t)) ∧
      oblGrad A (T 0) (c.dQ (L 0)) = some G ∧ HasDerivAt (fun t => c.Q (L t)) (fro G D) 0 := by
  refine ⟨fun t => A * ((T t)⁻¹)ᵀ, -((A * ((T 0)⁻¹)ᵀ)ᵀ * c.dQ (A * ((T 0)⁻¹)ᵀ) * (T 0)⁻¹)ᵀ, ?_, ?_, ?_⟩
  · exact (h.eventually_isUnit h0).mono fun t ht => by rw [oblLoad, inv?_unit ht]; rfl
  · rw [oblGrad, inv?_unit h0]; simp only [Option.map_some, neg_smul, one_smul]
  · have h1 := (MD.const A).mul (h.inv h0).transpose
    refine (hc.grad _ _ h1).congr_deriv ?_
    rw [Matrix.zero_mul, zero_add, fro_trace, fro_trace]
    generalize (T 0)⁻¹ = N
    generalize c.dQ (A * Nᵀ) = Q
    simp only [transpose_neg, transpose_mul, transpose_transpose, Matrix.mul_neg, Matrix.neg_mul, trace_neg]
    congr 1
    rw [← trace_transpose]
    simp only [transpose_mul, transpose_transpose]
    rw [show N * D * N * Aᵀ * Q = N * D * (N * (Aᵀ * Q)) by simp only [Matrix.mul_assoc], Matrix.trace_mul_comm,
      show N * (Aᵀ * Q) * (N * D) = (N * Aᵀ * Q * N) * D by simp only [Matrix.mul_assoc]]

/-! ## projections onto the tangent spaces -/

/-- C84: for orthogonal `T`, `Gp = constraint_project(T, G)` is the orthogonal projection of `G` onto the
tangent space `{X : TᵀX skew}`. -/
theorem C84_ortho_project (T G : Matrix (Fin m) (Fin m) ℝ) (hT : Tᵀ * T = 1) :
    (Tᵀ * orthoProject T G)ᵀ = -(Tᵀ * orthoProject T G) ∧
    (∀ X, (Tᵀ * X)ᵀ = -(Tᵀ * X) → fro (G - orthoProject T G) X = 0) ∧
    orthoProject T (orthoProject T G) = orthoProject T G := by
  have e : Tᵀ * orthoProject T G = (0.5 : ℝ) • (Tᵀ * G - (Tᵀ * G)ᵀ) := by
    rw [orthoProject, Matrix.mul_sub, ← Matrix.mul_assoc, hT, Matrix.one_mul]
    ext i j
    simp only [Matrix.sub_apply, Matrix.smul_apply, Matrix.add_apply, smul_eq_mul]
    ring
  have sk : (Tᵀ * orthoProject T G)ᵀ = -(Tᵀ * orthoProject T G) := by
    rw [e, transpose_smul, transpose_sub, transpose_transpose, ← smul_neg, neg_sub]
  refine ⟨sk, ?_, ?_⟩
  · intro X hX
    have : G - orthoProject T G = T * ((0.5 : ℝ) • (Tᵀ * G + (Tᵀ * G)ᵀ)) := by
      rw [orthoProject]; simp only [sub_sub_cancel]
    rw [this, fro_trace, transpose_mul, Matrix.mul_assoc]
    generalize hM : Tᵀ * X = K at hX ⊢
    generalize hS : (0.5 : ℝ) • (Tᵀ * G + (Tᵀ * G)ᵀ) = S
    have hS' : Sᵀ = S := by
      rw [← hS, transpose_smul, transpose_add, transpose_transpose, add_comm]
    have h1 : (Sᵀ * K).trace = -(Sᵀ * K).trace := by
      conv_lhs => rw [← trace_transpose, transpose_mul, transpose_transpose, hX, Matrix.neg_mul, trace_neg,
        Matrix.trace_mul_comm]
      rw [hS']
    linarith
  · conv_lhs => rw [orthoProject]
    simp only [sk]
    rw [add_neg_cancel, smul_zero, Matrix.mul_zero, sub_zero]

/-- C84: with unit columns, `ObliqueRotation.constraint_project` is the orthogonal projection onto
`{X : diag(TᵀX) = 0}`. -/
theorem C84_oblique_project (T G : Matrix (Fin m) (Fin m) ℝ) (hT : ∀ j, ∑ i, T i j * T i j = 1) :
    (∀ j, ∑ i, T i j * oblProject T G i j = 0) ∧
    (∀ X : Matrix (Fin m) (Fin m) ℝ, (∀ j, ∑ i, T i j * X i j = 0) → fro (G - oblProject T G) X = 0) ∧
    oblProject T (oblProject T G) = oblProject T G := by
  have e : ∀ G : Matrix (Fin m) (Fin m) ℝ, ∀ i j, oblProject T G i j = G i j - T i j * ∑ a, T a j * G a j := fun G i j => by
    rw [oblProject, Matrix.sub_apply, Matrix.mul_diagonal]
  have z : ∀ j, ∑ i, T i j * oblProject T G i j = 0 := fun j => by
    simp only [e, mul_sub, ← mul_assoc]
    rw [Finset.sum_sub_distrib, ← Finset.sum_mul, hT, one_mul, sub_self]
  refine ⟨z, ?_, ?_⟩
  · intro X hX
    simp only [fro, Matrix.sub_apply, e, sub_sub_cancel]
    rw [Finset.sum_comm]
    refine Finset.sum_eq_zero fun j _ => ?_
    have : ∀ i, T i j * (∑ a, T a j * G a j) * X i j = (∑ a, T a j * G a j) * (T i j * X i j) := fun i => by ring
    simp only [this]
    rw [← Finset.mul_sum, hX, mul_zero]
  · ext i j
    rw [e (oblProject T G), z, mul_zero, sub_zero]

/-! ## retractions -/

theorem svd_v' {svd} (hs : SvdOk (m := m) svd) (X) : (svd X).2.2ᵀ * (svd X).2.2 = 1 :=
  mul_eq_one_comm.1 (hs.v X)

/-- The last diagonal entry negated. -/
def flipD (m : ℕ) : Matrix (Fin m) (Fin m) ℝ := diagonal fun i => if (i : ℕ) + 1 = m then -1 else 1

theorem orthoRetract_eq (svd) (X : Matrix (Fin m) (Fin m) ℝ) :
    orthoRetract svd X = if ((svd X).1 * (svd X).2.2).det < 0 then (svd X).1 * (flipD m * (svd X).2.2)
      else (svd X).1 * (svd X).2.2 := by
  unfold orthoRetract
  simp only
  split
  · congr 1
    ext i j
    rw [flipD, Matrix.diagonal_mul, Matrix.of_apply]
    split <;> simp
  · rfl

theorem flipD_sq (m : ℕ) : flipD m * flipD m = 1 := by
  rw [flipD, diagonal_mul_diagonal, ← diagonal_one]
  congr 1; funext i; split <;> norm_num

theorem flipD_t (m : ℕ) : (flipD m)ᵀ = flipD m := diagonal_transpose _

theorem flipD_det (hm : 0 < m) : (flipD m).det = -1 := by
  rw [flipD, det_diagonal]
  obtain ⟨n, rfl⟩ : ∃ n, m = n + 1 := ⟨m - 1, by omega⟩
  rw [Fin.prod_univ_castSucc]
  rw [Finset.prod_eq_one fun i _ => if_neg (by simp; exact i.2.ne), one_mul, if_pos (by simp)]

theorem orth_det {R : Matrix (Fin m) (Fin m) ℝ} (h : Rᵀ * R = 1) : R.det = 1 ∨ R.det = -1 := by
  have := congrArg det h
  rw [det_mul, det_transpose, det_one] at this
  exact mul_self_eq_one_iff.1 this

/-- C84: `constraint_retract` of `OrthoRotation` always returns a rotation (determinant one). -/
theorem C84_ortho_retract (hm : 0 < m) (svd) (hs : SvdOk (m := m) svd) (X : Matrix (Fin m) (Fin m) ℝ) :
    (orthoRetract svd X)ᵀ * orthoRetract svd X = 1 ∧ (orthoRetract svd X).det = 1 := by
  have hu := hs.u X
  have hv := svd_v' hs X
  have hUV : ((svd X).1 * (svd X).2.2)ᵀ * ((svd X).1 * (svd X).2.2) = 1 := by
    rw [transpose_mul, Matrix.mul_assoc, ← Matrix.mul_assoc (svd X).1ᵀ, hu, Matrix.one_mul, hv]
  rw [orthoRetract_eq]
  split
  · next hd =>
    constructor
    · rw [transpose_mul, transpose_mul, flipD_t, Matrix.mul_assoc, ← Matrix.mul_assoc (svd X).1ᵀ, hu, Matrix.one_mul,
        Matrix.mul_assoc, ← Matrix.mul_assoc (flipD m), flipD_sq, Matrix.one_mul, hv]
    · rw [det_mul, det_mul, flipD_det hm]
      rcases orth_det hUV with h | h
      · rw [h] at hd; norm_num at hd
      · rw [det_mul] at h; linarith
  · next hd =>
    refine ⟨hUV, ?_⟩
    rcases orth_det hUV with h | h
    · exact h
    · rw [h] at hd; norm_num at hd

/-- Diagonal entries of an orthogonal matrix are at most one. -/
theorem orth_diag_le {Z : Matrix (Fin m) (Fin m) ℝ} (h : Zᵀ * Z = 1) (i : Fin m) : Z i i ≤ 1 := by
  have h1 := congrFun (congrFun h i) i
  rw [Matrix.mul_apply, one_apply_eq] at h1
  have h2 : Z i i * Z i i ≤ ∑ k, Zᵀ i k * Z k i :=
    Finset.single_le_sum (f := fun k => Zᵀ i k * Z k i) (fun k _ => mul_self_nonneg (Z k i)) (Finset.mem_univ i)
  nlinarith

/-- The trace of an orthogonal matrix with determinant minus one is at most `m - 2`. -/
theorem orth_trace_le {Z : Matrix (Fin m) (Fin m) ℝ} (h : Zᵀ * Z = 1) (hd : Z.det = -1) :
    Z.trace ≤ m - 2 := by
  have h0 : (1 + Z).det = 0 := by
    have : (1 + Z).det = Z.det * (1 + Z).det := by
      conv_lhs => rw [show (1 + Z) = Zᵀ⁻¹ * (1 + Z)ᵀ by
        have hu : IsUnit Zᵀ.det := by rw [det_transpose, hd]; norm_num
        rw [transpose_add, transpose_one, Matrix.mul_add, nonsing_inv_mul _ hu, Matrix.mul_one,
          inv_eq_right_inv h, add_comm]]
      rw [det_mul, det_transpose, inv_eq_right_inv h]
    rw [hd] at this; linarith
  obtain ⟨x, hx, hz⟩ := Matrix.exists_mulVec_eq_zero_iff.2 h0
  have hzx : Z *ᵥ x = -x := by
    rw [add_mulVec, one_mulVec] at hz
    exact eq_neg_of_add_eq_zero_right hz
  have hn : 0 < x ⬝ᵥ x := lt_of_le_of_ne (Finset.sum_nonneg fun i _ => mul_self_nonneg _)
    fun h => hx (dotProduct_self_eq_zero.1 h.symm)
  set H : Matrix (Fin m) (Fin m) ℝ := 1 - (2 / (x ⬝ᵥ x)) • vecMulVec x x with hH
  have hHt : Hᵀ = H := by
    rw [hH, transpose_sub, transpose_one, transpose_smul, transpose_vecMulVec]
  have hHH : H * H = 1 := by
    have : vecMulVec x x * vecMulVec x x = (x ⬝ᵥ x) • vecMulVec x x := by
      rw [vecMulVec_mul_vecMulVec, vecMulVec_smul]
    rw [hH, Matrix.sub_mul, Matrix.mul_sub, Matrix.mul_sub, Matrix.one_mul, Matrix.mul_one, Matrix.one_mul,
      smul_mul_smul_comm, this, smul_smul]
    have e : 2 / (x ⬝ᵥ x) * (2 / (x ⬝ᵥ x)) * (x ⬝ᵥ x) = 2 / (x ⬝ᵥ x) + 2 / (x ⬝ᵥ x) := by field_simp; ring
    rw [e, add_smul]; abel
  have hZH : (Z * H)ᵀ * (Z * H) = 1 := by
    rw [transpose_mul, hHt, Matrix.mul_assoc, ← Matrix.mul_assoc Zᵀ, h, Matrix.one_mul, hHH]
  have ht : (Z * H).trace = Z.trace + 2 := by
    rw [hH, Matrix.mul_sub, Matrix.mul_one, trace_sub, Matrix.mul_smul, trace_smul, mul_vecMulVec, hzx, trace_vecMulVec,
      neg_dotProduct, smul_eq_mul]
    field_simp; ring
  have hle : (Z * H).trace ≤ m := by
    calc (Z * H).trace ≤ ∑ _i : Fin m, (1 : ℝ) := Finset.sum_le_sum fun i _ => orth_diag_le hZH i
      _ = m := by simp
  linarith

/-- C84: it is the closest rotation: no rotation has a larger inner product with `X`. -/
theorem C84_ortho_retract_nearest (hm : 0 < m) (svd) (hs : SvdOk (m := m) svd) (X R : Matrix (Fin m) (Fin m) ℝ)
    (hR : Rᵀ * R = 1) (hd : R.det = 1) :
    fro (X - orthoRetract svd X) (X - orthoRetract svd X) ≤ fro (X - R) (X - R) := by
  have hR1 := C84_ortho_retract hm svd hs X
  have expand : ∀ R : Matrix (Fin m) (Fin m) ℝ, Rᵀ * R = 1 →
      fro (X - R) (X - R) = fro X X - 2 * fro R X + m := fun R hR => by
    rw [fro_trace, transpose_sub, Matrix.sub_mul, Matrix.mul_sub, Matrix.mul_sub, hR, trace_sub, trace_sub, trace_sub,
      trace_one, ← fro_trace, ← fro_trace, ← fro_trace, fro_comm X R]
    simp; ring
  rw [expand _ hR1.1, expand _ hR]
  suffices h : fro R X ≤ fro (orthoRetract svd X) X by linarith
  set U := (svd X).1
  set V := (svd X).2.2
  set d := (svd X).2.1
  have hX : U * diagonal d * V = X := hs.eq X
  have hu : Uᵀ * U = 1 := hs.u X
  have hu' : U * Uᵀ = 1 := mul_eq_one_comm.1 hu
  have hv : V * Vᵀ = 1 := hs.v X
  have hv' : Vᵀ * V = 1 := mul_eq_one_comm.1 hv
  have key : ∀ R : Matrix (Fin m) (Fin m) ℝ, fro R X = ∑ i, (V * Rᵀ * U) i i * d i := fun R => by
    rw [fro_trace]
    conv_lhs => rw [← hX]
    rw [show Rᵀ * (U * diagonal d * V) = (Rᵀ * U * diagonal d) * V by simp only [Matrix.mul_assoc],
      Matrix.trace_mul_comm, show V * (Rᵀ * U * diagonal d) = (V * Rᵀ * U) * diagonal d by simp only [Matrix.mul_assoc]]
    simp [Matrix.trace, Matrix.mul_diagonal]
  rw [key, key]
  have hZ : (V * Rᵀ * U)ᵀ * (V * Rᵀ * U) = 1 := by
    rw [transpose_mul, transpose_mul, transpose_transpose]
    have hR' : R * Rᵀ = 1 := mul_eq_one_comm.1 hR
    rw [show Uᵀ * (R * Vᵀ) * (V * Rᵀ * U) = Uᵀ * (R * (Vᵀ * V) * Rᵀ) * U by simp only [Matrix.mul_assoc], hv',
      Matrix.mul_one, hR', Matrix.mul_one, hu]
  have hn : ∀ i, 0 ≤ d i := hs.nonneg X
  by_cases hneg : (U * V).det < 0
  · have hr : orthoRetract svd X = U * (flipD m * V) := by rw [orthoRetract_eq]; exact if_pos hneg
    have hW : V * (orthoRetract svd X)ᵀ * U = flipD m := by
      rw [hr, transpose_mul, transpose_mul, flipD_t,
        show V * (Vᵀ * flipD m * Uᵀ) * U = (V * Vᵀ) * flipD m * (Uᵀ * U) by simp only [Matrix.mul_assoc], hv, hu,
        Matrix.one_mul, Matrix.mul_one]
    rw [hW]
    have hdet : (V * Rᵀ * U).det = -1 := by
      rw [det_mul, det_mul, det_transpose, hd, mul_one, mul_comm]
      have : (U * V)ᵀ * (U * V) = 1 := by
        rw [transpose_mul, Matrix.mul_assoc, ← Matrix.mul_assoc Uᵀ, hu, Matrix.one_mul, hv']
      rcases orth_det this with h | h
      · rw [h] at hneg; norm_num at hneg
      · rwa [det_mul] at h
    have htr := orth_trace_le hZ hdet
    obtain ⟨n, rfl⟩ : ∃ n, m = n + 1 := ⟨m - 1, by omega⟩
    set e := d (Fin.last n)
    have he : ∀ i, e ≤ d i := fun i => hs.anti X i _ (Fin.le_last i)
    have h1 : ∑ i, (V * Rᵀ * U) i i * d i = ∑ i, (V * Rᵀ * U) i i * (d i - e) + e * (V * Rᵀ * U).trace := by
      rw [Matrix.trace, Finset.mul_sum, ← Finset.sum_add_distrib]
      exact Finset.sum_congr rfl fun i _ => by rw [Matrix.diag]; ring
    have h2 : ∑ i, (V * Rᵀ * U) i i * (d i - e) ≤ ∑ i, (d i - e) :=
      Finset.sum_le_sum fun i _ => by
        have := orth_diag_le hZ i
        have := he i
        nlinarith
    have h3 : e * (V * Rᵀ * U).trace ≤ e * ((n + 1 : ℕ) - 2) := mul_le_mul_of_nonneg_left htr (hn _)
    have h4 : ∑ i, flipD (n + 1) i i * d i = ∑ i, d i - 2 * e := by
      rw [Fin.sum_univ_castSucc, Fin.sum_univ_castSucc (f := d)]
      have : ∀ i : Fin n, flipD (n + 1) i.castSucc i.castSucc * d i.castSucc = d i.castSucc := fun i => by
        rw [flipD, diagonal_apply_eq, if_neg (by simp; exact i.2.ne), one_mul]
      rw [Finset.sum_congr rfl fun i _ => this i, flipD, diagonal_apply_eq, if_pos (by simp)]
      ring
    rw [h1, h4]
    rw [Finset.sum_sub_distrib, Finset.sum_const, Finset.card_univ, Fintype.card_fin, nsmul_eq_mul] at h2
    linarith
  · have hr : orthoRetract svd X = U * V := by rw [orthoRetract_eq]; exact if_neg hneg
    have hW : V * (orthoRetract svd X)ᵀ * U = 1 := by
      rw [hr, transpose_mul,
        show V * (Vᵀ * Uᵀ) * U = (V * Vᵀ) * (Uᵀ * U) by simp only [Matrix.mul_assoc], hv, hu, Matrix.one_mul]
    rw [hW]
    refine Finset.sum_le_sum fun i _ => ?_
    rw [one_apply_eq]
    exact mul_le_mul_of_nonneg_right (orth_diag_le hZ i) (hn i)

/-- C84: `ObliqueRotation.constraint_retract` gives unit columns, in the same directions. -/
theorem C84_oblique_retract (X : Matrix (Fin m) (Fin m) ℝ) (hX : ∀ j, ∃ i, X i j ≠ 0) :
    (∀ j, ∑ i, oblRetract X i j * oblRetract X i j = 1) ∧
    (∀ j, ∃ a > 0, ∀ i, X i j = a * oblRetract X i j) := by
  have hpos : ∀ j, 0 < ∑ a, X a j * X a j := fun j => by
    obtain ⟨i, hi⟩ := hX j
    exact lt_of_lt_of_le (mul_self_pos.2 hi)
      (Finset.single_le_sum (f := fun a => X a j * X a j) (fun a _ => mul_self_nonneg _) (Finset.mem_univ i))
  refine ⟨fun j => ?_, fun j => ⟨√(∑ a, X a j * X a j), Real.sqrt_pos.2 (hpos j), fun i => ?_⟩⟩
  · simp only [oblRetract, of_apply, div_mul_div_comm, Real.mul_self_sqrt (hpos j).le]
    rw [← Finset.sum_div, div_self (hpos j).ne']
  · rw [oblRetract, of_apply, mul_div_cancel₀ _ (Real.sqrt_pos.2 (hpos j)).ne']

/-- C84: a step along the projected gradient never meets a zero column, so no division by zero occurs in
`GPA`. -/
theorem C84_oblique_step (T G : Matrix (Fin m) (Fin m) ℝ) (hT : ∀ j, ∑ i, T i j * T i j = 1) (a : ℝ) (j : Fin m) :
    1 ≤ ∑ i, (T - a • oblProject T G) i j * (T - a • oblProject T G) i j := by
  have z := (C84_oblique_project T G hT).1 j
  have : ∀ i, (T - a • oblProject T G) i j * (T - a • oblProject T G) i j =
      T i j * T i j - 2 * a * (T i j * oblProject T G i j) + a ^ 2 * (oblProject T G i j * oblProject T G i j) := fun i => by
    simp only [Matrix.sub_apply, Matrix.smul_apply, smul_eq_mul]; ring
  rw [Finset.sum_congr rfl fun i _ => this i, Finset.sum_add_distrib, Finset.sum_sub_distrib, ← Finset.mul_sum, z, hT,
    ← Finset.mul_sum]
  have : 0 ≤ ∑ i, oblProject T G i j * oblProject T G i j := Finset.sum_nonneg fun i _ => mul_self_nonneg _
  nlinarith [sq_nonneg a]

/-! ## the model is unchanged by rotation -/

/-- C84: orthogonal rotation leaves the implied common covariance `L Φ Lᵀ` unchanged. -/
theorem C84_ortho_invariant (A : Matrix (Fin p) (Fin m) ℝ) (T : Matrix (Fin m) (Fin m) ℝ) (hT : Tᵀ * T = 1) :
    orthoLoad A T * orthoCorr T * (orthoLoad A T)ᵀ = A * Aᵀ := by
  rw [orthoLoad, orthoCorr, Matrix.mul_one, transpose_mul, Matrix.mul_assoc, ← Matrix.mul_assoc T,
    mul_eq_one_comm.1 hT, Matrix.one_mul]

/-- C84: so does oblique rotation; the implied correlations are symmetric with unit diagonal. -/
theorem C84_oblique_invariant (A : Matrix (Fin p) (Fin m) ℝ) (T : Matrix (Fin m) (Fin m) ℝ)
    (hT : ∀ j, ∑ i, T i j * T i j = 1) (L) (hL : oblLoad A T = some L) :
    L * oblCorr T * Lᵀ = A * Aᵀ ∧ (oblCorr T)ᵀ = oblCorr T ∧ ∀ j, oblCorr T j j = 1 := by
  rw [oblLoad, Option.map_eq_some_iff] at hL
  obtain ⟨Ti, h, rfl⟩ := hL
  obtain ⟨hu, rfl⟩ := inv?_eq h
  refine ⟨?_, ?_, ?_⟩
  · have h1 : (T⁻¹)ᵀ * Tᵀ = 1 := by rw [← transpose_mul, mul_nonsing_inv _ hu, transpose_one]
    rw [oblCorr, transpose_mul, transpose_transpose,
      show A * (T⁻¹)ᵀ * (Tᵀ * T) * (T⁻¹ * Aᵀ) = A * ((T⁻¹)ᵀ * Tᵀ) * (T * T⁻¹) * Aᵀ by simp only [Matrix.mul_assoc],
      h1, mul_nonsing_inv _ hu, Matrix.mul_one, Matrix.mul_one]
  · rw [oblCorr, transpose_mul, transpose_transpose]
  · intro j; rw [oblCorr, Matrix.mul_apply]; exact hT j

/-! ## Cayley coordinates -/

/-- Sums over the strict lower triangle. -/
theorem sum_tril1 (f : ℕ × ℕ → ℝ) : ((trilIndices m (-1) true).map f).sum =
    ∑ i : Fin m, ∑ j : Fin m, if j < i then f (i, j) else 0 := by
  rw [← List.sum_toFinset _ (nodup_tril1 m)]
  have : (trilIndices m (-1) true).toFinset =
      (Finset.range m ×ˢ Finset.range m).filter fun q => q.2 < q.1 := by
    ext ⟨i, j⟩
    rw [List.mem_toFinset, mem_tril1, Finset.mem_filter, Finset.mem_product, Finset.mem_range, Finset.mem_range]
    simp only
    omega
  rw [this, Finset.sum_filter, Finset.sum_product, Finset.sum_range]
  refine Finset.sum_congr rfl fun i _ => ?_
  rw [Finset.sum_range]
  exact Finset.sum_congr rfl fun j _ => if_congr Fin.lt_def.symm rfl rfl

/-- The matrix of `vec_to_skew`. -/
def skewM (m : ℕ) (v : ℕ × ℕ → ℝ) : Matrix (Fin m) (Fin m) ℝ := Matrix.of fun i j =>
  if j < i then v (i, j) else if i < j then -v (j, i) else 0

theorem skewM_t (v : ℕ × ℕ → ℝ) : (skewM m v)ᵀ = -skewM m v := by
  ext i j
  simp only [transpose_apply, skewM, of_apply, Matrix.neg_apply]
  rcases lt_trichotomy i j with h | h | h
  · simp [h, h.not_gt]
  · simp [h]
  · simp [h, h.not_gt]

theorem skewM_fro (K : Matrix (Fin m) (Fin m) ℝ) (v : ℕ × ℕ → ℝ) :
    fro K (skewM m v) = ∑ i, ∑ j, if j < i then (K i j - K j i) * v (i, j) else 0 := by
  have h1 : fro K (skewM m v) = (∑ i : Fin m, ∑ j : Fin m, if j < i then K i j * v (i, j) else 0) -
      ∑ i : Fin m, ∑ j : Fin m, if i < j then K i j * v (j, i) else 0 := by
    rw [← Finset.sum_sub_distrib]
    refine Finset.sum_congr rfl fun i _ => ?_
    rw [← Finset.sum_sub_distrib]
    refine Finset.sum_congr rfl fun j _ => ?_
    rw [skewM, of_apply]
    rcases lt_trichotomy i j with h | h | h
    · simp [h, h.not_gt]
    · simp [h]
    · simp [h, h.not_gt]
  rw [h1, Finset.sum_comm (f := fun (i j : Fin m) => if i < j then K i j * v (j, i) else 0), ← Finset.sum_sub_distrib]
  refine Finset.sum_congr rfl fun i _ => ?_
  rw [← Finset.sum_sub_distrib]
  refine Finset.sum_congr rfl fun j _ => ?_
  by_cases h : j < i
  · simp only [h, if_true]; ring
  · simp [h]

/-- C85: `d_rotation` pulls a gradient in `T` back to the coordinates: along any differentiable path of
coordinates, the derivative of `⟨H, T(θ)⟩` is the inner product of `d_rotation(θ, H)` with the velocity. -/
theorem C85_d_rotation (v : ℝ → ℕ × ℕ → ℝ) (v' : ℕ × ℕ → ℝ)
    (hv : ∀ q, HasDerivAt (fun t => v t q) (v' q) 0) :
    ∃ (T : ℝ → Matrix (Fin m) (Fin m) ℝ) (T' : Matrix (Fin m) (Fin m) ℝ),
      (∀ t, vecToRot ((trilIndices m (-1) true).map (v t)) m = some (T t)) ∧ MD T T' ∧
      ∀ H, ∃ g : ℕ × ℕ → ℝ, dRotation ((trilIndices m (-1) true).map (v 0)) H =
        some ((trilIndices m (-1) true).map g) ∧
        fro H T' = ((trilIndices m (-1) true).map fun q => g q * v' q).sum := by
  have hu : ∀ t, IsUnit (1 + skewM m (v t)).det := fun t => skew_isUnit (skewM_t _)
  have hS : MD (fun t => skewM m (v t)) (skewM m v') := fun i j => by
    simp only [skewM, of_apply]
    split
    · exact hv _
    · split
      · exact (hv _).fun_neg
      · exact hasDerivAt_const _ _
  have h1 : MD (fun t => 1 + skewM m (v t)) (skewM m v') :=
    ((MD.const 1).add hS).congr (zero_add _)
  refine ⟨fun t => (2 : ℝ) • (1 + skewM m (v t))⁻¹ - 1, _, fun t => ?_,
    (((h1.inv (hu 0)).smul 2).sub (MD.const 1)), ?_⟩
  · rw [vecToRot, vecToSkew_map]
    exact cayley_some (hu t)
  · intro H
    set N := (1 + skewM m (v 0))⁻¹ with hN
    set K := N * Hᵀ * N with hK
    refine ⟨fun q => 2.0 * entry (K - Kᵀ) q.1 q.2, ?_, ?_⟩
    · rw [dRotation, vecToSkew_map]
      refine (if_pos (hu 0)).trans ?_
      have e : (((1 + skewM m (v 0))ᵀ)⁻¹ * ((1 + skewM m (v 0))⁻¹ * Hᵀ)ᵀ)ᵀ = K := by
        rw [transpose_mul, transpose_transpose, transpose_nonsing_inv, transpose_transpose]
      change some (List.map _ (skewToVec ((((1 + skewM m (v 0))ᵀ)⁻¹ * ((1 + skewM m (v 0))⁻¹ * Hᵀ)ᵀ)ᵀ -
        ((((1 + skewM m (v 0))ᵀ)⁻¹ * ((1 + skewM m (v 0))⁻¹ * Hᵀ)ᵀ)ᵀ)ᵀ))) = _
      rw [e, skewToVec, List.map_map]
      rfl
    · rw [sum_tril1]
      have h2 : ∀ i j : Fin m, (if j < i then (2.0 * entry (K - Kᵀ) i j) * v' (i, j) else 0) =
          2 * (if j < i then (K i j - K j i) * v' (i, j) else 0) := fun i j => by
        rw [entry_fin]; split
        · rw [Matrix.sub_apply, transpose_apply]; norm_num; ring
        · ring
      simp only [h2, ← Finset.mul_sum]
      rw [← skewM_fro, sub_zero, fro_trace, fro_trace]
      beta_reduce
      rw [Matrix.mul_smul, trace_smul, Matrix.mul_neg, trace_neg,
        show Hᵀ * (N * skewM m v' * N) = (Hᵀ * N * skewM m v') * N by simp only [Matrix.mul_assoc], Matrix.trace_mul_comm,
        show N * (Hᵀ * N * skewM m v') = K * skewM m v' by rw [hK]; simp only [Matrix.mul_assoc]]
      have : (Kᵀ * skewM m v').trace = -(K * skewM m v').trace := by
        rw [← trace_transpose, transpose_mul, transpose_transpose, skewM_t, Matrix.neg_mul, trace_neg, Matrix.trace_mul_comm]
      rw [this, smul_eq_mul]

/-- C85: the pair returned by `CayleySolver._fg` is the criterion and its gradient in the coordinates. -/
theorem C85_fg (c : Crit p m) (hc : CritOk c) (A : Matrix (Fin p) (Fin m) ℝ) (v : ℝ → ℕ × ℕ → ℝ) (v' : ℕ × ℕ → ℝ)
    (hv : ∀ q, HasDerivAt (fun t => v t q) (v' q) 0) :
    ∃ (f : ℝ → ℝ) (g : ℕ × ℕ → ℝ),
      (∀ t, (cayleyFg c ((trilIndices m (-1) true).map (v t)) A).map Prod.fst = some (f t)) ∧
      (cayleyFg c ((trilIndices m (-1) true).map (v 0)) A).map Prod.snd = some ((trilIndices m (-1) true).map g) ∧
      HasDerivAt f ((trilIndices m (-1) true).map fun q => g q * v' q).sum 0 := by
  obtain ⟨T, T', h1, h2, h3⟩ := C85_d_rotation (m := m) v v' hv
  obtain ⟨g, hg, hsum⟩ := h3 (orthoGrad A (T 0) (c.dQ (orthoLoad A (T 0))))
  refine ⟨fun t => c.Q (orthoLoad A (T t)), g, fun t => ?_, ?_, ?_⟩
  · obtain ⟨_, _, k1, _, k3⟩ := C85_d_rotation (m := m) (fun _ => v t) (fun _ => 0) fun q => hasDerivAt_const _ _
    obtain ⟨g', hg', _⟩ := k3 (orthoGrad A (T t) (c.dQ (orthoLoad A (T t))))
    rw [cayleyFg, h1 t]
    simp only [Option.bind_eq_bind, Option.bind_some, hg', Option.map_some]
  · rw [cayleyFg, h1 0]
    simp only [Option.bind_eq_bind, Option.bind_some, hg, Option.map_some]
  · rw [← hsum]; exact C84_ortho_grad c hc A T T' h2

end Verif.Fa
