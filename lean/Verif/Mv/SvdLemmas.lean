import Mathlib.Analysis.InnerProductSpace.PiL2
import Mathlib.Data.Fin.Tuple.Sort
import Verif.Cov.PsdProps
import Verif.Fa.Rotation
import Verif.Mv.Cca

/-!
Existence of singular value decompositions: the contracts placed on `np.linalg.svd` can be met.
-/

open Matrix

namespace Verif.Mv

/-- A symmetric matrix has an eigendecomposition with eigenvalues in decreasing order. -/
theorem eigh_sorted {p : ℕ} (K : Matrix (Fin p) (Fin p) ℝ) (hK : K.IsSymm) :
    ∃ (V : Matrix (Fin p) (Fin p) ℝ) (d : Fin p → ℝ), Vᵀ * V = 1 ∧ Vᵀ * K * V = diagonal d ∧ ∀ i j, i ≤ j → d j ≤ d i := by
  obtain ⟨eigh, he⟩ := Verif.Cov.eigh_exists p
  obtain ⟨h1, h2⟩ := he K hK
  set W := (eigh K).2
  set e := (eigh K).1
  let π := Tuple.sort fun i => -e i
  have hW : Wᵀ * K * W = diagonal e := by
    rw [h2]
    rw [show Wᵀ * (W * diagonal e * Wᵀ) * W = (Wᵀ * W) * diagonal e * (Wᵀ * W) by simp only [Matrix.mul_assoc], h1]
    rw [Matrix.one_mul, Matrix.mul_one]
  refine ⟨W.submatrix id π, fun i => e (π i), ?_, ?_, ?_⟩
  · ext i j
    have := congrFun (congrFun h1 (π i)) (π j)
    rw [Matrix.mul_apply, Matrix.one_apply] at this ⊢
    simpa using this
  · ext i j
    have := congrFun (congrFun hW (π i)) (π j)
    rw [Matrix.mul_apply, Matrix.diagonal_apply] at this ⊢
    simpa [Matrix.mul_apply] using this
  · intro i j hij
    have := Tuple.monotone_sort (fun i => -e i) hij
    simp only [Function.comp_apply] at this
    show e (π j) ≤ e (π i)
    linarith

/-- The thin decomposition of a matrix with at most as many rows as columns. -/
theorem svd_wide {p q : ℕ} (hpq : p ≤ q) (A : Matrix (Fin p) (Fin q) ℝ) :
    ∃ (U : Matrix (Fin p) (Fin p) ℝ) (s : Fin p → ℝ) (Vt : Matrix (Fin p) (Fin q) ℝ),
      U * diagonal s * Vt = A ∧ Uᵀ * U = 1 ∧ Vt * Vtᵀ = 1 ∧ (∀ i, 0 ≤ s i) ∧ ∀ i j, i ≤ j → s j ≤ s i := by
  obtain ⟨U, d, hU, hd, hs⟩ := eigh_sorted (A * Aᵀ) (by rw [IsSymm, transpose_mul, transpose_transpose])
  set B := Uᵀ * A with hB
  have hBB : B * Bᵀ = diagonal d := by
    rw [hB, transpose_mul, transpose_transpose, ← hd]
    simp only [Matrix.mul_assoc]
  have hrow : ∀ i j, ∑ k, B i k * B j k = if i = j then d i else 0 := by
    intro i j
    have := congrFun (congrFun hBB i) j
    rwa [Matrix.mul_apply, Matrix.diagonal_apply] at this
  have hdn : ∀ i, 0 ≤ d i := fun i => by
    have := hrow i i
    rw [if_pos rfl] at this
    rw [← this]
    exact Finset.sum_nonneg fun k _ => mul_self_nonneg _
  let v : Fin q → EuclideanSpace ℝ (Fin q) := fun i =>
    if h : (i : ℕ) < p then WithLp.toLp 2 (fun k => B ⟨i, h⟩ k / √(d ⟨i, h⟩)) else 0
  let S : Set (Fin q) := {i | ∃ h : (i : ℕ) < p, d ⟨i, h⟩ ≠ 0}
  have hv : Orthonormal ℝ (S.restrict v) := by
    rw [orthonormal_iff_ite]
    rintro ⟨i, hi, di⟩ ⟨j, hj, dj⟩
    have vi : ∀ (i : Fin q) (hi : (i : ℕ) < p), v i = WithLp.toLp 2 (fun k => B ⟨i, hi⟩ k / √(d ⟨i, hi⟩)) := fun i hi => dif_pos hi
    rw [show S.restrict v ⟨i, hi, di⟩ = v i from rfl, show S.restrict v ⟨j, hj, dj⟩ = v j from rfl, vi i hi, vi j hj, PiLp.inner_apply]
    simp only [Subtype.mk.injEq, RCLike.inner_apply, conj_trivial]
    have e : ∀ k, B ⟨j, hj⟩ k / √(d ⟨j, hj⟩) * (B ⟨i, hi⟩ k / √(d ⟨i, hi⟩)) = B ⟨j, hj⟩ k * B ⟨i, hi⟩ k / (√(d ⟨j, hj⟩) * √(d ⟨i, hi⟩)) :=
      fun k => by rw [div_mul_div_comm]
    rw [Finset.sum_congr rfl fun k _ => e k, ← Finset.sum_div, hrow]
    by_cases hij : i = j
    · subst hij
      rw [if_pos rfl, if_pos rfl, Real.mul_self_sqrt (hdn _), div_self di]
    · rw [if_neg (fun h => hij (Fin.ext (by simpa using (congrArg Fin.val h).symm))), if_neg hij, zero_div]
  obtain ⟨b, hb⟩ := hv.exists_orthonormalBasis_extension_of_card_eq (by simp)
  obtain ⟨Vt, hVt⟩ : ∃ Vt : Matrix (Fin p) (Fin q) ℝ, ∀ i k, Vt i k = (b (Fin.castLE hpq i)).ofLp k := ⟨fun i k => (b (Fin.castLE hpq i)).ofLp k, fun _ _ => rfl⟩
  refine ⟨U, fun i => √(d i), Vt, ?_, hU, ?_, fun i => Real.sqrt_nonneg _, fun i j hij => Real.sqrt_le_sqrt (hs i j hij)⟩
  · have hDV : diagonal (fun i => √(d i)) * Vt = B := by
      ext i k
      rw [Matrix.diagonal_mul]
      by_cases h0 : d i = 0
      · have := hrow i i
        rw [if_pos rfl, h0] at this
        have hz := (Finset.sum_eq_zero_iff_of_nonneg fun k _ => mul_self_nonneg (B i k)).1 this k (Finset.mem_univ _)
        rw [h0, Real.sqrt_zero, zero_mul, mul_self_eq_zero.1 hz]
      · have hm : Fin.castLE hpq i ∈ S := ⟨i.2, h0⟩
        have e := hb _ hm
        rw [hVt, e]
        simp only [v, Fin.val_castLE, Fin.is_lt, dif_pos, Fin.eta]
        rw [mul_div_cancel₀]
        exact (Real.sqrt_pos.2 (lt_of_le_of_ne (hdn i) (Ne.symm h0))).ne'
    rw [Matrix.mul_assoc, hDV, hB, ← Matrix.mul_assoc, mul_eq_one_comm.1 hU, Matrix.one_mul]
  · ext i j
    have := orthonormal_iff_ite.1 b.orthonormal (Fin.castLE hpq i) (Fin.castLE hpq j)
    rw [PiLp.inner_apply] at this
    simp only [RCLike.inner_apply, conj_trivial, Fin.castLE_inj] at this
    rw [Matrix.mul_apply, Matrix.one_apply, ← this]
    exact Finset.sum_congr rfl fun k _ => by rw [transpose_apply, hVt, hVt, mul_comm]

/-- The contract of the thin singular value decomposition can be met for all shapes. -/
theorem svdThin_exists (p q r : ℕ) (hr : r = min p q) :
    ∃ svd : Matrix (Fin p) (Fin q) ℝ → Matrix (Fin p) (Fin r) ℝ × (Fin r → ℝ) × Matrix (Fin r) (Fin q) ℝ, SvdThin svd := by
  have key : ∀ A : Matrix (Fin p) (Fin q) ℝ, ∃ x : Matrix (Fin p) (Fin r) ℝ × (Fin r → ℝ) × Matrix (Fin r) (Fin q) ℝ,
      x.1 * diagonal x.2.1 * x.2.2 = A ∧ x.1ᵀ * x.1 = 1 ∧ x.2.2 * x.2.2ᵀ = 1 ∧ (∀ i, 0 ≤ x.2.1 i) ∧ ∀ i j, i ≤ j → x.2.1 j ≤ x.2.1 i := by
    intro A
    rcases le_total p q with h | h
    · rw [min_eq_left h] at hr
      subst hr
      obtain ⟨U, s, V, a, b, c, d, e⟩ := svd_wide h A
      exact ⟨(U, s, V), a, b, c, d, e⟩
    · rw [min_eq_right h] at hr
      subst hr
      obtain ⟨U, s, V, a, b, c, d, e⟩ := svd_wide h Aᵀ
      refine ⟨(Vᵀ, s, Uᵀ), ?_, by rwa [transpose_transpose], by rwa [transpose_transpose], d, e⟩
      have := congrArg transpose a
      rw [transpose_transpose, transpose_mul, transpose_mul, diagonal_transpose] at this
      rw [← this, Matrix.mul_assoc]
  choose f hf using key
  exact ⟨f, hr, fun A => (hf A).1, fun A => (hf A).2.1, fun A => (hf A).2.2.1, fun A => (hf A).2.2.2.1, fun A => (hf A).2.2.2.2⟩

/-- The contract of the square decomposition of the rotation routines can be met. -/
theorem svdOk_exists (m : ℕ) : ∃ svd, Verif.Fa.SvdOk (m := m) svd := by
  obtain ⟨svd, h⟩ := svdThin_exists m m m (min_self m).symm
  exact ⟨svd, h.eq, h.u, h.v, h.nonneg, h.anti⟩

end Verif.Mv
