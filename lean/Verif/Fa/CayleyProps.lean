import Verif.Fa.Model
import Verif.Vec.Lemmas
import Mathlib.LinearAlgebra.Matrix.ToLinearEquiv
import Mathlib.LinearAlgebra.Matrix.DotProduct
import Mathlib.Tactic.NoncommRing
import Mathlib.Tactic.FinCases
import Mathlib.Tactic.NormNum
/-!
# The Cayley parametrisation of rotations (C39)
-/
namespace Verif.Fa
open Matrix Verif.Np Verif.Index Verif.Vec

theorem mem_tril1 {m i j : ℕ} : (i, j) ∈ trilIndices m (-1) true ↔ j < i ∧ i < m := by
  simp only [trilIndices, if_true, List.mem_map, Prod.exists, Prod.swap_prod_mk, Prod.mk.injEq]
  constructor
  · rintro ⟨a, b, h, rfl, rfl⟩
    rw [mem_npTriu] at h
    omega
  · intro h
    exact ⟨j, i, mem_npTriu.2 (by omega), rfl, rfl⟩

theorem nodup_tril1 (m : ℕ) : (trilIndices m (-1) true).Nodup := by
  simp only [trilIndices, if_true]
  exact (nodup_npTriu m _).map Prod.swap_injective

theorem length_tril1 (m : ℕ) : (trilIndices m (-1) true).length = m * (m - 1) / 2 := by
  simp only [trilIndices, if_true, List.length_map]
  exact length_npTriu_one m

theorem entry_fin {p m : ℕ} (S : Matrix (Fin p) (Fin m) ℝ) (i : Fin p) (j : Fin m) :
    entry S i j = S i j := by simp [entry]

theorem entry_lt {p m : ℕ} (S : Matrix (Fin p) (Fin m) ℝ) {i j : ℕ} (hi : i < p) (hj : j < m) :
    entry S i j = S ⟨i, hi⟩ ⟨j, hj⟩ := by simp [entry, hi, hj]

/-- The matrix built by `vec_to_skew` from values indexed by the strict lower triangle. -/
theorem vecToSkew_map (m : ℕ) (v : ℕ × ℕ → ℝ) :
    vecToSkew ((trilIndices m (-1) true).map v) m = some (Matrix.of fun i j : Fin m =>
      if j < i then v (i, j) else if i < j then -v (j, i) else 0) := by
  have e2 : (((trilIndices m (-1) true).map v).map fun x => -x) =
      ((trilIndices m (-1) true).map Prod.swap).map fun q => -v q.swap := by
    simp only [List.map_map, Function.comp_def, Prod.swap_swap]
  simp only [vecToSkew, assign2, List.length_map, if_true]
  rw [e2]
  simp only [Option.bind_eq_bind, Option.bind_some]
  congr 1
  ext i j
  simp only [toMat, of_apply]
  rw [scatter2_map, scatter2_map]
  have hm : ((i : ℕ), (j : ℕ)) ∈ (trilIndices m (-1) true).map Prod.swap ↔ i < j := by
    rw [List.mem_map]
    constructor
    · rintro ⟨⟨a, b⟩, h, e⟩
      rw [mem_tril1] at h
      simp only [Prod.swap_prod_mk, Prod.mk.injEq] at e
      exact Fin.lt_def.2 (by omega)
    · intro h
      exact ⟨(j, i), mem_tril1.2 ⟨h, j.2⟩, rfl⟩
  have hm2 : ((i : ℕ), (j : ℕ)) ∈ trilIndices m (-1) true ↔ j < i := by
    rw [mem_tril1]; exact ⟨fun h => Fin.lt_def.2 h.1, fun h => ⟨h, i.2⟩⟩
  simp only [hm, hm2, Prod.swap_prod_mk]
  rcases lt_trichotomy i j with h | h | h
  · simp [h, h.not_gt]
  · simp [h]
  · simp [h, h.not_gt]

theorem exists_vals (m : ℕ) (theta : List ℝ) (h : theta.length = m * (m - 1) / 2) :
    ∃ v : ℕ × ℕ → ℝ, theta = (trilIndices m (-1) true).map v :=
  exists_map_of_nodup _ (nodup_tril1 m) theta (by rw [length_tril1, h])

/-- C39: `vec_to_skew` gives a skew-symmetric matrix that `skew_to_vec` reads back. -/
theorem C39_skew (m : ℕ) (theta : List ℝ) (h : theta.length = m * (m - 1) / 2) :
    ∃ S, vecToSkew theta m = some S ∧ Sᵀ = -S ∧ skewToVec S = theta := by
  obtain ⟨v, rfl⟩ := exists_vals m theta h
  refine ⟨_, vecToSkew_map m v, ?_, ?_⟩
  · ext i j
    simp only [transpose_apply, of_apply, Matrix.neg_apply]
    rcases lt_trichotomy i j with h | h | h
    · simp [h, h.not_gt]
    · simp [h]
    · simp [h, h.not_gt]
  · rw [skewToVec]
    apply List.map_congr_left
    rintro ⟨i, j⟩ hij
    rw [mem_tril1] at hij
    rw [entry_lt _ hij.2 (hij.1.trans hij.2), of_apply, if_pos (Fin.lt_def.2 hij.1)]

/-- C39: every skew-symmetric matrix comes from its vector. -/
theorem C39_skew_inv {m : ℕ} (S : Matrix (Fin m) (Fin m) ℝ) (h : Sᵀ = -S) :
    vecToSkew (skewToVec S) m = some S := by
  rw [skewToVec, vecToSkew_map m (fun ij => entry S ij.1 ij.2)]
  congr 1
  ext i j
  have e : ∀ i j, S j i = -S i j := fun i j => congrFun (congrFun h i) j
  rw [of_apply]
  rcases lt_trichotomy i j with h | h | h
  · rw [if_neg h.not_gt, if_pos h, entry_fin, e i j, neg_neg]
  · subst h
    rw [if_neg (lt_irrefl _), if_neg (lt_irrefl _)]
    linarith [e i i]
  · rw [if_pos h, entry_fin]

theorem skew_isUnit {m : ℕ} {S : Matrix (Fin m) (Fin m) ℝ} (h : Sᵀ = -S) :
    IsUnit (1 + S).det := by
  rw [isUnit_iff_ne_zero]
  intro h0
  obtain ⟨x, hx, h1⟩ := Matrix.exists_mulVec_eq_zero_iff.2 h0
  have h2 : x ⬝ᵥ (S *ᵥ x) = 0 := by
    have e : x ⬝ᵥ (S *ᵥ x) = -(x ⬝ᵥ (S *ᵥ x)) := by
      conv_lhs => rw [dotProduct_mulVec, ← mulVec_transpose, h, neg_mulVec, neg_dotProduct,
        dotProduct_comm]
    linarith
  have h3 : x ⬝ᵥ x = 0 := by
    have := congrArg (x ⬝ᵥ ·) h1
    simp only [add_mulVec, one_mulVec, dotProduct_add, h2, add_zero, dotProduct_zero] at this
    exact this
  exact hx (dotProduct_self_eq_zero.1 h3)

theorem cayley_some {m : ℕ} {S : Matrix (Fin m) (Fin m) ℝ} (h : IsUnit (1 + S).det) :
    cayley S = some ((2 : ℝ) • (1 + S)⁻¹ - 1) := by
  rw [cayley]; exact if_pos h

/-- The Cayley transform in product form. -/
theorem cayley_prod {m : ℕ} {S : Matrix (Fin m) (Fin m) ℝ} (h : IsUnit (1 + S).det) :
    (2 : ℝ) • (1 + S)⁻¹ - 1 = (1 - S) * (1 + S)⁻¹ := by
  have h1 : (1 : Matrix (Fin m) (Fin m) ℝ) = (1 + S) * (1 + S)⁻¹ := (mul_nonsing_inv _ h).symm
  have h2 : (2 : ℝ) • (1 + S)⁻¹ = ((1 + S) + (1 - S)) * (1 + S)⁻¹ := by
    rw [show (1 + S) + (1 - S) = (2 : ℝ) • (1 : Matrix (Fin m) (Fin m) ℝ) by
      rw [two_smul]; abel]
    rw [smul_mul_assoc, one_mul]
  rw [h2, add_mul, ← h1]
  abel

theorem cayley_prod' {m : ℕ} {S : Matrix (Fin m) (Fin m) ℝ} (h : IsUnit (1 + S).det) :
    (2 : ℝ) • (1 + S)⁻¹ - 1 = (1 + S)⁻¹ * (1 - S) := by
  have h1 : (1 + S)⁻¹ * (1 + S) = 1 := nonsing_inv_mul _ h
  have h2 : (2 : ℝ) • (1 + S)⁻¹ = (1 + S)⁻¹ * ((1 + S) + (1 - S)) := by
    rw [show (1 + S) + (1 - S) = (2 : ℝ) • (1 : Matrix (Fin m) (Fin m) ℝ) by
      rw [two_smul]; abel]
    rw [mul_smul_comm, mul_one]
  rw [h2, mul_add, h1]
  abel

/-- The Cayley transform of a skew-symmetric matrix is orthogonal with determinant one, and the
transform is an involution. -/
theorem cayley_skew {m : ℕ} {S : Matrix (Fin m) (Fin m) ℝ} (h : Sᵀ = -S) :
    ∃ Q, cayley S = some Q ∧ Qᵀ * Q = 1 ∧ Q.det = 1 ∧ cayley Q = some S := by
  have hu := skew_isUnit h
  have ht : (1 + S)ᵀ = 1 - S := by rw [transpose_add, transpose_one, h, sub_eq_add_neg]
  have hu' : IsUnit (1 - S).det := by rw [← ht, det_transpose]; exact hu
  refine ⟨_, cayley_some hu, ?_, ?_, ?_⟩
  · rw [cayley_prod hu, transpose_mul, transpose_nonsing_inv, ht]
    have e : (1 - S)ᵀ = 1 + S := by rw [← ht, transpose_transpose]
    have c : (1 + S) * (1 - S) = (1 - S) * (1 + S) := by noncomm_ring
    rw [e]
    calc (1 - S)⁻¹ * (1 + S) * ((1 - S) * (1 + S)⁻¹)
        = (1 - S)⁻¹ * ((1 + S) * (1 - S)) * (1 + S)⁻¹ := by simp only [mul_assoc]
      _ = ((1 - S)⁻¹ * (1 - S)) * ((1 + S) * (1 + S)⁻¹) := by rw [c]; simp only [mul_assoc]
      _ = 1 := by rw [nonsing_inv_mul _ hu', mul_nonsing_inv _ hu, one_mul]
  · rw [cayley_prod hu, det_mul, ← ht, det_transpose, ← det_mul, mul_nonsing_inv _ hu, det_one]
  · have e : 1 + ((2 : ℝ) • (1 + S)⁻¹ - 1) = (2 : ℝ) • (1 + S)⁻¹ := by abel
    have hi : ((2 : ℝ) • (1 + S)⁻¹) * ((1 / 2 : ℝ) • (1 + S)) = 1 := by
      rw [smul_mul_smul_comm, nonsing_inv_mul _ hu]; norm_num
    have hd : IsUnit (1 + ((2 : ℝ) • (1 + S)⁻¹ - 1)).det := by
      rw [e]; exact isUnit_det_of_right_inverse hi
    rw [cayley_some hd, e, inv_eq_right_inv hi, smul_smul]
    norm_num

/-- C39: `vec_to_rot(theta, m)` is a rotation for every `theta`, and `rot_to_vec` recovers
`theta`. -/
theorem C39_rotation (m : ℕ) (theta : List ℝ) (h : theta.length = m * (m - 1) / 2) :
    ∃ Q, vecToRot theta m = some Q ∧ Qᵀ * Q = 1 ∧ Q.det = 1 ∧ rotToVec Q = some theta := by
  obtain ⟨S, h1, h2, h3⟩ := C39_skew m theta h
  obtain ⟨Q, q1, q2, q3, q4⟩ := cayley_skew h2
  refine ⟨Q, ?_, q2, q3, ?_⟩
  · simp only [vecToRot, h1, Option.bind_eq_bind, Option.bind_some, q1]
  · simp only [rotToVec, q4, Option.bind_eq_bind, Option.bind_some, h3]

/-- C39: every orthogonal matrix without eigenvalue `-1` is reached. -/
theorem C39_surjective {m : ℕ} (Q : Matrix (Fin m) (Fin m) ℝ) (ho : Qᵀ * Q = 1)
    (hu : IsUnit (1 + Q).det) :
    ∃ theta, rotToVec Q = some theta ∧ theta.length = m * (m - 1) / 2 ∧
      vecToRot theta m = some Q := by
  have ho' : Q * Qᵀ = 1 := mul_eq_one_comm.1 ho
  set S := (2 : ℝ) • (1 + Q)⁻¹ - 1 with hS
  have hut : IsUnit (1 + Qᵀ).det := by
    rw [← transpose_one, ← transpose_add, det_transpose]; exact hu
  have hskew : Sᵀ = -S := by
    have e1 : (1 + Q)⁻¹ + (1 + Qᵀ)⁻¹ = 1 := by
      have e2 : (1 + Qᵀ)⁻¹ = (1 + Q)⁻¹ * Q := by
        have : Q * (1 + Qᵀ) = 1 + Q := by rw [mul_add, ho', mul_one, add_comm]
        apply inv_eq_left_inv
        rw [mul_assoc, this, nonsing_inv_mul _ hu]
      rw [e2]
      nth_rewrite 1 [← mul_one (1 + Q)⁻¹]
      rw [← mul_add, nonsing_inv_mul _ hu]
    have e3 : (1 + Qᵀ)⁻¹ = 1 - (1 + Q)⁻¹ := eq_sub_of_add_eq (by rw [add_comm]; exact e1)
    rw [hS, transpose_sub, transpose_smul, transpose_nonsing_inv, transpose_add, transpose_one,
      e3, smul_sub, two_smul ℝ (1 : Matrix (Fin m) (Fin m) ℝ)]
    abel
  have hc : cayley Q = some S := cayley_some hu
  obtain ⟨Q', q1, -, -, q4⟩ := cayley_skew hskew
  have hQ' : Q' = Q := by
    have e : (1 + S) = (2 : ℝ) • (1 + Q)⁻¹ := by rw [hS]; abel
    have hi : (1 + S) * ((1 / 2 : ℝ) • (1 + Q)) = 1 := by
      rw [e, smul_mul_smul_comm, nonsing_inv_mul _ hu]; norm_num
    have := cayley_some (skew_isUnit hskew)
    rw [this, inv_eq_right_inv hi, smul_smul] at q1
    have q1 := Option.some.inj q1
    rw [← q1]
    norm_num
  refine ⟨skewToVec S, ?_, ?_, ?_⟩
  · simp only [rotToVec, hc, Option.bind_eq_bind, Option.bind_some]
  · rw [skewToVec, List.length_map, length_tril1]
  · simp only [vecToRot, C39_skew_inv S hskew, Option.bind_eq_bind, Option.bind_some]
    rw [q1, hQ']

/-- C39: a half turn is a rotation that has no parameter vector: `rot_to_vec` raises. -/
theorem C39_half_turn : ((-1 : Matrix (Fin 2) (Fin 2) ℝ)ᵀ * -1 = 1) ∧
    (-1 : Matrix (Fin 2) (Fin 2) ℝ).det = 1 ∧ rotToVec (-1 : Matrix (Fin 2) (Fin 2) ℝ) = none := by
  refine ⟨by simp, by simp [det_neg], ?_⟩
  have : cayley (-1 : Matrix (Fin 2) (Fin 2) ℝ) = none := by
    rw [cayley]
    apply if_neg
    simp
  simp only [rotToVec, this, Option.bind_eq_bind, Option.bind_none]

/-- The hypothesis of `C39_rotation` is met. -/
example : ([1, 2, 3] : List ℝ).length = 3 * (3 - 1) / 2 := rfl

end Verif.Fa
