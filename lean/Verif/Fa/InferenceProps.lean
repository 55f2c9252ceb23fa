import Verif.Fa.Inference
import Verif.Fa.LikelihoodProps
/-! # C89: constrained inference -/
namespace Verif.Fa
open Matrix Verif.Np Verif.Index Verif.Vec

variable {nt nc : ℕ} {H dC J : ℕ → ℕ → ℝ} {mask : ℕ → Bool}

theorem freeAug_length (nt nc : ℕ) (mask : ℕ → Bool) : (freeAug nt nc mask).length = (freeIdx nt mask).length + nc := by
  simp [freeAug]

theorem freeIdx_lt {i : ℕ} (h : i < (freeIdx nt mask).length) : (freeIdx nt mask).getD i 0 < nt := by
  rw [List.getD_eq_getElem _ _ h]
  have := List.getElem_mem h
  exact List.mem_range.1 (List.mem_filter.1 this).1

theorem freeAug_left {i : ℕ} (h : i < (freeIdx nt mask).length) :
    (freeAug nt nc mask).getD i 0 = (freeIdx nt mask).getD i 0 := by
  rw [freeAug, List.getD_append _ _ _ _ h]

theorem freeAug_right {c : ℕ} (h : c < nc) : (freeAug nt nc mask).getD ((freeIdx nt mask).length + c) 0 = nt + c := by
  rw [freeAug, List.getD_append_right _ _ _ _ (by omega), Nat.add_sub_cancel_left, List.getD_eq_getElem _ _ (by simpa using h)]
  simp

/-- The free block of the Hessian. -/
def Hff (nt : ℕ) (H : ℕ → ℕ → ℝ) (mask : ℕ → Bool) :
    Matrix (Fin (freeIdx nt mask).length) (Fin (freeIdx nt mask).length) ℝ :=
  Matrix.of fun i j => H ((freeIdx nt mask).getD i 0) ((freeIdx nt mask).getD j 0)

/-- The free columns of the constraint Jacobian. -/
def Cf (nt nc : ℕ) (dC : ℕ → ℕ → ℝ) (mask : ℕ → Bool) : Matrix (Fin nc) (Fin (freeIdx nt mask).length) ℝ :=
  Matrix.of fun c j => dC c ((freeIdx nt mask).getD j 0)

/-- The free parameters and the constraints, as positions of the bordered matrix. -/
def posEquiv (nt nc : ℕ) (mask : ℕ → Bool) :
    Fin (freeIdx nt mask).length ⊕ Fin nc ≃ Fin (freeAug nt nc mask).length :=
  finSumFinEquiv.trans (finCongr (freeAug_length nt nc mask).symm)

theorem posEquiv_l (i : Fin (freeIdx nt mask).length) : (posEquiv nt nc mask (Sum.inl i) : ℕ) = i := rfl
theorem posEquiv_r (c : Fin nc) : (posEquiv nt nc mask (Sum.inr c) : ℕ) = (freeIdx nt mask).length + c := rfl

/-- The matrix that is inverted, in blocks. -/
theorem subAug_blocks : (subAug nt nc H dC mask).submatrix (posEquiv nt nc mask) (posEquiv nt nc mask) =
    fromBlocks (Hff nt H mask) (Cf nt nc dC mask)ᵀ (Cf nt nc dC mask) 0 := by
  ext i j
  rcases i with i | i <;> rcases j with j | j
  · simp only [submatrix_apply, subAug, of_apply, posEquiv_l, fromBlocks_apply₁₁, Hff]
    rw [freeAug_left i.2, freeAug_left j.2]
    have h1 := freeIdx_lt i.2; have h2 := freeIdx_lt j.2
    simp only [augH]
    rw [if_neg (by omega), if_neg (by omega), if_pos ⟨h1, h2⟩]
  · simp only [submatrix_apply, subAug, of_apply, posEquiv_l, posEquiv_r, fromBlocks_apply₁₂, transpose_apply, Cf]
    rw [freeAug_left i.2, freeAug_right j.2]
    have h1 := freeIdx_lt i.2; have h2 := j.2
    simp only [augH]
    rw [if_neg (by omega), if_pos ⟨h1, by omega, by omega⟩, Nat.add_sub_cancel_left]
  · simp only [submatrix_apply, subAug, of_apply, posEquiv_l, posEquiv_r, fromBlocks_apply₂₁, Cf]
    rw [freeAug_left j.2, freeAug_right i.2]
    have h1 := freeIdx_lt j.2; have h2 := i.2
    simp only [augH]
    rw [if_pos ⟨⟨by omega, by omega⟩, h1⟩, Nat.add_sub_cancel_left]
  · simp only [submatrix_apply, subAug, of_apply, posEquiv_r, fromBlocks_apply₂₂, Matrix.zero_apply]
    rw [freeAug_right i.2, freeAug_right j.2]
    simp only [augH]
    rw [if_neg (by omega), if_neg (by omega), if_neg (by omega)]

/-- The result of `bread` as a matrix over the free parameters. -/
def toM (nt : ℕ) (mask : ℕ → Bool) (B : ℕ → ℕ → ℝ) :
    Matrix (Fin (freeIdx nt mask).length) (Fin (freeIdx nt mask).length) ℝ := Matrix.of fun i j => B i j

/-- Block equations of the inverse. -/
theorem bread_blocks {k : ℕ} {B : ℕ → ℕ → ℝ} (h : bread nt nc H dC mask = some (k, B)) :
    k = (freeIdx nt mask).length ∧ ∃ E F G, fromBlocks (Hff nt H mask) (Cf nt nc dC mask)ᵀ (Cf nt nc dC mask) 0 *
      fromBlocks (toM nt mask B) E F G = 1 ∧ (fromBlocks (Hff nt H mask) (Cf nt nc dC mask)ᵀ (Cf nt nc dC mask) 0)⁻¹ =
      fromBlocks (toM nt mask B) E F G := by
  unfold bread at h
  obtain ⟨Ai, hAi, he⟩ := Option.map_eq_some_iff.1 h
  obtain ⟨hu, rfl⟩ := inv?_eq hAi
  simp only [Prod.mk.injEq] at he
  have hk : (freeAug nt nc mask).length - nc = (freeIdx nt mask).length := by rw [freeAug_length]; omega
  rw [hk] at he
  refine ⟨he.1.symm, ?_⟩
  set e := posEquiv nt nc mask
  have hT : toM nt mask B = ((subAug nt nc H dC mask)⁻¹.submatrix e e).toBlocks₁₁ := by
    ext i j
    have hi : ((e (Sum.inl i) : Fin _) : ℕ) = i := posEquiv_l i
    have hj : ((e (Sum.inl j) : Fin _) : ℕ) = j := posEquiv_l j
    simp only [toM, of_apply, ← he.2, if_pos (And.intro i.2 j.2), toBlocks₁₁, submatrix_apply]
    have h3 := entry_fin (subAug nt nc H dC mask)⁻¹ (e (Sum.inl i)) (e (Sum.inl j))
    rw [hi, hj] at h3
    exact h3
  have hblk := fromBlocks_toBlocks ((subAug nt nc H dC mask)⁻¹.submatrix e e)
  refine ⟨((subAug nt nc H dC mask)⁻¹.submatrix e e).toBlocks₁₂, ((subAug nt nc H dC mask)⁻¹.submatrix e e).toBlocks₂₁,
    ((subAug nt nc H dC mask)⁻¹.submatrix e e).toBlocks₂₂, ?_, ?_⟩
  · rw [hT, hblk, ← subAug_blocks, submatrix_mul_equiv, mul_nonsing_inv _ hu, submatrix_one_equiv]
  · rw [hT, hblk, ← subAug_blocks, inv_submatrix_equiv]

/-- C89: `bread` annihilates the constraint Jacobian, is a reflexive generalised inverse of the Hessian, and inverts
the Hessian on the tangent space of the constraints. -/
theorem C89_bread {k : ℕ} {B : ℕ → ℕ → ℝ} (h : bread nt nc H dC mask = some (k, B)) :
    k = (freeIdx nt mask).length ∧ Cf nt nc dC mask * toM nt mask B = 0 ∧ toM nt mask B * (Cf nt nc dC mask)ᵀ = 0 ∧
    toM nt mask B * Hff nt H mask * toM nt mask B = toM nt mask B ∧
    ∀ v, Cf nt nc dC mask *ᵥ v = 0 → v ᵥ* (Hff nt H mask * toM nt mask B) = v ∧ (toM nt mask B * Hff nt H mask) *ᵥ v = v := by
  obtain ⟨hk, E, F, G, h1, -⟩ := bread_blocks h
  have h2 := mul_eq_one_comm.1 h1
  rw [fromBlocks_multiply, ← fromBlocks_one, fromBlocks_inj] at h1 h2
  obtain ⟨a1, -, a3, -⟩ := h1
  obtain ⟨b1, b2, -, -⟩ := h2
  rw [Matrix.zero_mul, add_zero] at a3
  rw [Matrix.mul_zero, add_zero] at b2
  refine ⟨hk, a3, b2, ?_, ?_⟩
  · rw [eq_sub_of_add_eq b1, Matrix.sub_mul, Matrix.one_mul, Matrix.mul_assoc, a3, Matrix.mul_zero, sub_zero]
  · intro v hv
    constructor
    · rw [eq_sub_of_add_eq a1, vecMul_sub, vecMul_one, ← vecMul_vecMul, vecMul_transpose, hv, zero_vecMul, sub_zero]
    · rw [eq_sub_of_add_eq b1, sub_mulVec, one_mulVec, ← mulVec_mulVec, hv, mulVec_zero, sub_zero]

/-- C89: with a symmetric Hessian `bread` is symmetric. -/
theorem C89_symm {k : ℕ} {B : ℕ → ℕ → ℝ} (h : bread nt nc H dC mask = some (k, B))
    (hH : ∀ i j, i < nt → j < nt → H i j = H j i) : (toM nt mask B)ᵀ = toM nt mask B := by
  obtain ⟨-, E, F, G, -, h1⟩ := bread_blocks h
  have hs : (fromBlocks (Hff nt H mask) (Cf nt nc dC mask)ᵀ (Cf nt nc dC mask) 0)ᵀ =
      fromBlocks (Hff nt H mask) (Cf nt nc dC mask)ᵀ (Cf nt nc dC mask) 0 := by
    rw [fromBlocks_transpose, transpose_transpose, transpose_zero]
    congr 1
    ext i j; exact hH _ _ (freeIdx_lt j.2) (freeIdx_lt i.2)
  have h2 := transpose_nonsing_inv (fromBlocks (Hff nt H mask) (Cf nt nc dC mask)ᵀ (Cf nt nc dC mask) 0)
  rw [hs, h1, fromBlocks_transpose, fromBlocks_inj] at h2
  exact h2.1

/-- C89: `bread` exists when the constraint rows are independent and the Hessian is nondegenerate on their kernel;
when it exists the rows are independent. -/
theorem C89_defined :
    ((∀ u, u ᵥ* Cf nt nc dC mask = 0 → u = 0) → (∀ v, Cf nt nc dC mask *ᵥ v = 0 →
      (∀ w, Cf nt nc dC mask *ᵥ w = 0 → w ⬝ᵥ (Hff nt H mask *ᵥ v) = 0) → v = 0) → ∃ B, bread nt nc H dC mask = some B) ∧
    ((∃ B, bread nt nc H dC mask = some B) → ∀ u, u ᵥ* Cf nt nc dC mask = 0 → u = 0) := by
  constructor
  · intro hr hn
    have hu : IsUnit (fromBlocks (Hff nt H mask) (Cf nt nc dC mask)ᵀ (Cf nt nc dC mask) 0).det := by
      rw [isUnit_iff_ne_zero]
      intro h0
      obtain ⟨x, hx, hz⟩ := exists_mulVec_eq_zero_iff.2 h0
      apply hx
      rw [fromBlocks_mulVec] at hz
      have e1 : Hff nt H mask *ᵥ (x ∘ Sum.inl) + (Cf nt nc dC mask)ᵀ *ᵥ (x ∘ Sum.inr) = 0 :=
        funext fun i => congrFun hz (Sum.inl i)
      have e2 : Cf nt nc dC mask *ᵥ (x ∘ Sum.inl) = 0 := by
        have : Cf nt nc dC mask *ᵥ (x ∘ Sum.inl) + (0 : Matrix (Fin nc) (Fin nc) ℝ) *ᵥ (x ∘ Sum.inr) = 0 :=
          funext fun i => congrFun hz (Sum.inr i)
        rwa [zero_mulVec, add_zero] at this
      have hv := hn _ e2 fun w hw => by
        rw [eq_neg_of_add_eq_zero_left e1, dotProduct_neg, dotProduct_mulVec, vecMul_transpose, hw, zero_dotProduct, neg_zero]
      rw [hv, mulVec_zero, zero_add, mulVec_transpose] at e1
      have hu := hr _ e1
      ext i
      rcases i with i | i
      · exact congrFun hv i
      · exact congrFun hu i
    have hd : (subAug nt nc H dC mask).det = (fromBlocks (Hff nt H mask) (Cf nt nc dC mask)ᵀ (Cf nt nc dC mask) 0).det := by
      rw [← subAug_blocks, det_submatrix_equiv_self]
    have hu' : IsUnit (subAug nt nc H dC mask).det := by rw [hd]; exact hu
    simp only [bread, inv?_unit hu', Option.map_some]
    exact ⟨_, rfl⟩
  · rintro ⟨⟨k, B⟩, hB⟩ u hu
    obtain ⟨-, E, F, G, h1, -⟩ := bread_blocks hB
    have h2 := mul_eq_one_comm.1 h1
    rw [fromBlocks_multiply, ← fromBlocks_one, fromBlocks_inj] at h2
    have h3 := h2.2.2.2
    rw [Matrix.mul_zero, add_zero] at h3
    have : (F * (Cf nt nc dC mask)ᵀ) *ᵥ u = u := by rw [h3, one_mulVec]
    rw [← this, ← mulVec_mulVec, mulVec_transpose, hu, mulVec_zero]

theorem sandwich_eq {k : ℕ} {B : ℕ → ℕ → ℝ} (h : bread nt nc H dC mask = some (k, B)) :
    ∃ V, sandwichCov nt nc H dC J mask = some (k, V) ∧
      toM nt mask V = toM nt mask B * Hff nt J mask * (toM nt mask B)ᵀ := by
  have hk := (bread_blocks h).1
  subst hk
  refine ⟨_, by rw [sandwichCov, h]; rfl, ?_⟩
  ext i j
  simp only [toM, of_apply, Matrix.mul_apply, transpose_apply, Hff, Finset.sum_range]

/-- C89: under the information equality on the free block the sandwich covariance is the model-based covariance;
in every case it is orthogonal to the constraints and has a nonnegative diagonal when the meat is positive
semidefinite. -/
theorem C89_sandwich {k : ℕ} {B : ℕ → ℕ → ℝ} (h : bread nt nc H dC mask = some (k, B)) :
    (∃ V, sandwichCov nt nc H dC J mask = some (k, V) ∧ Cf nt nc dC mask * toM nt mask V = 0 ∧
      toM nt mask V * (Cf nt nc dC mask)ᵀ = 0 ∧
      ((∀ x, 0 ≤ x ⬝ᵥ (Hff nt J mask *ᵥ x)) → ∀ i, 0 ≤ toM nt mask V i i)) ∧
    ∀ n : ℝ, (∀ i j, i < nt → j < nt → H i j = H j i) →
      (∀ i j, i < nt → j < nt → mask i → mask j → J i j = 2.0 / n * H i j) →
      ∃ V W, sandwichCov nt nc H dC J mask = some (k, V) ∧ paramCov nt nc H dC mask n = some (k, W) ∧
        toM nt mask V = toM nt mask W := by
  obtain ⟨hk, c1, c2, c3, -⟩ := C89_bread h
  obtain ⟨V, hV, hVe⟩ := sandwich_eq (J := J) h
  refine ⟨⟨V, hV, ?_, ?_, ?_⟩, ?_⟩
  · rw [hVe, ← Matrix.mul_assoc, ← Matrix.mul_assoc, c1, Matrix.zero_mul, Matrix.zero_mul]
  · have : (toM nt mask B)ᵀ * (Cf nt nc dC mask)ᵀ = 0 := by rw [← transpose_mul, c1, transpose_zero]
    rw [hVe, Matrix.mul_assoc, this, Matrix.mul_zero]
  · intro hJ i
    have := hJ ((toM nt mask B) i)
    rw [hVe, Matrix.mul_assoc, Matrix.mul_apply]
    refine this.trans_eq ?_
    simp only [dotProduct, mulVec, Matrix.mul_apply, transpose_apply]
  · intro n hH hJ
    refine ⟨V, _, hV, by rw [paramCov, h]; rfl, ?_⟩
    have hm : ∀ i, i < (freeIdx nt mask).length → mask ((freeIdx nt mask).getD i 0) := fun i hi => by
      rw [List.getD_eq_getElem _ _ hi]; exact (List.mem_filter.1 (List.getElem_mem hi)).2
    have hJe : Hff nt J mask = (2.0 / n) • Hff nt H mask := by
      ext i j
      simp only [Hff, of_apply, Matrix.smul_apply, smul_eq_mul]
      exact hJ _ _ (freeIdx_lt i.2) (freeIdx_lt j.2) (hm _ i.2) (hm _ j.2)
    rw [hVe, hJe, C89_symm h hH, Matrix.mul_smul, Matrix.smul_mul, c3]
    ext i j
    simp only [toM, of_apply, Matrix.smul_apply, smul_eq_mul]
    exact mul_comm _ _

/-- C89: the information equality holds for the maximum likelihood discrepancy at a perfect fit. -/
theorem C89_information {p m : ℕ} (th : ℕ → ℝ) (V : Matrix (Fin p) (Fin p) ℝ) (n : ℝ) (f g : ℕ) :
    meatGaussV p m th V n f g = 2.0 / n * mlHessV m (sigmaOf p m th) th V f g := by
  rw [mlHessV_eq, sub_self, Matrix.mul_zero, Matrix.zero_mul, smul_zero, add_zero, Matrix.zero_mul]
  have : corr p m th 0 f g = 0 := by
    have h0 : ∀ (q r a b : ℕ), entry (0 : Matrix (Fin q) (Fin r) ℝ) a b = 0 := fun q r a b => by
      unfold entry; split_ifs <;> rfl
    simp [corr, h0, h3LPhi]
  rw [this, sub_zero]
  rfl

/-- C89: `empirical_cov_vech_S` is symmetric, positive semidefinite and invariant under shifts of the data. -/
theorem C89_empirical (n p : ℕ) (hn : 2 ≤ n) (X : ℕ → ℕ → ℝ) :
    (∀ r s, empCov n p X r s = empCov n p X s r) ∧
    (∀ (q : ℕ) (a : ℕ → ℝ), 0 ≤ ∑ r ∈ Finset.range q, ∑ s ∈ Finset.range q, a r * empCov n p X r s * a s) ∧
    ∀ c : ℕ → ℝ, empCov n p (fun i j => X i j + c j) = empCov n p X := by
  have hn' : (2 : ℝ) ≤ n := by exact_mod_cast hn
  refine ⟨fun r s => ?_, fun q a => ?_, fun c => ?_⟩
  · simp only [empCov]
    congr 1
    exact Finset.sum_congr rfl fun i _ => mul_comm _ _
  · simp only [empCov]
    generalize hcc : (fun i r => empVechs n p X i r - (∑ k ∈ Finset.range n, empVechs n p X k r) / n) = cc
    have hc : ∀ i r, empVechs n p X i r - (∑ k ∈ Finset.range n, empVechs n p X k r) / n = cc i r := fun i r => by rw [← hcc]
    simp only [hc]
    have : ∑ r ∈ Finset.range q, ∑ s ∈ Finset.range q,
        a r * ((∑ i ∈ Finset.range n, cc i r * cc i s) / ((n : ℝ) * ((n : ℝ) - 1))) * a s =
        (∑ i ∈ Finset.range n, (∑ r ∈ Finset.range q, a r * cc i r) ^ 2) / ((n : ℝ) * ((n : ℝ) - 1)) := by
      have h1 : ∀ i, (∑ r ∈ Finset.range q, a r * cc i r) ^ 2 =
          ∑ r ∈ Finset.range q, ∑ s ∈ Finset.range q, a r * (cc i r * cc i s) * a s := fun i => by
        rw [sq, Finset.sum_mul_sum]
        exact Finset.sum_congr rfl fun r _ => Finset.sum_congr rfl fun s _ => by ring
      symm
      simp only [h1]
      rw [Finset.sum_comm, Finset.sum_div]
      refine Finset.sum_congr rfl fun r _ => ?_
      rw [Finset.sum_comm, Finset.sum_div]
      refine Finset.sum_congr rfl fun s _ => ?_
      simp only [Finset.sum_div, Finset.mul_sum, Finset.sum_mul]
      exact Finset.sum_congr rfl fun i _ => by ring
    rw [this]
    exact div_nonneg (Finset.sum_nonneg fun i _ => sq_nonneg _) (by nlinarith)
  · have : empVechs n p (fun i j => X i j + c j) = empVechs n p X := by
      funext i r
      have h1 : ∀ j, (∑ k ∈ Finset.range n, (X k j + c j)) / n = (∑ k ∈ Finset.range n, X k j) / n + c j := fun j => by
        rw [Finset.sum_add_distrib, Finset.sum_const, Finset.card_range, nsmul_eq_mul]
        field_simp
      simp only [empVechs, h1]
      ring
    funext r s
    simp only [empCov, this]

/-! Nonvacuity: one parameter held by no constraint, `H = 1`. -/
example : ∃ B, bread 1 0 (fun _ _ => 1) (fun _ _ => 0) (fun _ => true) = some B := by
  refine C89_defined.1 (fun u _ => Subsingleton.elim _ _) fun v _ h => ?_
  have h1 := h v (Subsingleton.elim _ _)
  have e : ∀ i, v i = 0 := by
    intro i
    have hl : (freeIdx 1 fun _ => true).length = 1 := rfl
    have : v ⬝ᵥ (Hff 1 (fun _ _ => (1 : ℝ)) (fun _ => true) *ᵥ v) = v i * v i := by
      have hs : ∀ j : Fin (freeIdx 1 fun _ => true).length, j = i := fun j => Fin.ext (by omega)
      simp only [dotProduct, mulVec, Hff, of_apply, one_mul]
      rw [Fintype.sum_eq_single i (fun j hj => absurd (hs j) hj), Fintype.sum_eq_single i (fun j hj => absurd (hs j) hj)]
    rw [this] at h1
    exact mul_self_eq_zero.1 h1
  exact funext e

end Verif.Fa
