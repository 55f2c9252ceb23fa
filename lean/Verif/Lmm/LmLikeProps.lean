import Verif.Lmm.LmLemmas
import Mathlib.Analysis.Complex.ExponentialBounds
/-!
# C144: the likelihood of `LMM`
-/
namespace Verif.Lmm.Lm
open Matrix Kronecker Verif.Fa Verif.Like Verif.Calc
variable {T : Terms} {n p q N : ℕ}

theorem border_equiv {ι : Type} (e : ι ⊕ Unit ≃ Fin (N + 1)) (he : e (Sum.inr ()) = Fin.last N) :
    ∃ f : Fin N ≃ ι, ∀ i, e.symm i.castSucc = Sum.inl (f i) := by
  have h1 : ∀ i : Fin N, ∃ x, e.symm i.castSucc = Sum.inl x := by
    intro i
    rcases h : e.symm i.castSucc with x | x
    · exact ⟨x, rfl⟩
    · have := congrArg e h
      rw [e.apply_symm_apply, he] at this
      exact absurd this (Fin.castSucc_lt_last i).ne
  choose f hf using h1
  refine ⟨Equiv.ofBijective f ⟨fun i j hij => ?_, fun x => ?_⟩, hf⟩
  · have : e.symm i.castSucc = e.symm j.castSucc := by rw [hf, hf, hij]
    exact Fin.castSucc_injective _ (e.symm.injective this)
  · have hx : e (Sum.inl x) ≠ Fin.last N := fun h => by
      rw [← he] at h
      exact absurd (e.injective h) (by simp)
    obtain ⟨i, hi⟩ := Fin.exists_castSucc_eq.2 hx
    refine ⟨i, ?_⟩
    have := hf i
    rw [hi, e.symm_apply_apply] at this
    exact (Sum.inl.inj this).symm

theorem chol_posDef {k : ℕ} {ι : Type} [Fintype ι] [DecidableEq ι] {L : Mat k k} {M : Matrix ι ι ℝ} {e : ι ≃ Fin k}
    (h : L * Lᵀ = M.submatrix e.symm e.symm) (hL : IsUnit L.det) : M.PosDef := by
  have h1 : (L * Lᵀ).PosDef := by
    have := (PosDef.one (n := Fin k) (R := ℝ)).mul_mul_conjTranspose_same (B := L)
      (vecMul_injective_iff_isUnit.2 ((isUnit_iff_isUnit_det _).2 hL))
    rwa [Matrix.mul_one, conjTranspose_eq_transpose_of_trivial] at this
  have := h1.submatrix e.injective
  rw [h, submatrix_submatrix] at this
  simpa using this

/-- `loglike` is minus twice the (restricted) log likelihood of the marginal model whenever the response is the last to be
eliminated; the dense factorisation keeps it last. -/
theorem C144_loglike_partial (hT : T.Pd) {cN : Mat (N + 1) (N + 1) → Option (Mat (N + 1) (N + 1))} (hN : CholOk cN)
    {cq : Mat q q → Option (Mat q q)} (hq : CholOk cq) {e : Ix T p ⊕ Unit ≃ Fin (N + 1)} {e' : T.RE ≃ Fin q}
    (he : e (Sum.inr ()) = Fin.last N) {m : Mme T n p} {reml : Bool} {th : T.Par → ℝ} {s2 v : ℝ} (hs : 0 < s2)
    (h : loglike cN cq e e' m reml th s2 = some v) : v = devi reml m.X m.y (vcov m th s2) := by
  unfold loglike at h
  cases hg : T.ginv? th with
  | none => simp [hg] at h
  | some Gi =>
  obtain ⟨h1, h2, h3⟩ := ginv_some hT hg
  subst h1
  cases hl : cN ((updateMme m (T.gcov th)⁻¹ s2).submatrix e.symm e.symm) with
  | none => simp [hg, hl] at h
  | some L =>
  obtain ⟨l1, l2, l3⟩ := hN.ok _ _ hl
  have hL := unit_chol l2 l3
  have hpd := chol_posDef l1 hL
  have hCp : (cmat m th s2).PosDef := by
    have := hpd.submatrix (e := fun i : T.RE => (Sum.inl (Sum.inr i) : Ix T p ⊕ Unit)) (fun a b hab => by simpa using hab)
    have hc : (updateMme m (T.gcov th)⁻¹ s2).submatrix (fun i : T.RE => (Sum.inl (Sum.inr i) : Ix T p ⊕ Unit))
        (fun i => Sum.inl (Sum.inr i)) = cmat m th s2 := by
      ext i j
      have := congrFun (congrFun (mme_k m (T.gcov th)⁻¹ s2) (Sum.inr i)) (Sum.inr j)
      exact this
    rwa [hc] at this
  have hC := hCp.det_pos.ne'.isUnit
  obtain ⟨f, hf⟩ := border_equiv e he
  obtain ⟨b1, b2, b3⟩ := chol_border l1 l2 l3
  have hlast : e.symm (Fin.last N) = Sum.inr () := by rw [← he, e.symm_apply_apply]
  have hWx : ((updateMme m (T.gcov th)⁻¹ s2).submatrix e.symm e.symm).submatrix Fin.castSucc Fin.castSucc =
      (kmat m (T.gcov th)⁻¹ s2).submatrix f f := by
    rw [← mme_k]
    ext i j
    simp only [submatrix_apply, hf]
  have hw : (fun i : Fin N => ((updateMme m (T.gcov th)⁻¹ s2).submatrix e.symm e.symm) i.castSucc (Fin.last N)) =
      rhs m s2 ∘ f := by
    funext i
    simp only [submatrix_apply, hf, hlast, mme_w, Function.comp]
  have hyy : ((updateMme m (T.gcov th)⁻¹ s2).submatrix e.symm e.symm) (Fin.last N) (Fin.last N) = (1 / s2) * (m.y ⬝ᵥ m.y) := by
    simp only [submatrix_apply, hlast, mme_yy]
  rw [hWx, det_submatrix_equiv_self] at b1 b2
  rw [hWx, hw, hyy, inv_submatrix_equiv] at b3
  have hKx := b1
  rw [kmat_det hs.ne' h2 hC] at hKx
  have hx : IsUnit (xvx m.X (vcov m th s2)).det := isUnit_of_mul_isUnit_right hKx
  have hq3 : rhs m s2 ∘ f ⬝ᵥ ((kmat m (T.gcov th)⁻¹ s2)⁻¹.submatrix f f *ᵥ (rhs m s2 ∘ f)) =
      rhs m s2 ⬝ᵥ ((kmat m (T.gcov th)⁻¹ s2)⁻¹ *ᵥ rhs m s2) := by
    rw [submatrix_mulVec_equiv]
    have : (rhs m s2 ∘ f) ∘ f.symm = rhs m s2 := by funext i; simp
    rw [this]
    simp only [dotProduct, Function.comp]
    exact Equiv.sum_comp f fun i => rhs m s2 i * ((kmat m (T.gcov th)⁻¹ s2)⁻¹ *ᵥ rhs m s2) i
  rw [hq3, schur_y hT hs.ne' h2 hC hx] at b3
  rw [kmat_det hs.ne' h2 hC, abs_mul, Real.log_mul (abs_ne_zero.2 hC.ne_zero) (abs_ne_zero.2 hx.ne_zero)] at b2
  have hdet : Real.log |(vcov m th s2).det| = n * Real.log s2 + Real.log |(cmat m th s2).det| + T.lndetG th := by
    unfold vcov
    rw [vdet_eq hs.ne' h2, show (1 / s2) • (m.Zᵀ * m.Z) + (T.gcov th)⁻¹ = cmat m th s2 from rfl, abs_mul, abs_mul, abs_pow,
      Real.log_mul (mul_ne_zero (pow_ne_zero _ (abs_ne_zero.2 hs.ne')) (abs_ne_zero.2 h2.ne_zero)) (abs_ne_zero.2 hC.ne_zero),
      Real.log_mul (pow_ne_zero _ (abs_ne_zero.2 hs.ne')) (abs_ne_zero.2 h2.ne_zero), Real.log_pow, h3, Real.log_abs]
    ring
  unfold devi
  rw [hdet]
  simp only [hg, hl, Option.bind_eq_bind, Option.bind_some] at h
  cases reml with
  | true =>
    have h := Option.some.inj h
    rw [← h, b3, ← Finset.mul_sum, b2]
    simp only [if_true]
    ring
  | false =>
    simp only [Bool.false_eq_true, if_false] at h ⊢
    have hQ : (T.gcov th)⁻¹ + (1 / s2) • (m.Zᵀ * m.Z) = cmat m th s2 := by rw [add_comm]; rfl
    rw [hQ] at h
    cases hl2 : cq ((cmat m th s2).submatrix e'.symm e'.symm) with
    | none => simp [hl2] at h
    | some Lq =>
    obtain ⟨k1, k2, k3⟩ := hq.ok _ _ hl2
    simp only [hl2, Option.bind_some] at h
    have h := Option.some.inj h
    rw [← h, b3, log_sq_diag e' k1 k2 k3]
    ring

/-- `loglike` returns for every positive definite covariance and linearly independent columns of the design and response. -/
theorem C144_defined (hT : T.Pd) (hI : ∀ k, T.acov k = none) {cN : Mat (N + 1) (N + 1) → Option (Mat (N + 1) (N + 1))}
    (hN : CholOk cN) {cq : Mat q q → Option (Mat q q)} (hq : CholOk cq) (e : Ix T p ⊕ Unit ≃ Fin (N + 1)) (e' : T.RE ≃ Fin q)
    {m : Mme T n p} (reml : Bool) {th : T.Par → ℝ} {s2 : ℝ} (hs : 0 < s2) (hth : ∀ k, (invech (Terms.sl th k)).PosDef)
    (hX : Function.Injective m.Xy.mulVec) : ∃ v, loglike cN cq e e' m reml th s2 = some v := by
  obtain ⟨Gi, hg⟩ := ginv_defined (T := T) (th := th) (fun k => (hth k).det_pos.ne'.isUnit)
    (fun k B hB => by rw [hI k] at hB; simp at hB)
  obtain ⟨h1, h2, h3⟩ := ginv_some hT hg
  subst h1
  have hGp := (gcov_posDef hT hth).inv
  have hM : (updateMme m (T.gcov th)⁻¹ s2).PosDef := by
    refine PosDef.of_dotProduct_mulVec_pos ?_ fun x hx => ?_
    · rw [IsHermitian, conjTranspose_eq_transpose_of_trivial]
      exact mme_symm m (by rw [transpose_nonsing_inv, gcov_symm hT]) s2
    · obtain ⟨b, hb⟩ : ∃ b : Fin p → ℝ, b = fun i => x (Sum.inl (Sum.inl i)) := ⟨_, rfl⟩
      obtain ⟨u, hu⟩ : ∃ u : T.RE → ℝ, u = fun i => x (Sum.inl (Sum.inr i)) := ⟨_, rfl⟩
      obtain ⟨c, hc⟩ : ∃ c : ℝ, c = x (Sum.inr ()) := ⟨_, rfl⟩
      have hxe : x = Sum.elim (Sum.elim b u) (fun _ => c) := by
        funext i
        rcases i with (i | i) | i
        · simp [hb]
        · simp [hu]
        · simp [hc]
      set r := m.X *ᵥ b + m.Z *ᵥ u + c • m.y with hr
      have hq : star x ⬝ᵥ (updateMme m (T.gcov th)⁻¹ s2 *ᵥ x) = (1 / s2) * (r ⬝ᵥ r) + u ⬝ᵥ ((T.gcov th)⁻¹ *ᵥ u) := by
        have hA : bigM m = (fromCols (fromCols m.X m.Z) (replicateCol Unit m.y))ᵀ *
            fromCols (fromCols m.X m.Z) (replicateCol Unit m.y) := by
          ext i j
          rcases i with (i | i) | i <;> rcases j with (j | j) | j <;>
          simp [bigM, mul_apply, mul_comm]
        have hAx : fromCols (fromCols m.X m.Z) (replicateCol Unit m.y) *ᵥ x = r := by
          funext i
          rw [hxe]
          simp [mulVec, dotProduct, Fintype.sum_sum_type, hr, mul_comm]
        have hD : x ⬝ᵥ ((fromBlocks (fromBlocks 0 0 0 (T.gcov th)⁻¹) 0 0 0 : Matrix (Ix T p ⊕ Unit) (Ix T p ⊕ Unit) ℝ) *ᵥ x) =
            u ⬝ᵥ ((T.gcov th)⁻¹ *ᵥ u) := by
          rw [hxe, fromBlocks_mulVec]
          simp [dotProduct, Fintype.sum_sum_type, fromBlocks_mulVec, mulVec]
        rw [star_trivial, updateMme, add_mulVec, dotProduct_add, hD, smul_mulVec, dotProduct_smul, smul_eq_mul, hA,
          ← mulVec_mulVec, hAx, dotProduct_mulVec, ← mulVec_transpose, transpose_transpose, hAx]
      rw [hq]
      have hrr : 0 ≤ r ⬝ᵥ r := Finset.sum_nonneg fun i _ => mul_self_nonneg (r i)
      by_cases hu0 : u = 0
      · have hbc : ¬ (b = 0 ∧ c = 0) := fun ⟨hb0, hc0⟩ => hx (by
          rw [hxe, hu0, hb0, hc0]
          funext i
          rcases i with (i | i) | i <;> rfl)
        have hr0 : r ≠ 0 := by
          intro h0
          have hxy : m.Xy *ᵥ (Fin.snoc (α := fun _ => ℝ) b c) = m.Xy *ᵥ 0 := by
            rw [mulVec_zero, ← h0, hr, hu0, mulVec_zero, add_zero]
            funext i
            simp [Mme.Xy, mulVec, dotProduct, Fin.sum_univ_castSucc, mul_comm]
          have := hX hxy
          refine hbc ⟨funext fun i => ?_, ?_⟩
          · have := congrFun this i.castSucc
            simpa using this
          · have := congrFun this (Fin.last p)
            simpa using this
        have : 0 < r ⬝ᵥ r := lt_of_le_of_ne hrr fun h0 => hr0 (dotProduct_self_eq_zero.1 h0.symm)
        rw [hu0, zero_dotProduct, add_zero]
        exact mul_pos (one_div_pos.2 hs) this
      · have := hGp.dotProduct_mulVec_pos hu0
        rw [star_trivial] at this
        exact add_pos_of_nonneg_of_pos (mul_nonneg (one_div_pos.2 hs).le hrr) this
  obtain ⟨L, hl⟩ := hN.total _ (hM.submatrix e.symm.injective)
  unfold loglike
  simp only [hg, hl, Option.bind_eq_bind, Option.bind_some]
  cases reml with
  | true => exact ⟨_, rfl⟩
  | false =>
    obtain ⟨Lq, hl2⟩ := hq.total (((T.gcov th)⁻¹ + (1 / s2) • (m.Zᵀ * m.Z)).submatrix e'.symm e'.symm) (by
      have := cmat_posDef (m := m) hT hs hth
      rw [add_comm] at this
      exact this.submatrix e'.symm.injective)
    simp only [hl2, Bool.false_eq_true, if_false, Option.bind_some]
    exact ⟨_, rfl⟩

/-- One group. -/
noncomputable def exT1 : Terms := ⟨1, fun _ => 1, fun _ => 1, fun _ => none⟩

/-- Orthogonal columns of the designs and the response. -/
noncomputable def exM1 : Mme exT1 3 1 :=
  ⟨of fun i _ => if i = 0 then 1 else 0, fun i => if i = 1 then 2 else 0, of fun i _ => if i = 2 then 1 else 0⟩

/-- The order of the blocks. -/
def exE0 : Ix exT1 1 ⊕ Unit ≃ Fin 3 where
  toFun x := match x with
    | Sum.inl (Sum.inl _) => 0
    | Sum.inl (Sum.inr _) => 1
    | Sum.inr _ => 2
  invFun := ![Sum.inl (Sum.inl 0), Sum.inl (Sum.inr ⟨(0 : Fin 1), (0 : Fin 1), (0 : Fin 1)⟩), Sum.inr ()]
  left_inv x := by
    rcases x with (x | ⟨x, y, z⟩) | x
    · fin_cases x; rfl
    · fin_cases x; fin_cases y; fin_cases z; rfl
    · rfl
  right_inv x := by fin_cases x <;> rfl

/-- The column of the design last. -/
def exE1 : Ix exT1 1 ⊕ Unit ≃ Fin 3 where
  toFun x := match x with
    | Sum.inl (Sum.inl _) => 2
    | Sum.inl (Sum.inr _) => 0
    | Sum.inr _ => 1
  invFun := ![Sum.inl (Sum.inr ⟨(0 : Fin 1), (0 : Fin 1), (0 : Fin 1)⟩), Sum.inr (), Sum.inl (Sum.inl 0)]
  left_inv x := by
    rcases x with (x | ⟨x, y, z⟩) | x
    · fin_cases x; rfl
    · fin_cases x; fin_cases y; fin_cases z; rfl
    · rfl
  right_inv x := by fin_cases x <;> rfl

theorem exT1_pd : exT1.Pd := fun k B h => by simp [exT1] at h

theorem exT1_th (k) : invech (Terms.sl (T := exT1) (fun _ => 1) k) = (1 : Mat 1 1) := by
  ext i j; fin_cases i; fin_cases j; rfl

theorem exM1_inj : Function.Injective exM1.Xy.mulVec := by
  intro u v huv
  have h0 := congrFun huv 0
  have h1 := congrFun huv 1
  simp [exM1, Mme.Xy, mulVec, dotProduct, Fin.sum_univ_succ, Fin.snoc] at h0 h1
  funext i
  fin_cases i
  · exact h0
  · exact h1

theorem exG1 : exT1.gcov (fun _ => 1) = 1 := by
  have : (fun k => exT1.A k ⊗ₖ invech (Terms.sl (T := exT1) (fun _ => 1) k)) = fun _ => 1 := by
    funext k
    have := exT1_th k
    rw [this]
    exact one_kronecker_one
  rw [Terms.gcov, this]
  exact blockDiagonal'_one

theorem exLd1 : exT1.lndetG (fun _ => 1) = 0 := by
  unfold Terms.lndetG
  refine Finset.sum_eq_zero fun k _ => ?_
  have : (invech (Terms.sl (T := exT1) (fun _ => 1) k)).det = 1 := by
    have := exT1_th k
    rw [this]
    exact det_one
  rw [this]
  simp [Terms.lda, exT1]

theorem exW1 (i j : Fin 3) : (updateMme exM1 1 1).submatrix exE0.symm exE0.symm i j = diagonal ![1, 2, 4] i j := by
  fin_cases i <;> fin_cases j <;>
  norm_num [exE0, updateMme, bigM, exM1, mul_apply, Fin.sum_univ_three] <;> decide

theorem exW2 (i j : Fin 3) : (updateMme exM1 1 1).submatrix exE1.symm exE1.symm i j = diagonal ![2, 4, 1] i j := by
  fin_cases i <;> fin_cases j <;>
  norm_num [exE1, updateMme, bigM, exM1, mul_apply, Fin.sum_univ_three] <;> decide

theorem exVal {cN : Mat 3 3 → Option (Mat 3 3)} (hN : CholOk cN) {cq : Mat 1 1 → Option (Mat 1 1)} {e' : exT1.RE ≃ Fin 1}
    {e : Ix exT1 1 ⊕ Unit ≃ Fin 3} {a b c v : ℝ} (ha : 0 < a) (hb : 0 < b)
    (hW : ∀ i j, (updateMme exM1 1 1).submatrix e.symm e.symm i j = diagonal ![a, b, c] i j)
    (h : loglike cN cq e e' exM1 true (fun _ => 1) 1 = some v) : v = Real.log (a * b) + c := by
  unfold loglike at h
  cases hg : exT1.ginv? (fun _ => 1) with
  | none => simp [hg] at h
  | some Gi =>
  have h1 := (ginv_some exT1_pd hg).1
  rw [exG1, inv_one] at h1
  subst h1
  cases hl : cN ((updateMme exM1 1 1).submatrix e.symm e.symm) with
  | none => simp [hg, hl] at h
  | some L =>
  obtain ⟨l1, l2, l3⟩ := hN.ok _ _ hl
  obtain ⟨b1, b2, b3⟩ := chol_border l1 l2 l3
  have hw : (fun i : Fin 2 => ((updateMme exM1 1 1).submatrix e.symm e.symm) i.castSucc (Fin.last 2)) = 0 := by
    funext i
    rw [hW]
    fin_cases i <;> simp [Fin.last]
  have hx : ((updateMme exM1 1 1).submatrix e.symm e.symm).submatrix Fin.castSucc Fin.castSucc = diagonal ![a, b] := by
    ext i j
    rw [submatrix_apply, hW]
    fin_cases i <;> fin_cases j <;> simp
  rw [hw, zero_dotProduct, sub_zero, hW] at b3
  rw [hx, det_diagonal, Fin.prod_univ_two] at b2
  simp only [hg, hl, Option.bind_eq_bind, Option.bind_some, if_true] at h
  have h := Option.some.inj h
  rw [← h, b3, ← Finset.mul_sum, b2, exLd1]
  simp [abs_of_pos (mul_pos ha hb), Fin.last]

/-- The fill-reducing ordering of a sparse factorisation may put another variable last: the last pivot is then not the
residual sum of squares, and `loglike` is not the likelihood. -/
theorem C144_ordering_violated {cN : Mat 3 3 → Option (Mat 3 3)} (hN : CholOk cN) {cq : Mat 1 1 → Option (Mat 1 1)}
    (hq : CholOk cq) (e' : exT1.RE ≃ Fin 1) :
    ∃ v, loglike cN cq exE1 e' exM1 true (fun _ => 1) 1 = some v ∧
      v ≠ devi true exM1.X exM1.y (vcov exM1 (fun _ => 1) 1) := by
  have hp : ∀ k, (invech (Terms.sl (T := exT1) (fun _ => 1) k)).PosDef := fun k => by
    have := exT1_th k
    rw [this]
    exact PosDef.one
  obtain ⟨v, hv⟩ := C144_defined exT1_pd (fun _ => rfl) hN hq exE1 e' true one_pos hp exM1_inj
  obtain ⟨w, hw⟩ := C144_defined exT1_pd (fun _ => rfl) hN hq exE0 e' true one_pos hp exM1_inj
  refine ⟨v, hv, ?_⟩
  rw [← C144_loglike_partial exT1_pd hN hq rfl one_pos hw, exVal hN two_pos (by norm_num) exW2 hv,
    exVal hN one_pos two_pos exW1 hw]
  have h8 : Real.log (2 * 4) = 3 * Real.log 2 := by
    rw [show (2 * 4 : ℝ) = 2 ^ 3 by norm_num, Real.log_pow]; norm_num
  rw [h8, one_mul]
  have := Real.log_two_lt_d9
  intro h
  linarith

end Verif.Lmm.Lm
