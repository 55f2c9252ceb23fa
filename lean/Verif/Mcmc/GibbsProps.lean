import Verif.Mcmc.Model
import Verif.Lmm.LmLemmas
import Verif.Rand.Mvn
import Mathlib.Analysis.SpecialFunctions.Pow.Real
/-!
# C194: the conditional draws of coefficients, random effects and covariance parameters
-/
namespace Verif.Mcmc
open Matrix Verif.Lmm Verif.Lmm.Lm Verif.Rand
open scoped MatrixOrder
variable {T : Terms} {n p : ℕ}

/-- The contract of a factorisation: defined for positive definite matrices, and then an invertible factor. -/
structure FacOk {ι : Type} [Fintype ι] [DecidableEq ι] (c : Fac ι) : Prop where
  fac : ∀ A L, c A = some L → L * Lᵀ = A ∧ IsUnit L.det
  some : ∀ A : Matrix ι ι ℝ, A.PosDef → (c A).isSome

/-- `W`. -/
def wmat (m : Mme T n p) : Matrix (Fin n) (Ix T p) ℝ := fromCols m.X m.Z

/-- The response of the conditional distribution in place of the observed one. -/
def withY (m : Mme T n p) (y : Fin n → ℝ) : Mme T n p := { m with y := y }

/-- The embedding of the random effects. -/
def emb (T : Terms) (p : ℕ) : Matrix (Ix T p) T.RE ℝ := fromRows 0 1

theorem w_gram (m : Mme T n p) (Gi : Matrix T.RE T.RE ℝ) (s2 : ℝ) :
    (1 / s2) • ((wmat m)ᵀ * wmat m) + fromBlocks 0 0 0 Gi = kmat m Gi s2 := by
  unfold wmat kmat Mme.ZtRZ
  rw [transpose_fromCols, fromRows_mul_fromCols, fromBlocks_smul, fromBlocks_add]
  simp

theorem om_eq (Gi : Matrix T.RE T.RE ℝ) : (fromBlocks 0 0 0 Gi : Matrix (Ix T p) (Ix T p) ℝ) = emb T p * Gi * (emb T p)ᵀ := by
  unfold emb
  rw [fromRows_mul, transpose_fromRows, fromRows_mul_fromCols]
  simp

theorem om_emb (Gi : Matrix T.RE T.RE ℝ) : (fromBlocks 0 0 0 Gi : Matrix (Ix T p) (Ix T p) ℝ) * emb T p = emb T p * Gi := by
  have h : (emb T p)ᵀ * emb T p = 1 := by
    unfold emb
    rw [transpose_fromRows, fromCols_mul_fromRows]
    simp
  rw [om_eq, Matrix.mul_assoc, h, Matrix.mul_one]

theorem w_emb (m : Mme T n p) : wmat m * emb T p = m.Z := by
  unfold wmat emb
  rw [fromCols_mul_fromRows]
  simp

theorem w_rhs (m : Mme T n p) (y : Fin n → ℝ) (s2 : ℝ) : (1 / s2) • ((wmat m)ᵀ *ᵥ y) = rhs (withY m y) s2 := by
  unfold wmat rhs withY
  rw [transpose_fromCols, fromRows_mulVec]

theorem kmat_withY (m : Mme T n p) (y : Fin n → ℝ) (Gi : Matrix T.RE T.RE ℝ) (s2 : ℝ) : kmat (withY m y) Gi s2 = kmat m Gi s2 := rfl

theorem emb_elim (a : T.RE → ℝ) : Sum.elim (0 : Fin p → ℝ) a = emb T p *ᵥ a := by
  unfold emb
  rw [fromRows_mulVec, zero_mulVec, one_mulVec]

/-- `sample_location`: the draw is the solution of the mixed model equations plus a linear map of the standard normal draws
`x1`, `x2` whose product with its transpose is the inverse of the coefficient matrix. -/
theorem C194_location (hT : T.Pd) {cG : Fac T.RE} (hcG : FacOk cG) {cM : Fac (Ix T p)} (hcM : FacOk cM) (m : Mme T n p)
    (th : T.Par → ℝ) {s2 : ℝ} (hs : 0 < s2) (y : Fin n → ℝ) (hd : (sampleLocation cG cM m th s2 0 0 y).isSome) :
    ∃ A : Matrix (Ix T p) (T.RE ⊕ Fin n) ℝ,
      (∀ x1 x2, sampleLocation cG cM m th s2 x1 x2 y =
        some ((kmat m (T.gcov th)⁻¹ s2)⁻¹ *ᵥ rhs (withY m y) s2 + A *ᵥ Sum.elim x1 x2)) ∧
      A * Aᵀ = (kmat m (T.gcov th)⁻¹ s2)⁻¹ := by
  unfold sampleLocation at hd ⊢
  simp only [Option.bind_eq_bind] at hd ⊢
  obtain ⟨Gi, hG⟩ : ∃ Gi, T.ginv? th = some Gi := by
    cases h : T.ginv? th with
    | none => rw [h] at hd; simp at hd
    | some Gi => exact ⟨Gi, rfl⟩
  obtain ⟨hGi, -, -⟩ := ginv_some hT hG
  rw [hG] at hd ⊢
  simp only [Option.bind_some] at hd ⊢
  obtain ⟨L, hL⟩ : ∃ L, cG Gi = some L := by
    cases h : cG Gi with
    | none => rw [h] at hd; simp at hd
    | some L => exact ⟨L, rfl⟩
  rw [hL] at hd ⊢
  simp only [Option.bind_some] at hd ⊢
  have hW := w_gram m Gi s2
  unfold wmat at hW
  rw [hW] at hd ⊢
  obtain ⟨LM, hLM⟩ : ∃ L, cM (kmat m Gi s2) = some L := by
    cases h : cM (kmat m Gi s2) with
    | none => rw [h] at hd; simp at hd
    | some L => exact ⟨L, rfl⟩
  rw [hLM]
  simp only [Option.bind_some]
  obtain ⟨f1, u1⟩ := hcG.fac _ _ hL
  obtain ⟨f2, u2⟩ := hcM.fac _ _ hLM
  rw [← hGi]
  set K := kmat m Gi s2 with hK
  have uK : IsUnit K.det := by rw [← f2, det_mul, det_transpose]; exact u2.mul u2
  have hKi : ∀ v, (LMᵀ)⁻¹ *ᵥ (LM⁻¹ *ᵥ v) = K⁻¹ *ᵥ v := fun v => by
    rw [mulVec_mulVec, ← Matrix.mul_inv_rev, f2]
  have uLt : IsUnit (Lᵀ).det := by rw [det_transpose]; exact u1
  have hsq : Real.sqrt s2 * Real.sqrt s2 = s2 := Real.mul_self_sqrt hs.le
  have hs0 : Real.sqrt s2 ≠ 0 := (Real.sqrt_pos.2 hs).ne'
  have hKm : K = (1 / s2) • ((wmat m)ᵀ * wmat m) + fromBlocks 0 0 0 Gi := (w_gram m Gi s2).symm
  have hKs : Kᵀ = K := by rw [← f2, transpose_mul, transpose_transpose]
  refine ⟨fromCols (K⁻¹ * emb T p * L) (-(1 / Real.sqrt s2) • (K⁻¹ * (wmat m)ᵀ)), fun x1 x2 => ?_, ?_⟩
  · congr 1
    rw [hKi, emb_elim, show fromCols m.X m.Z = wmat m from rfl]
    have e1 : (1 / s2) • ((wmat m)ᵀ *ᵥ (y - (m.Z *ᵥ ((Lᵀ)⁻¹ *ᵥ x1) + Real.sqrt s2 • x2))) =
        rhs (withY m y) s2 - (K - fromBlocks 0 0 0 Gi) *ᵥ (emb T p *ᵥ ((Lᵀ)⁻¹ *ᵥ x1)) - (1 / Real.sqrt s2) • ((wmat m)ᵀ *ᵥ x2) := by
      rw [← w_rhs, hKm, add_sub_cancel_right, mulVec_sub, mulVec_add, smul_sub, smul_add, mulVec_smul, smul_mulVec, ← mulVec_mulVec,
        mulVec_mulVec _ (wmat m) (emb T p), w_emb, smul_smul, sub_add_eq_sub_sub]
      congr 2
      have : s2 = Real.sqrt s2 * Real.sqrt s2 := hsq.symm
      rw [show 1 / s2 * Real.sqrt s2 = 1 / Real.sqrt s2 by rw [eq_div_iff hs0, mul_assoc, hsq]; field_simp]
    rw [e1, mulVec_sub, mulVec_sub, sub_mulVec, mulVec_sub, mulVec_mulVec _ K⁻¹ K, nonsing_inv_mul _ uK, one_mulVec]
    have e2 : (fromBlocks 0 0 0 Gi : Matrix (Ix T p) (Ix T p) ℝ) *ᵥ (emb T p *ᵥ ((Lᵀ)⁻¹ *ᵥ x1)) = emb T p *ᵥ (L *ᵥ x1) := by
      rw [mulVec_mulVec, om_emb, ← f1, mulVec_mulVec, mulVec_mulVec]
      congr 1
      rw [Matrix.mul_assoc, Matrix.mul_assoc, mul_nonsing_inv _ uLt, Matrix.mul_one]
    rw [e2, fromCols_mulVec_sumElim, neg_smul, neg_mulVec, smul_mulVec, mulVec_smul]
    simp only [← mulVec_mulVec]
    abel
  · rw [transpose_fromCols, fromCols_mul_fromRows]
    have e : K⁻¹ * emb T p * L * (K⁻¹ * emb T p * L)ᵀ + -(1 / Real.sqrt s2) • (K⁻¹ * (wmat m)ᵀ) * (-(1 / Real.sqrt s2) • (K⁻¹ * (wmat m)ᵀ))ᵀ =
        K⁻¹ * ((1 / s2) • ((wmat m)ᵀ * wmat m) + fromBlocks 0 0 0 Gi) * K⁻¹ := by
      have hKt : (K⁻¹)ᵀ = K⁻¹ := by rw [transpose_nonsing_inv, hKs]
      rw [om_eq, ← f1, transpose_mul, transpose_mul, transpose_smul, transpose_mul, hKt, transpose_transpose, Matrix.smul_mul, Matrix.mul_smul,
        smul_smul, Matrix.mul_add, Matrix.add_mul, Matrix.mul_smul, Matrix.smul_mul]
      rw [show -(1 / Real.sqrt s2) * -(1 / Real.sqrt s2) = 1 / s2 by rw [neg_mul_neg, div_mul_div_comm, hsq, one_mul]]
      simp only [Matrix.mul_assoc]
      rw [add_comm]
    rw [e, ← hKm, nonsing_inv_mul _ uK, Matrix.one_mul]

/-- The centre of the draw is the generalised least squares estimate and the best linear unbiased predictor. -/
theorem C194_location_mean (hT : T.Pd) {cG : Fac T.RE} (hcG : FacOk cG) {cM : Fac (Ix T p)} (hcM : FacOk cM) (m : Mme T n p)
    (th : T.Par → ℝ) {s2 : ℝ} (hs : 0 < s2) (y : Fin n → ℝ) (hG : IsUnit (T.gcov th).det) (hC : IsUnit (cmat m th s2).det)
    (hx : IsUnit (xvx m.X (vcov m th s2)).det) {l : Ix T p → ℝ} (h : sampleLocation cG cM m th s2 0 0 y = some l) :
    l = Sum.elim (gls m.X y (vcov m th s2)) (blup (withY m y) th s2) := by
  obtain ⟨A, hA, -⟩ := C194_location hT hcG hcM m th hs y (by rw [h]; rfl)
  have := hA 0 0
  rw [h] at this
  have e : (Sum.elim 0 0 : T.RE ⊕ Fin n → ℝ) = 0 := by ext (i | i) <;> rfl
  rw [e, mulVec_zero, add_zero] at this
  rw [Option.some.inj this]
  exact kmat_inv (m := withY m y) hT hs.ne' hG hC hx

/-- The conditional distribution: up to a constant in the coefficients and random effects `l`, minus twice the log of the
likelihood times the density of the random effects is the quadratic form of the coefficient matrix around the centre of the draw. -/
theorem C194_location_density (hT : T.Pd) (m : Mme T n p) (th : T.Par → ℝ) (s2 : ℝ) (y : Fin n → ℝ)
    (hK : IsUnit (kmat m (T.gcov th)⁻¹ s2).det) :
    ∃ c : ℝ, ∀ l : Ix T p → ℝ,
      (1 / s2) * ((y - wmat m *ᵥ l) ⬝ᵥ (y - wmat m *ᵥ l)) + (l ∘ Sum.inr) ⬝ᵥ ((T.gcov th)⁻¹ *ᵥ (l ∘ Sum.inr)) =
        (l - (kmat m (T.gcov th)⁻¹ s2)⁻¹ *ᵥ rhs (withY m y) s2) ⬝ᵥ
          (kmat m (T.gcov th)⁻¹ s2 *ᵥ (l - (kmat m (T.gcov th)⁻¹ s2)⁻¹ *ᵥ rhs (withY m y) s2)) + c := by
  have hGs : ((T.gcov th)⁻¹)ᵀ = (T.gcov th)⁻¹ := by rw [transpose_nonsing_inv, gcov_symm hT]
  set Gi := (T.gcov th)⁻¹
  set K := kmat m Gi s2 with hKd
  set r := rhs (withY m y) s2 with hr
  have hKm : K = (1 / s2) • ((wmat m)ᵀ * wmat m) + fromBlocks 0 0 0 Gi := (w_gram m Gi s2).symm
  have hKs : Kᵀ = K := by
    rw [hKm, transpose_add, transpose_smul, transpose_mul, transpose_transpose, fromBlocks_transpose, hGs]
    simp
  have hKr : K *ᵥ (K⁻¹ *ᵥ r) = r := by rw [mulVec_mulVec, mul_nonsing_inv _ hK, one_mulVec]
  refine ⟨(1 / s2) * (y ⬝ᵥ y) - (K⁻¹ *ᵥ r) ⬝ᵥ r, fun l => ?_⟩
  have h1 : l ⬝ᵥ (K *ᵥ l) = (1 / s2) * ((wmat m *ᵥ l) ⬝ᵥ (wmat m *ᵥ l)) + (l ∘ Sum.inr) ⬝ᵥ (Gi *ᵥ (l ∘ Sum.inr)) := by
    rw [hKm, add_mulVec, dotProduct_add, smul_mulVec, dotProduct_smul, smul_eq_mul, ← mulVec_mulVec, dotProduct_mulVec, vecMul_transpose]
    congr 1
    rw [fromBlocks_mulVec]
    simp [dotProduct, Fintype.sum_sum_type]
  have h2 : l ⬝ᵥ r = (1 / s2) * ((wmat m *ᵥ l) ⬝ᵥ y) := by
    rw [hr, ← w_rhs, dotProduct_smul, smul_eq_mul, dotProduct_mulVec, vecMul_transpose]
  have h3 : (K⁻¹ *ᵥ r) ⬝ᵥ (K *ᵥ l) = l ⬝ᵥ r := by
    rw [dotProduct_mulVec, ← mulVec_transpose, hKs, hKr, dotProduct_comm]
  rw [mulVec_sub, hKr]
  simp only [sub_dotProduct, dotProduct_sub]
  rw [h3, h1, h2, dotProduct_comm y (wmat m *ᵥ l)]
  ring

theorem facOk_exists (ι : Type) [Fintype ι] [DecidableEq ι] : ∃ c : Fac ι, FacOk c := by
  classical
  have h : ∀ A : Matrix ι ι ℝ, A.PosDef → ∃ L, L * Lᵀ = A := fun A hA => by
    obtain ⟨B, hB⟩ := CStarAlgebra.nonneg_iff_eq_star_mul_self.mp hA.posSemidef.nonneg
    exact ⟨Bᵀ, by rw [hB, transpose_transpose, star_eq_conjTranspose, conjTranspose_eq_transpose_of_trivial]⟩
  refine ⟨fun A => if hA : A.PosDef then some (h A hA).choose else none, fun A L hL => ?_, fun A hA => by simp [hA]⟩
  by_cases hA : A.PosDef
  · rw [dif_pos hA] at hL
    have e := (h A hA).choose_spec
    rw [Option.some.inj hL] at e
    refine ⟨e, isUnit_iff_ne_zero.2 fun h0 => ?_⟩
    have := hA.det_pos
    rw [← e, det_mul, h0, zero_mul] at this
    exact lt_irrefl _ this
  · rw [dif_neg hA] at hL
    cases hL

/-- The draw is defined for positive definite covariance matrices and columns of `X` without linear relations. -/
theorem C194_location_defined (hT : T.Pd) {cG : Fac T.RE} (hcG : FacOk cG) {cM : Fac (Ix T p)} (hcM : FacOk cM) (m : Mme T n p)
    (th : T.Par → ℝ) {s2 : ℝ} (hs : 0 < s2) (hG : ∀ k, (invech (Terms.sl th k)).PosDef) (hi : (T.ginv? th).isSome)
    (hX : ∀ b, m.X *ᵥ b = 0 → b = 0) (x1 : T.RE → ℝ) (x2 y : Fin n → ℝ) : (sampleLocation cG cM m th s2 x1 x2 y).isSome := by
  obtain ⟨Gi, hGi⟩ := Option.isSome_iff_exists.1 hi
  have hp := (gcov_posDef hT hG).inv
  rw [← (ginv_some hT hGi).1] at hp
  obtain ⟨L, hL⟩ := Option.isSome_iff_exists.1 (hcG.some _ hp)
  have hK : (kmat m Gi s2).PosDef := by
    have hs' : Giᵀ = Gi := by simpa [conjTranspose_eq_transpose_of_trivial] using hp.1.eq
    refine PosDef.of_dotProduct_mulVec_pos ?_ fun l hl => ?_
    · rw [IsHermitian, conjTranspose_eq_transpose_of_trivial, ← w_gram, transpose_add, transpose_smul, transpose_mul, transpose_transpose,
        fromBlocks_transpose, hs']
      simp
    · rw [star_trivial, ← w_gram, add_mulVec, dotProduct_add, smul_mulVec, dotProduct_smul, smul_eq_mul, ← mulVec_mulVec, dotProduct_mulVec,
        vecMul_transpose]
      have e : l ⬝ᵥ ((fromBlocks 0 0 0 Gi : Matrix (Ix T p) (Ix T p) ℝ) *ᵥ l) = (l ∘ Sum.inr) ⬝ᵥ (Gi *ᵥ (l ∘ Sum.inr)) := by
        rw [fromBlocks_mulVec]
        simp [dotProduct, Fintype.sum_sum_type]
      rw [e]
      have h0 : 0 ≤ 1 / s2 * ((wmat m *ᵥ l) ⬝ᵥ (wmat m *ᵥ l)) :=
        mul_nonneg (by positivity) (Finset.sum_nonneg fun i _ => mul_self_nonneg _)
      by_cases hu : l ∘ Sum.inr = 0
      · have hb : l ∘ Sum.inl ≠ 0 := fun hb => hl (by
          ext (i | i)
          · exact congrFun hb i
          · exact congrFun hu i)
        have hw : wmat m *ᵥ l ≠ 0 := fun hw => hb (hX _ (by
          have : l = Sum.elim (l ∘ Sum.inl) (l ∘ Sum.inr) := (Sum.elim_comp_inl_inr l).symm
          rw [this, wmat, fromCols_mulVec_sumElim, hu, mulVec_zero, add_zero] at hw
          exact hw))
        rw [hu, mulVec_zero, dotProduct_zero, add_zero]
        refine mul_pos (by positivity) (lt_of_le_of_ne (Finset.sum_nonneg fun i _ => mul_self_nonneg _) fun h => hw ?_)
        exact dotProduct_self_eq_zero.1 h.symm
      · exact add_pos_of_nonneg_of_pos h0 (by simpa using hp.dotProduct_mulVec_pos hu)
  obtain ⟨LM, hLM⟩ := Option.isSome_iff_exists.1 (hcM.some _ hK)
  unfold sampleLocation
  have hW := w_gram m Gi s2
  unfold wmat at hW
  simp only [Option.bind_eq_bind]
  rw [hGi]
  simp only [Option.bind_some]
  rw [hL, hW]
  simp only [Option.bind_some]
  rw [hLM]
  rfl

/-- The kernel of the inverse Wishart density with `df` degrees of freedom and scale `V`. -/
noncomputable def iwKernel {k : ℕ} (df : ℝ) (V G : Matrix (Fin k) (Fin k) ℝ) : ℝ :=
  G.det ^ (-(df + k + 1) / 2) * Real.exp (-(V * G⁻¹).trace / 2)

/-- The kernel of the prior: `n` observations with cross products `V` more than none. -/
noncomputable def gPrior {k : ℕ} (nPrior : ℝ) (V G : Matrix (Fin k) (Fin k) ℝ) : ℝ :=
  G.det ^ (-nPrior / 2) * Real.exp (-(V * G⁻¹).trace / 2)

/-- The kernel of the normal density of a vector of random effects. -/
noncomputable def normKernel {k : ℕ} (G : Matrix (Fin k) (Fin k) ℝ) (u : Fin k → ℝ) : ℝ :=
  G.det ^ (-1 / 2 : ℝ) * Real.exp (-(u ⬝ᵥ (G⁻¹ *ᵥ u)) / 2)

theorem cross_trace {q k : ℕ} (u : Fin q → Fin k → ℝ) (H : Matrix (Fin k) (Fin k) ℝ) :
    (gCross u * H).trace = ∑ g, u g ⬝ᵥ (H *ᵥ u g) := by
  have : ∀ i, (gCross u * H) i i = ∑ g, ∑ j, u g i * (u g j * H j i) := fun i => by
    rw [Matrix.mul_apply, Finset.sum_comm]
    refine Finset.sum_congr rfl fun j _ => ?_
    simp only [gCross, of_apply]
    rw [Finset.sum_mul]
    exact Finset.sum_congr rfl fun g _ => by ring
  simp only [trace, diag_apply, this]
  rw [Finset.sum_comm]
  refine Finset.sum_congr rfl fun g _ => ?_
  simp only [dotProduct, mulVec, Finset.mul_sum]
  rw [Finset.sum_comm]
  refine Finset.sum_congr rfl fun j _ => Finset.sum_congr rfl fun i _ => ?_
  ring

/-- `sample_gcov`: the conditional density of the covariance matrix is the inverse Wishart density with the degrees of freedom and
the scale that are passed to `r_invwishart`. -/
theorem C194_gcov {q k : ℕ} (u : Fin q → Fin k → ℝ) (nPrior : ℝ) (V G : Matrix (Fin k) (Fin k) ℝ) (hG : 0 < G.det) :
    gPrior nPrior V G * ∏ g, normKernel G (u g) = iwKernel (gDf q k nPrior) (gCross u + V) G := by
  unfold gPrior normKernel iwKernel gDf
  rw [Finset.prod_mul_distrib, Finset.prod_const, Finset.card_univ, Fintype.card_fin, ← Real.exp_sum, Matrix.add_mul, trace_add, cross_trace,
    ← Real.rpow_natCast, ← Real.rpow_mul hG.le]
  rw [show ∀ a b c d : ℝ, a * b * (c * d) = (a * c) * (b * d) by intros; ring, ← Real.rpow_add hG, ← Real.exp_add]
  congr 2
  · ring
  · rw [← Finset.sum_div, Finset.sum_neg_distrib]
    ring

/-- The draw is the inverse of a Wishart matrix: positive definite with the cross products of the random effects in the scale. -/
theorem C194_gcov_draw {q k : ℕ} (chol : Matrix (Fin k) (Fin k) ℝ → Option (Matrix (Fin k) (Fin k) ℝ)) (chi : Fin k → ℝ)
    (z : Fin k → Fin k → ℝ) (u : Fin q → Fin k → ℝ) (V : Matrix (Fin k) (Fin k) ℝ) :
    sampleGcov chol chi z u V = rInvwishart chol chi z (of fun a b => V a b + ∑ g, u g a * u g b) := by
  unfold sampleGcov
  congr 1
  ext a b
  simp [gCross, add_comm]

/-- The kernel of the inverse gamma density. -/
noncomputable def igKernel (shape rate x : ℝ) : ℝ := x ^ (-(shape + 1)) * Real.exp (-rate / x)

/-- The kernel of the prior of the residual variance: `n` observations with sum of squares `V`. -/
noncomputable def rPriorKernel (nPrior V x : ℝ) : ℝ := x ^ (-nPrior / 2) * Real.exp (-V / (2 * x))

/-- The likelihood of the residual variance. -/
noncomputable def rLik {n : ℕ} (y yhat : Fin n → ℝ) (x : ℝ) : ℝ := ∏ i, x ^ (-1 / 2 : ℝ) * Real.exp (-(y i - yhat i) ^ 2 / (2 * x))

/-- `sample_rcov`: the conditional density of the residual variance is the inverse gamma density with the shape and the rate that are
passed to `r_invgamma`. -/
theorem C194_rcov {n : ℕ} (y yhat : Fin n → ℝ) (nPrior V : ℝ) {x : ℝ} (hx : 0 < x) :
    rPriorKernel nPrior V x * rLik y yhat x = igKernel (rShape n nPrior) (rRate y yhat V) x := by
  unfold rPriorKernel rLik igKernel rShape rRate
  rw [Finset.prod_mul_distrib, Finset.prod_const, Finset.card_univ, Fintype.card_fin, ← Real.exp_sum, ← Real.rpow_natCast, ← Real.rpow_mul hx.le]
  rw [show ∀ a b c d : ℝ, a * b * (c * d) = (a * c) * (b * d) by intros; ring, ← Real.rpow_add hx, ← Real.exp_add]
  congr 2
  · ring
  · rw [← Finset.sum_div, Finset.sum_neg_distrib]
    simp only [← pow_two]
    field_simp
    ring

/-- The draw is the rate over a gamma variable with the shape. -/
theorem C194_rcov_draw {n : ℕ} (g nPrior V : ℝ) (y yhat : Fin n → ℝ) (h : 0 ≤ rShape n nPrior) :
    sampleRcov g nPrior V y yhat = some (rRate y yhat V / g) := by
  unfold sampleRcov
  rw [if_neg (not_lt.2 h)]
  congr 1
  rw [one_div, one_div, mul_inv, inv_inv, div_eq_mul_inv]

/-- The default prior of models that are not normal is proper and has its mode at one half of `n` over `n`. -/
theorem C194_default_prior_partial (n : ℕ) (x : ℝ) :
    rPriorKernel (rPrior false n).2 (rPrior false n).1 x = x ^ (-(n : ℝ) / 2) * Real.exp (-(0.5 * n) / (2 * x)) := by
  unfold rPriorKernel rPrior
  norm_num

/-- The default prior of normal models is not flat: its density is proportional to the residual variance, since two is subtracted
from the number of observations both in `wsinfo` and in the prior; with three or fewer observations sampling raises. -/
theorem C194_default_prior_violated :
    (∀ n x, 0 < x → rPriorKernel (rPrior true n).2 (rPrior true n).1 x = x) ∧
      ∀ (y yhat : Fin 3 → ℝ) (g : ℝ), sampleRcov g (rPrior true 3).2 (rPrior true 3).1 y yhat = none := by
  refine ⟨fun n x hx => ?_, fun y yhat g => ?_⟩
  · unfold rPriorKernel rPrior
    norm_num
  · unfold sampleRcov rShape rPrior
    norm_num

end Verif.Mcmc
