import Verif.Rand.Mvn
import Verif.Data.Props
import Verif.Like.InfluenceProps
import Mathlib.Analysis.Matrix.Order
import Mathlib.Analysis.SpecialFunctions.ContinuousFunctionalCalculus.Rpow.Basic
import Mathlib.MeasureTheory.Integral.Bochner.Basic
import Mathlib.LinearAlgebra.Matrix.Block

/-!
Claim C169: `exact_rmvnorm` returns samples whose mean and covariance are exactly those asked for, and `wishart` follows Bartlett's decomposition.
-/

namespace Verif.Rand

open Matrix Verif.Data Verif.Like MeasureTheory
open scoped MatrixOrder

variable {p : ℕ}

/-- The mean of a column of a sample. -/
noncomputable def sMean (n : ℕ) (Y : ℕ → Fin p → ℝ) (a : Fin p) : ℝ := (∑ i ∈ Finset.range n, Y i a) / n

/-- The covariance of two columns of a sample. -/
noncomputable def sCov (n : ℕ) (Y : ℕ → Fin p → ℝ) (a b : Fin p) : ℝ := (∑ i ∈ Finset.range n, (Y i a - sMean n Y a) * (Y i b - sMean n Y b)) / n

/-- The left singular vectors diagonalise a positive semidefinite matrix. -/
theorem svd_psd {S U Vt : Matrix (Fin p) (Fin p) ℝ} {d : Fin p → ℝ} (h : SvdSq S U d Vt) (hS : S.PosSemidef) : U * diagonal d * Uᵀ = S := by
  have hT : Sᵀ = S := by have := hS.1; rwa [Matrix.IsHermitian, conjTranspose_eq_transpose_of_trivial] at this
  have hB : (U * diagonal d * Uᵀ).PosSemidef := by
    have := (PosSemidef.diagonal (d := d) h.nonneg).mul_mul_conjTranspose_same U
    rwa [conjTranspose_eq_transpose_of_trivial] at this
  have h1 : S * S = U * diagonal d * Uᵀ * (U * diagonal d * Uᵀ) := by
    calc S * S = S * Sᵀ := by rw [hT]
      _ = U * diagonal d * (Vt * Vtᵀ) * diagonal d * Uᵀ := by
        conv_lhs => rw [h.fac]
        simp only [transpose_mul, diagonal_transpose, Matrix.mul_assoc]
      _ = U * diagonal d * (Uᵀ * U) * diagonal d * Uᵀ := by rw [h.right, h.left]
      _ = _ := by simp only [Matrix.mul_assoc]
  have e1 := CFC.sqrt_unique (a := S * S) (b := S) rfl hS.nonneg
  have e2 := CFC.sqrt_unique (a := S * S) (b := U * diagonal d * Uᵀ) h1.symm hB.nonneg
  rw [← e1, ← e2]

/-- Standardised columns stay as they are when they are standardised again. -/
theorem csd_csd (n : ℕ) (hn : 0 < n) (Z : ℕ → ℕ → ℝ) (j : ℕ) (hs : colStd n Z j ≠ 0) (i : ℕ) : csd n (csd n Z) i j = csd n Z i j := by
  obtain ⟨h0, h1⟩ := C60_csd_moments n Z hn j hs
  have hst : colStd n (csd n Z) j = 1 := by
    unfold colStd
    rw [h0]; simp only [sub_zero]; rw [h1, Real.sqrt_one]
  rw [(C60_csd_eq n (csd n Z) hn i j).1, h0, hst]; simp

/-- **C169**: the sample returned by `exact_rmvnorm` has exactly the mean `mu` and the (population) covariance `S`. -/
theorem C169_exact (n : ℕ) (hn : 0 < n) {S U Vt : Matrix (Fin p) (Fin p) ℝ} {d : Fin p → ℝ} (hS : S.PosSemidef) (h : SvdSq S U d Vt)
    {chol : Matrix (Fin p) (Fin p) ℝ → Option (Matrix (Fin p) (Fin p) ℝ)} (hc : CholOk chol) (Z : ℕ → ℕ → ℝ) (hs : ∀ j, colStd n Z j ≠ 0)
    (mu : Option (Fin p → ℝ)) {Y : ℕ → Fin p → ℝ} (hY : exactRmvnorm n U d chol Z mu = some Y) (a b : Fin p) :
    sMean n Y a = mu.elim 0 (fun m => m a) ∧ sCov n Y a b = S a b := by
  unfold exactRmvnorm at hY
  simp only [Option.bind_eq_bind, Option.bind_eq_some_iff] at hY
  obtain ⟨C, hC, hY⟩ := hY
  obtain ⟨c1, c2, c3⟩ := hc.ok _ _ hC
  set X := csd n Z with hX
  set L := (U * diagonal fun i => √(d i)) * C⁻¹ with hL
  have hn' : (n : ℝ) ≠ 0 := by positivity
  have hCu : IsUnit C.det := unit_chol c2 c3
  have hm : ∀ j, ∑ i ∈ Finset.range n, X i j = 0 := by
    intro j
    have := (C60_csd_moments n Z hn j (hs j)).1
    unfold colMean at this
    rcases div_eq_zero_iff.1 this with h | h
    · exact h
    · exact absurd h hn'
  have hR : ∀ a b : Fin p, (∑ i ∈ Finset.range n, X i a * X i b) / n = corrMat p n X a b := by
    intro a b
    unfold corrMat corrNb
    rw [of_apply]
    congr 1
    exact Finset.sum_congr rfl fun i _ => by rw [hX, csd_csd n hn Z _ (hs _), csd_csd n hn Z _ (hs _)]
  obtain ⟨m, hYm, hm0⟩ : ∃ m : Fin p → ℝ, Y = (fun i a => (∑ b : Fin p, X i b * L a b) + m a) ∧
      m a = mu.elim 0 (fun m => m a) := by
    cases mu with
    | none => refine ⟨fun _ => 0, ?_, rfl⟩; funext i a; simp only [add_zero]; exact congrFun (congrFun (Option.some.inj hY).symm i) a
    | some mu => exact ⟨mu, (Option.some.inj hY).symm, rfl⟩
  have hmean : ∀ a, sMean n Y a = m a := by
    intro a
    unfold sMean
    rw [hYm, Finset.sum_add_distrib, Finset.sum_comm]
    have : ∀ b : Fin p, ∑ i ∈ Finset.range n, X i b * L a b = 0 := fun b => by rw [← Finset.sum_mul, hm, zero_mul]
    rw [Finset.sum_eq_zero fun b _ => this b]
    simp [hn']
  refine ⟨(hmean a).trans hm0, ?_⟩
  have hcov : sCov n Y a b = (L * corrMat p n X * Lᵀ) a b := by
    unfold sCov
    rw [hmean, hmean, hYm]
    simp only [add_sub_cancel_right]
    have e1 : ∀ i, (∑ e : Fin p, X i e * L a e) * (∑ c : Fin p, X i c * L b c) / n = ∑ c : Fin p, ∑ e : Fin p, L a e * (X i e * X i c / n) * L b c := by
      intro i
      rw [Finset.sum_mul_sum, Finset.sum_comm, Finset.sum_div]
      refine Finset.sum_congr rfl fun c _ => ?_
      rw [Finset.sum_div]
      exact Finset.sum_congr rfl fun e _ => by ring
    rw [Finset.sum_div, Finset.sum_congr rfl fun i _ => e1 i, Finset.sum_comm, Matrix.mul_apply]
    refine Finset.sum_congr rfl fun c _ => ?_
    rw [Finset.sum_comm, Matrix.mul_apply, Finset.sum_mul]
    refine Finset.sum_congr rfl fun e _ => ?_
    rw [← hR, transpose_apply, Finset.sum_div, Finset.mul_sum, Finset.sum_mul]
  rw [hcov]
  have hdd : (diagonal fun i => √(d i)) * diagonal (fun i => √(d i)) = diagonal d := by
    rw [diagonal_mul_diagonal]; congr 1; funext i; exact Real.mul_self_sqrt (h.nonneg i)
  have : L * corrMat p n X * Lᵀ = S := by
    rw [← svd_psd h hS, ← c1, hL, transpose_mul, transpose_mul, diagonal_transpose, transpose_nonsing_inv]
    have hCt : IsUnit (Cᵀ).det := by rwa [det_transpose]
    calc (U * diagonal fun i => √(d i)) * C⁻¹ * (C * Cᵀ) * ((Cᵀ)⁻¹ * ((diagonal fun i => √(d i)) * Uᵀ))
        = (U * diagonal fun i => √(d i)) * (C⁻¹ * C) * (Cᵀ * (Cᵀ)⁻¹) * ((diagonal fun i => √(d i)) * Uᵀ) := by simp only [Matrix.mul_assoc]
      _ = U * ((diagonal fun i => √(d i)) * diagonal fun i => √(d i)) * Uᵀ := by
        rw [nonsing_inv_mul _ hCu, mul_nonsing_inv _ hCt]; simp only [Matrix.mul_one, Matrix.mul_assoc]
      _ = _ := by rw [hdd]
  rw [this]

/-! ### `wishart` -/

/-- Bartlett's factor is lower triangular. -/
theorem C169_wishart {chol : Matrix (Fin p) (Fin p) ℝ → Option (Matrix (Fin p) (Fin p) ℝ)} (hc : CholOk chol) {V : Matrix (Fin p) (Fin p) ℝ}
    (hV : V.PosDef) (chi : Fin p → ℝ) (hchi : ∀ i, 0 < chi i) (z : Fin p → Fin p → ℝ) :
    ∃ W L, chol V = some L ∧ wishart chol chi z V = some W ∧ W.PosDef ∧ W.det = V.det * ∏ i, chi i ∧
      (∀ i j, i < j → (L * bartlett chi z) i j = 0) ∧ (∀ i, 0 < (L * bartlett chi z) i i) ∧
      W = (L * bartlett chi z) * (L * bartlett chi z)ᵀ := by
  obtain ⟨L, hL⟩ := hc.total V hV
  obtain ⟨l1, l2, l3⟩ := hc.ok _ _ hL
  have ht : ∀ i j, i < j → bartlett chi z i j = 0 := by
    intro i j hij
    unfold bartlett
    rw [of_apply, if_neg hij.ne, if_neg (not_lt.2 hij.le)]
  have hd : ∀ i, bartlett chi z i i = √(chi i) := fun i => by unfold bartlett; rw [of_apply, if_pos rfl]
  have htri : ∀ i j, i < j → (L * bartlett chi z) i j = 0 := by
    intro i j hij
    rw [Matrix.mul_apply]
    refine Finset.sum_eq_zero fun k _ => ?_
    rcases lt_or_ge i k with h | h
    · rw [l2 i k h, zero_mul]
    · rw [ht k j (lt_of_le_of_lt h hij), mul_zero]
  have hdiag : ∀ i, (L * bartlett chi z) i i = L i i * √(chi i) := by
    intro i
    rw [Matrix.mul_apply, Finset.sum_eq_single i, hd]
    · intro k _ hk
      rcases lt_or_gt_of_ne hk with h | h
      · rw [ht k i h, mul_zero]
      · rw [l2 i k h, zero_mul]
    · simp
  have hpos : ∀ i, 0 < (L * bartlett chi z) i i := fun i => by rw [hdiag]; exact mul_pos (l3 i) (Real.sqrt_pos.2 (hchi i))
  have hu := unit_chol htri hpos
  refine ⟨_, L, hL, by unfold wishart; rw [hL]; rfl, ?_, ?_, htri, hpos, rfl⟩
  · have := Matrix.PosDef.mul_conjTranspose_self (L * bartlett chi z) (by
      exact vecMul_injective_of_isUnit ((isUnit_iff_isUnit_det _).2 hu))
    rwa [conjTranspose_eq_transpose_of_trivial] at this
  · have hb : (bartlett chi z).det = ∏ i, √(chi i) := by
      rw [det_of_lowerTriangular _ (fun i j h => ht i j h)]
      exact Finset.prod_congr rfl fun i _ => hd i
    rw [det_mul, det_transpose, det_mul, hb, ← l1, det_mul, det_transpose]
    have : (∏ i, √(chi i)) * ∏ i, √(chi i) = ∏ i, chi i := by
      rw [← Finset.prod_mul_distrib]; exact Finset.prod_congr rfl fun i _ => Real.mul_self_sqrt (hchi i).le
    rw [← this]; ring

/-- **C169**: the mean of the Wishart matrix is `df * V`, when the chi-square draws have the degrees of freedom of the code as their means, the
normal draws unit variance, and entries in different rows are uncorrelated. -/
theorem C169_wishart_mean {Ω : Type*} [MeasurableSpace Ω] (μ : Measure Ω) (df : ℝ)
    {chol : Matrix (Fin p) (Fin p) ℝ → Option (Matrix (Fin p) (Fin p) ℝ)} (hc : CholOk chol) {V : Matrix (Fin p) (Fin p) ℝ}
    (hV : V.PosDef) (chi : Ω → Fin p → ℝ) (hchi : ∀ ω i, 0 ≤ chi ω i) (z : Ω → Fin p → Fin p → ℝ)
    (hi : ∀ i j k, Integrable (fun ω => bartlett (chi ω) (z ω) i k * bartlett (chi ω) (z ω) j k) μ)
    (h1 : ∀ i, ∫ ω, chi ω i ∂μ = chiDf df i) (h2 : ∀ i j, j < i → ∫ ω, z ω i j ^ 2 ∂μ = 1)
    (h3 : ∀ i j k, i ≠ j → ∫ ω, bartlett (chi ω) (z ω) i k * bartlett (chi ω) (z ω) j k ∂μ = 0) (a b : Fin p) :
    ∃ W : Ω → Matrix (Fin p) (Fin p) ℝ, (∀ ω, wishart chol (chi ω) (z ω) V = some (W ω)) ∧ ∫ ω, W ω a b ∂μ = df * V a b := by
  obtain ⟨L, hL⟩ := hc.total V hV
  obtain ⟨l1, l2, l3⟩ := hc.ok _ _ hL
  refine ⟨fun ω => (L * bartlett (chi ω) (z ω)) * (L * bartlett (chi ω) (z ω))ᵀ, fun ω => by unfold wishart; rw [hL]; rfl, ?_⟩
  have hW : ∀ ω, ((L * bartlett (chi ω) (z ω)) * (L * bartlett (chi ω) (z ω))ᵀ) a b =
      ∑ k, ∑ i, ∑ j, (L a i * L b j) * (bartlett (chi ω) (z ω) i k * bartlett (chi ω) (z ω) j k) := by
    intro ω
    rw [Matrix.mul_apply]
    refine Finset.sum_congr rfl fun k _ => ?_
    rw [transpose_apply, Matrix.mul_apply, Matrix.mul_apply, Finset.sum_mul_sum]
    exact Finset.sum_congr rfl fun i _ => Finset.sum_congr rfl fun j _ => by ring
  have hint : ∀ i j k, Integrable (fun ω => (L a i * L b j) * (bartlett (chi ω) (z ω) i k * bartlett (chi ω) (z ω) j k)) μ :=
    fun i j k => (hi i j k).const_mul _
  simp only [hW]
  rw [integral_finsetSum _ fun k _ => integrable_finsetSum _ fun i _ => integrable_finsetSum _ fun j _ => hint i j k]
  have e1 : ∀ k, ∫ ω, ∑ i, ∑ j, (L a i * L b j) * (bartlett (chi ω) (z ω) i k * bartlett (chi ω) (z ω) j k) ∂μ =
      ∑ i, ∑ j, (L a i * L b j) * ∫ ω, bartlett (chi ω) (z ω) i k * bartlett (chi ω) (z ω) j k ∂μ := by
    intro k
    rw [integral_finsetSum _ fun i _ => integrable_finsetSum _ fun j _ => hint i j k]
    refine Finset.sum_congr rfl fun i _ => ?_
    rw [integral_finsetSum _ fun j _ => hint i j k]
    exact Finset.sum_congr rfl fun j _ => integral_const_mul _ _
  rw [Finset.sum_congr rfl fun k _ => e1 k, Finset.sum_comm]
  have e2 : ∀ i, ∑ k, ∑ j, (L a i * L b j) * ∫ ω, bartlett (chi ω) (z ω) i k * bartlett (chi ω) (z ω) j k ∂μ = L a i * L b i * df := by
    intro i
    rw [Finset.sum_comm, Finset.sum_eq_single i]
    · rw [← Finset.mul_sum]
      congr 1
      have e3 : ∀ k : Fin p, ∫ ω, bartlett (chi ω) (z ω) i k * bartlett (chi ω) (z ω) i k ∂μ = if k = i then chiDf df i else if k < i then 1 else 0 := by
        intro k
        by_cases hk : k = i
        · subst hk
          rw [if_pos rfl, ← h1]
          refine integral_congr_ae (Filter.Eventually.of_forall fun ω => ?_)
          simp only [bartlett, of_apply, if_true]
          exact Real.mul_self_sqrt (hchi ω k)
        · rw [if_neg hk]
          by_cases hlt : k < i
          · rw [if_pos hlt, ← h2 i k hlt]
            refine integral_congr_ae (Filter.Eventually.of_forall fun ω => ?_)
            simp only [bartlett, of_apply, if_neg (Ne.symm hk), if_pos hlt]
            ring
          · rw [if_neg hlt]
            simp only [bartlett, of_apply, if_neg (Ne.symm hk), if_neg hlt]
            simp
      rw [Finset.sum_congr rfl fun k _ => e3 k]
      have e4 : ∀ k : Fin p, (if k = i then chiDf df i else if k < i then 1 else 0 : ℝ) = (if k = i then chiDf df i else 0) + if k < i then 1 else 0 := by
        intro k
        by_cases hk : k = i
        · subst hk; simp
        · simp [hk]
      rw [Finset.sum_congr rfl fun k _ => e4 k, Finset.sum_add_distrib, Finset.sum_ite_eq', if_pos (Finset.mem_univ _)]
      have e5 : ∑ k : Fin p, (if k < i then (1 : ℝ) else 0) = (i : ℕ) := by
        rw [Finset.sum_boole]
        congr 1
        have : (Finset.univ.filter fun k : Fin p => k < i) = Finset.Iio i := by ext; simp
        rw [this, Fin.card_Iio]
      rw [e5]; unfold chiDf; ring
    · intro j _ hj
      refine Finset.sum_eq_zero fun k _ => ?_
      rw [h3 i j k (Ne.symm hj), mul_zero]
    · simp
  rw [Finset.sum_congr rfl fun i _ => e2 i, ← Finset.sum_mul, ← l1, Matrix.mul_apply]
  simp only [transpose_apply]
  ring

/-- **C169**: `r_invwishart` inverts a Wishart matrix with scale `V⁻¹`. -/
theorem C169_inverse {chol : Matrix (Fin p) (Fin p) ℝ → Option (Matrix (Fin p) (Fin p) ℝ)} (hc : CholOk chol) {V : Matrix (Fin p) (Fin p) ℝ}
    (hV : V.PosDef) (chi : Fin p → ℝ) (hchi : ∀ i, 0 < chi i) (z : Fin p → Fin p → ℝ) :
    ∃ W IW, wishart chol chi z V⁻¹ = some W ∧ rInvwishart chol chi z V = some IW ∧ W * IW = 1 ∧ IW.PosDef := by
  obtain ⟨W, L, -, hW, hpd, -⟩ := C169_wishart hc hV.inv chi hchi z
  refine ⟨W, W⁻¹, hW, ?_, mul_nonsing_inv _ hpd.det_pos.ne'.isUnit, hpd.inv⟩
  unfold rInvwishart npInv invwishart
  rw [if_neg hV.det_pos.ne']
  simp only [Option.bind_eq_bind, Option.bind_some, hW]
  unfold npInv
  rw [if_neg hpd.det_pos.ne']

/-- Witness: such a Cholesky routine exists. -/
example : ∃ chol : Matrix (Fin p) (Fin p) ℝ → Option (Matrix (Fin p) (Fin p) ℝ), CholOk chol := cholOk_exists p

end Verif.Rand
