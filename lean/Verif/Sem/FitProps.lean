import Verif.Sem.Fit
import Verif.Sem.LikeProps
import Mathlib.Analysis.Matrix.Order
import Mathlib.Algebra.BigOperators.Field
import Mathlib.LinearAlgebra.Matrix.Notation
/-!
# C64: the SEM fit function is the scaled likelihood-ratio discrepancy
-/
set_option linter.unusedSectionVars false
namespace Verif.Sem
open Matrix Verif.Calc
open scoped MatrixOrder

variable {p q r : Type*} [Fintype p] [Fintype q] [DecidableEq p] [DecidableEq q] [Fintype r]
  [DecidableEq r]

theorem log_det_le_trace {M : Matrix p p ℝ} (hM : M.PosDef) :
    Real.log M.det ≤ M.trace - Fintype.card p ∧
      (Real.log M.det = M.trace - Fintype.card p → M = 1) := by
  have hp := hM.eigenvalues_pos
  have hd : Real.log M.det = ∑ i, Real.log (hM.1.eigenvalues i) := by
    rw [hM.1.det_eq_prod_eigenvalues]
    exact Real.log_prod fun i _ => (hp i).ne'
  have ht : M.trace - Fintype.card p = ∑ i, (hM.1.eigenvalues i - 1) := by
    rw [hM.1.trace_eq_sum_eigenvalues, Finset.sum_sub_distrib]
    simp
  rw [hd, ht]
  refine ⟨Finset.sum_le_sum fun i _ => Real.log_le_sub_one_of_pos (hp i), fun h => ?_⟩
  have h1 := (Finset.sum_eq_sum_iff_of_le
    fun i _ => Real.log_le_sub_one_of_pos (hp i)).1 h
  have h2 : hM.1.eigenvalues = fun _ => 1 := by
    funext i
    by_contra hne
    exact absurd (h1 i (Finset.mem_univ i)) (Real.log_lt_sub_one_of_pos (hp i) hne).ne
  have h3 := hM.1.spectral_theorem
  rw [h2] at h3
  have h4 : diagonal (RCLike.ofReal ∘ fun _ : p => (1 : ℝ)) = (1 : Matrix p p ℝ) := by
    ext i j; simp [diagonal, Matrix.one_apply]
  rw [h4, map_one] at h3
  exact h3

/-- The covariance part of the discrepancy. -/
theorem kl_nonneg {Sg S : Matrix p p ℝ} (hSg : Sg.PosDef) (hS : S.PosDef) :
    0 ≤ Real.log (abs Sg.det) + (Sg⁻¹ * S).trace + (-Real.log (abs S.det) - Fintype.card p) ∧
    (Real.log (abs Sg.det) + (Sg⁻¹ * S).trace + (-Real.log (abs S.det) - Fintype.card p) = 0 →
      Sg = S) := by
  obtain ⟨B, hB⟩ := CStarAlgebra.nonneg_iff_eq_star_mul_self.mp hSg.inv.posSemidef.nonneg
  rw [star_eq_conjTranspose, conjTranspose_eq_transpose_of_trivial] at hB
  have hdet : Sg.det ≠ 0 := hSg.det_pos.ne'
  have hunit : IsUnit Sg.det := isUnit_iff_ne_zero.2 hdet
  have hBdet : B.det * B.det = Sg.det⁻¹ := by
    have := congrArg Matrix.det hB
    rw [Matrix.det_nonsing_inv, Ring.inverse_eq_inv', Matrix.det_mul, Matrix.det_transpose] at this
    exact this.symm
  have hBne : B.det ≠ 0 := by
    intro h0
    rw [h0, mul_zero] at hBdet
    exact (inv_ne_zero hdet) hBdet.symm
  have hBu : IsUnit B.det := isUnit_iff_ne_zero.2 hBne
  have hM : (B * S * Bᵀ).PosDef := by
    have := hS.mul_mul_conjTranspose_same (B := B)
      (Matrix.vecMul_injective_iff_isUnit.2 ((Matrix.isUnit_iff_isUnit_det B).2 hBu))
    rwa [conjTranspose_eq_transpose_of_trivial] at this
  obtain ⟨h1, h2⟩ := log_det_le_trace hM
  have ht : (B * S * Bᵀ).trace = (Sg⁻¹ * S).trace := by
    rw [hB, Matrix.trace_mul_comm, Matrix.mul_assoc]
  have hl : Real.log (B * S * Bᵀ).det = Real.log S.det - Real.log Sg.det := by
    rw [Matrix.det_mul, Matrix.det_mul, Matrix.det_transpose]
    have e : B.det * S.det * B.det = S.det * Sg.det⁻¹ := by rw [← hBdet]; ring
    rw [e, Real.log_mul hS.det_pos.ne' (inv_ne_zero hdet), Real.log_inv]; ring
  rw [ht, hl] at h1 h2
  rw [Real.log_abs, Real.log_abs]
  refine ⟨by linarith, fun h => ?_⟩
  have h3 := h2 (by linarith)
  -- B S Bᵀ = 1, so S = B⁻¹ B⁻ᵀ = (BᵀB)⁻¹
  have h4 : Sg⁻¹ * S = 1 := by
    rw [hB]
    have h5 : B * (S * Bᵀ) = 1 := by rw [← Matrix.mul_assoc]; exact h3
    have h6 : (S * Bᵀ) * B = 1 := mul_eq_one_comm.1 h5
    have h7 : S * (Bᵀ * B) = 1 := by rw [← Matrix.mul_assoc]; exact h6
    exact mul_eq_one_comm.1 h7
  have h8 : Sg * (Sg⁻¹ * S) = Sg := by rw [h4, Matrix.mul_one]
  rw [← Matrix.mul_assoc, Matrix.mul_nonsing_inv _ hunit, Matrix.one_mul] at h8
  exact h8.symm

theorem fitGroup_split (d : Stats p) (c : ℝ) (θ : Mats p q) :
    fitGroup d c θ = (d.m - θ.mu) ⬝ᵥ (θ.Sigma⁻¹ *ᵥ (d.m - θ.mu)) +
      (Real.log (abs θ.Sigma.det) + (θ.Sigma⁻¹ * d.S).trace + c) := by
  simp only [fitGroup, dotProduct_mulVec]; ring

theorem const_submatrix (Sall : Matrix r r ℝ) (e : p ≃ r) :
    modelConst Sall = -Real.log (abs (Sall.submatrix e e).det) - Fintype.card p := by
  unfold modelConst
  rw [Matrix.det_submatrix_equiv_self, Fintype.card_congr e]

/-- When the data's columns are exactly the model's observed variables (in any order), every
group's term is finite and non-negative, and it is zero exactly when the implied moments equal the
sample moments. -/
theorem C64_nonneg_partial (d : Stats p) (Sall : Matrix r r ℝ) (e : p ≃ r) (gw : ℝ) (θ : Mats p q)
    (hd : d.S = Sall.submatrix e e) (hS : d.S.PosDef) (hSg : θ.Sigma.PosDef) (hg : 0 < gw) :
    ∃ x, fitTerm d (modelConst Sall) gw θ = some x ∧ 0 ≤ x ∧
      (x = 0 ↔ θ.Sigma = d.S ∧ θ.mu = d.m) := by
  obtain ⟨k1, k2⟩ := kl_nonneg hSg hS
  have hq : 0 ≤ (d.m - θ.mu) ⬝ᵥ (θ.Sigma⁻¹ *ᵥ (d.m - θ.mu)) := by
    simpa using hSg.inv.posSemidef.dotProduct_mulVec_nonneg (d.m - θ.mu)
  have hf : 0 ≤ fitGroup d (modelConst Sall) θ := by
    rw [fitGroup_split, const_submatrix Sall e, ← hd]
    linarith
  have hx : 0 ≤ fitGroup d (modelConst Sall) θ * gw := mul_nonneg hf hg.le
  refine ⟨_, ?_, hx, ?_⟩
  · unfold fitTerm
    rw [if_neg]
    rintro (h | h)
    · exact absurd hSg.det_pos (not_lt.2 h.le)
    · linarith
  · rw [mul_eq_zero, or_iff_left hg.ne', fitGroup_split, const_submatrix Sall e, ← hd]
    constructor
    · intro h
      refine ⟨k2 (by linarith), ?_⟩
      by_contra hne
      have hne' : d.m - θ.mu ≠ 0 := fun h0 => hne (sub_eq_zero.1 h0).symm
      have := hSg.inv.dotProduct_mulVec_pos hne'
      rw [star_trivial] at this
      linarith
    · rintro ⟨h1, h2⟩
      rw [h2, sub_self, zero_dotProduct, h1,
        Matrix.nonsing_inv_mul _ (isUnit_iff_ne_zero.2 hS.det_pos.ne'), Matrix.trace_one]
      ring

/-- `loglike` computes minus the normal log-density of each observation. -/
theorem C64_loglike_obs {k : ℕ} (U : Matrix (Fin k) (Fin k) ℝ) (c : ℝ) (y : Fin k → ℝ)
    (θ : Mats (Fin k) q) (hU : IsChol U θ.Sigma) : llObs U c y θ = negLogDens c y θ := by
  obtain ⟨h1, h2, h3⟩ := hU
  have hdU : U.det = ∏ i, U i i := Matrix.det_of_isUpperTriangular h1
  have hpos : 0 < U.det := by rw [hdU]; exact Finset.prod_pos fun i _ => h2 i
  have hu : IsUnit U.det := isUnit_iff_ne_zero.2 hpos.ne'
  have hld : Real.log (abs θ.Sigma.det) = 2 * ∑ i, Real.log (U i i) := by
    rw [← h3, Matrix.det_mul, Matrix.det_transpose, Real.log_abs,
      Real.log_mul hpos.ne' hpos.ne', hdU, Real.log_prod fun i _ => (h2 i).ne']
    ring
  unfold llObs negLogDens
  dsimp only
  rw [hld]
  have hz : ∑ i, (((Uᵀ)⁻¹ *ᵥ (y - θ.mu)) i) ^ 2 =
      (y - θ.mu) ⬝ᵥ (θ.Sigma⁻¹ *ᵥ (y - θ.mu)) := by
    rw [← h3, Matrix.mul_inv_rev, ← mulVec_mulVec, dotProduct_mulVec, ← mulVec_transpose,
      Matrix.transpose_nonsing_inv]
    simp only [dotProduct, sq]
  rw [hz]

theorem quad_sum (V : Matrix p p ℝ) (v : p → ℝ) :
    v ⬝ᵥ (V *ᵥ v) = ∑ a, ∑ b, V a b * (v a * v b) := by
  simp only [dotProduct, mulVec, Finset.mul_sum]
  refine Finset.sum_congr rfl fun a _ => Finset.sum_congr rfl fun b _ => ?_
  ring

/-- Summed over the observations of a group, minus the log-density is `n_i / 2` times the fit
function's term, up to a constant that does not depend on the parameters. -/
theorem C64_loglike_group {n : ℕ} (hn : 0 < n) (y : Fin n → p → ℝ) (c c' : ℝ) (θ : Mats p q) :
    ∑ i, negLogDens c (y i) θ = n / 2 * fitGroup (statsOf y) c' θ + n / 2 * (c - c') := by
  have hn' : (n : ℝ) ≠ 0 := Nat.cast_ne_zero.2 hn.ne'
  rw [fitGroup_split]
  unfold negLogDens
  generalize θ.Sigma⁻¹ = V
  generalize θ.mu = μ
  generalize Real.log (abs θ.Sigma.det) = l
  have key : ∑ i, (y i - μ) ⬝ᵥ (V *ᵥ (y i - μ)) = n * (((statsOf y).m - μ) ⬝ᵥ
      (V *ᵥ ((statsOf y).m - μ)) + (V * (statsOf y).S).trace) := by
    have hS : ∀ a b, (n : ℝ) * (statsOf y).S b a =
        ∑ i, (y i a - (statsOf y).m a) * (y i b - (statsOf y).m b) := by
      intro a b
      simp only [statsOf]
      rw [mul_div_cancel₀ _ hn']
      exact Finset.sum_congr rfl fun i _ => mul_comm _ _
    have hm : ∀ a, ∑ i, (y i a - (statsOf y).m a) = 0 := by
      intro a
      rw [Finset.sum_sub_distrib]
      simp only [statsOf, Finset.sum_const, Finset.card_univ, Fintype.card_fin, nsmul_eq_mul]
      rw [mul_div_cancel₀ _ hn', sub_self]
    simp only [quad_sum, Matrix.trace, Matrix.diag, Matrix.mul_apply]
    rw [Finset.sum_comm, ← Finset.sum_add_distrib, Finset.mul_sum]
    refine Finset.sum_congr rfl fun a _ => ?_
    rw [Finset.sum_comm, ← Finset.sum_add_distrib, Finset.mul_sum]
    refine Finset.sum_congr rfl fun b _ => ?_
    have e : ∀ i, V a b * ((y i - μ) a * (y i - μ) b) = V a b *
        ((y i a - (statsOf y).m a) * (y i b - (statsOf y).m b)) +
        V a b * (((statsOf y).m - μ) b) * (y i a - (statsOf y).m a) +
        V a b * (((statsOf y).m - μ) a) * (y i b - (statsOf y).m b) +
        V a b * (((statsOf y).m - μ) a * ((statsOf y).m - μ) b) := by
      intro i
      simp only [Pi.sub_apply]; ring
    simp only [e, Finset.sum_add_distrib, ← Finset.mul_sum, hm, Finset.sum_const,
      Finset.card_univ, Fintype.card_fin, nsmul_eq_mul, ← hS]
    ring
  rw [← Finset.sum_div, Finset.sum_add_distrib, Finset.sum_add_distrib, key]
  simp only [Finset.sum_const, Finset.card_univ, Fintype.card_fin, nsmul_eq_mul]
  ring

/-- Multiplying by the group weight and `n / 2`, as `fit_func` does, gives `n_i / 2`. -/
theorem C64_weight (n ni f : ℝ) (hn : n ≠ 0) : n / 2 * (f * (ni / n)) = ni / 2 * f := by
  field_simp

theorem mapM_some {α β : Type*} (f : α → Option β) (g : α → β) (l : List α)
    (h : ∀ x ∈ l, f x = some (g x)) : l.mapM f = some (l.map g) := by
  induction l with
  | nil => rfl
  | cons a l ih =>
    rw [List.mapM_cons, h a (by simp), ih fun x hx => h x (by simp [hx])]
    rfl

/-- If no group's term is set to infinity, `fit_func` is the sum over groups of `n_i / 2` times the
group's discrepancy. -/
theorem C64_fit_func (gs : List (Stats p × ℝ × ℝ)) (θs : List (Mats p q))
    (hn : (gs.map fun g => g.2.2).sum ≠ 0)
    (h : ∀ x ∈ gs.zip θs, fitTerm x.1.1 x.1.2.1 (x.1.2.2 / (gs.map fun g => g.2.2).sum) x.2 ≠ none) :
    fitFunc gs θs =
      some (((gs.zip θs).map fun x => x.1.2.2 / 2 * fitGroup x.1.1 x.1.2.1 x.2).sum) := by
  unfold fitFunc
  generalize (gs.map fun g => g.2.2).sum = n at *
  dsimp only
  rw [mapM_some _ (fun x => fitGroup x.1.1 x.1.2.1 x.2 * (x.1.2.2 / n))]
  · rw [Option.map_some, ← List.sum_map_mul_left]
    simp only [C64_weight _ _ _ hn]
  · intro x hx
    have := h x hx
    unfold fitTerm at this ⊢
    dsimp only at this ⊢
    split_ifs at this ⊢ with hc
    · exact absurd rfl this
    · rfl

/-- Data with a column that is not in the model: the term is `+inf` even where the implied moments
equal the sample moments. -/
theorem C64_extra_column_violated :
    ∃ (d : Stats (Fin 1)) (Sall : Matrix (Fin 2) (Fin 2) ℝ) (θ : Mats (Fin 1) (Fin 1)),
      d.S = Sall.submatrix (fun _ => 0) (fun _ => 0) ∧ Sall.PosDef ∧ d.S.PosDef ∧
      θ.Sigma = d.S ∧ θ.mu = d.m ∧ fitTerm d (modelConst Sall) 1 θ = none := by
  have hd : (diagonal ![1, 2] : Matrix (Fin 2) (Fin 2) ℝ).PosDef := by
    rw [Matrix.posDef_diagonal_iff]
    intro i; fin_cases i <;> simp
  have hs : (diagonal ![1, 2] : Matrix (Fin 2) (Fin 2) ℝ).submatrix (fun _ : Fin 1 => 0)
      (fun _ : Fin 1 => 0) = 1 := by
    ext i j
    fin_cases i; fin_cases j; simp
  have hSig : (Mats.mk (p := Fin 1) (q := Fin 1) 0 0 1 1 0 0).Sigma = 1 := by simp [Mats.Sigma]
  have hmu : (Mats.mk (p := Fin 1) (q := Fin 1) 0 0 1 1 0 0).mu = 0 := by simp [Mats.mu]
  refine ⟨Stats.mk 1 0, diagonal ![1, 2], Mats.mk 0 0 1 1 0 0, hs.symm, hd, PosDef.one, hSig, hmu,
    ?_⟩
  unfold fitTerm
  rw [if_pos]
  right
  rw [fitGroup_split, hSig, hmu]
  have : Real.log (abs (diagonal ![(1 : ℝ), 2]).det) = Real.log 2 := by
    rw [det_diagonal]; simp
  unfold modelConst
  rw [this]
  have h2 := Real.log_pos (show (1 : ℝ) < 2 by norm_num)
  simp
  linarith

/-- Satisfiability of the hypotheses of `C64_nonneg_partial`. -/
example : ∃ (d : Stats (Fin 1)) (Sall : Matrix (Fin 1) (Fin 1) ℝ) (e : Fin 1 ≃ Fin 1)
    (θ : Mats (Fin 1) (Fin 1)), d.S = Sall.submatrix e e ∧ d.S.PosDef ∧ θ.Sigma.PosDef :=
  ⟨Stats.mk 1 0, 1, Equiv.refl _, Mats.mk 0 0 1 1 0 0, rfl, PosDef.one, by
    simpa [Mats.Sigma] using PosDef.one⟩

end Verif.Sem
