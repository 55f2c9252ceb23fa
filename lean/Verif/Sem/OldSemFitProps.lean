import Verif.Sem.OldSemFit
import Verif.Fa.FitMeasuresProps
/-!
# C207: fit measures of the older structural equation model
-/
namespace Verif.Sem.Old
open Matrix Verif.Fa Verif.Fa.Old
open scoped MatrixOrder

variable {p : ℕ} {pinv : Mat p p → Mat p p} {sf ppf : ℝ → ℝ → ℝ} {n : ℝ} {S : Mat p p} {m : MDict p}

theorem one_dec : (1.0 : ℝ) = 1 := by norm_num
theorem two_dec : (2.0 : ℝ) = 2 := by norm_num

/-! ### Likelihood -/

/-- Covariance with divisor `n`. -/
noncomputable def covOf {N : ℕ} (X : Fin N → Fin p → ℝ) (mu : Fin p → ℝ) : Mat p p :=
  (1 / (N : ℝ)) • ∑ i, vecMulVec (X i - mu) (X i - mu)

/-- Log density of the normal distribution. -/
noncomputable def logN (mu : Fin p → ℝ) (Sigma : Mat p p) (x : Fin p → ℝ) : ℝ :=
  -(p * Real.log (2 * Real.pi) + Real.log Sigma.det + (x - mu) ⬝ᵥ Sigma⁻¹ *ᵥ (x - mu)) / 2

/-- C207: with the covariance of the data around a mean, the reported log likelihood is that of the normal distribution
with that mean. -/
theorem C207_loglik (hp : PinvOk pinv) {N : ℕ} (hN : 0 < N) (X : Fin N → Fin p → ℝ) (mu : Fin p → ℝ) (hg : m.Sigma.PosDef) :
    (gof pinv sf ppf N (covOf X mu) m).loglik = ∑ i, logN mu m.Sigma (X i) := by
  have hu : IsUnit m.Sigma.det := isUnit_iff_ne_zero.2 hg.det_pos.ne'
  have hn : (N : ℝ) ≠ 0 := by exact_mod_cast hN.ne'
  have e : (m.Sigma⁻¹ * covOf X mu).trace = (∑ i, (X i - mu) ⬝ᵥ m.Sigma⁻¹ *ᵥ (X i - mu)) / N := by
    rw [covOf, Matrix.mul_smul, trace_smul, Matrix.mul_sum, trace_sum, smul_eq_mul, one_div, inv_mul_eq_div]
    congr 1
    refine Finset.sum_congr rfl fun i _ => ?_
    rw [mul_vecMulVec, trace_vecMulVec, dotProduct_comm]
  simp only [gof, logN, hp _ hu, e, one_dec, two_dec, abs_of_pos hg.det_pos]
  rw [← Finset.sum_div, Finset.sum_neg_distrib, Finset.sum_add_distrib, Finset.sum_const, Finset.card_univ, Fintype.card_fin, nsmul_eq_mul]
  field_simp
  ring

/-- C207: the information criteria are those of the reported log likelihood and the number of free parameters. -/
theorem C207_criteria : (gof pinv sf ppf n S m).aic = 2 * m.t - 2 * (gof pinv sf ppf n S m).loglik ∧
    (gof pinv sf ppf n S m).bic = m.t * Real.log n - 2 * (gof pinv sf ppf n S m).loglik := by
  simp only [gof, two_dec]
  constructor <;> ring

/-! ### Test statistic -/

/-- C207: the statistic is `n - 1` times a discrepancy that is zero only for `Sigma = S`. -/
theorem C207_chi2 (hp : PinvOk pinv) (hS : S.PosDef) (hg : m.Sigma.PosDef) (hn : 1 < n) :
    0 ≤ (gof pinv sf ppf n S m).chi2 ∧ ((gof pinv sf ppf n S m).chi2 = 0 ↔ m.Sigma = S) ∧
      n * (gof pinv sf ppf n S m).chi2 = (n - 1) * (2 * (gof pinv sf ppf n S ⟨S, 0, 0⟩).loglik - 2 * (gof pinv sf ppf n S m).loglik) := by
  have hu : IsUnit m.Sigma.det := isUnit_iff_ne_zero.2 hg.det_pos.ne'
  have hu' : IsUnit S.det := isUnit_iff_ne_zero.2 hS.det_pos.ne'
  obtain ⟨f, hf, h0, hz⟩ := C190_discrepancy hS hg
  rw [fullLoglike, inv?_unit hu, Option.map_some, Option.some.injEq, one_dec, one_mul] at hf
  have hn1 : 0 < n - 1 := by linarith
  simp only [gof, hp _ hu, hp _ hu', hf, two_dec, nonsing_inv_mul _ hu', trace_one, Fintype.card_fin]
  refine ⟨mul_nonneg hn1.le h0, ?_, ?_⟩
  · rw [mul_eq_zero, or_iff_right hn1.ne', hz]
  · rw [← hf]; ring

/-- C207: the p-value of the statistic is the upper tail at the number of free parameters; it is the right one when
that number is the number of degrees of freedom. -/
theorem C207_pvalue_partial (h : (m.t : ℤ) = m.df) : (gof pinv sf ppf n S m).pval = sf m.df (gof pinv sf ppf n S m).chi2 := by
  simp only [gof]; rw [← h]; norm_cast

/-- C207 fails: with more free parameters than degrees of freedom, both even, the p-value is too large. -/
theorem C207_pvalue_violated (hsf : ∀ (k : ℕ) (x : ℝ), sf (2 * k) x = sfEven k x) {k l : ℕ} (hk : m.df = 2 * k) (hl : m.t = 2 * l) (hkl : k < l)
    (hc : 0 < (gof pinv sf ppf n S m).chi2) : sf m.df (gof pinv sf ppf n S m).chi2 < (gof pinv sf ppf n S m).pval := by
  have e : (gof pinv sf ppf n S m).pval = sf m.t (gof pinv sf ppf n S m).chi2 := rfl
  rw [e, hk, hl]
  push_cast
  rw [hsf, hsf]
  exact sfEven_lt hkl hc

/-- Four variables and one factor: eight parameters, two degrees of freedom. -/
example (Sigma : Mat 4 4) : (fullDict Sigma 8).df = 2 * (1 : ℕ) ∧ (fullDict Sigma 8).t = 2 * 4 := by
  constructor <;> rfl

/-! ### Critical sample sizes -/

/-- C207: the two critical sample sizes carry each other's names: at `cn05` the statistic is the quantile of the test at
one per cent and at `cn01` that of the test at five per cent. -/
theorem C207_critical_n_violated (hp : PinvOk pinv) (hS : S.PosDef) (hg : m.Sigma.PosDef) (hne : m.Sigma ≠ S) :
    ∃ f a b, 0 < f ∧ (∀ N, (gof pinv sf ppf N S m).chi2 = (N - 1) * f) ∧ (gof pinv sf ppf n S m).cn01 = some a ∧
      (gof pinv sf ppf n S m).cn05 = some b ∧ (gof pinv sf ppf a S m).chi2 = ppf m.df 0.95 ∧ (gof pinv sf ppf b S m).chi2 = ppf m.df 0.99 := by
  have hu : IsUnit m.Sigma.det := isUnit_iff_ne_zero.2 hg.det_pos.ne'
  obtain ⟨f, hf, h0, hz⟩ := C190_discrepancy hS hg
  rw [fullLoglike, inv?_unit hu, Option.map_some, Option.some.injEq, one_dec, one_mul] at hf
  have hf0 : f ≠ 0 := fun h => hne (hz.1 h)
  refine ⟨f, ppf m.df 0.95 / f + 1, ppf m.df 0.99 / f + 1, lt_of_le_of_ne h0 hf0.symm, fun N => ?_, ?_, ?_, ?_, ?_⟩
  · simp only [gof, hp _ hu, hf]
  · simp only [gof, hp _ hu, hf, qdiv_some hf0, Option.map_some, one_dec]
  · simp only [gof, hp _ hu, hf, qdiv_some hf0, Option.map_some, one_dec]
  · simp only [gof, hp _ hu, hf]; field_simp; try ring
  · simp only [gof, hp _ hu, hf]; field_simp; try ring

/-! ### Absolute indices -/

theorem two_dfCov (p : ℕ) : ((dfCov p : ℕ) : ℝ) = p * (p + 1) / 2 := by
  have := tri1 p
  have h : (2 * (dfCov p : ℕ) : ℝ) = p * (p + 1) := by exact_mod_cast this
  linarith

/-- C207: GFI is at most one, with equality only for `Sigma = S`; AGFI is adjusted by the degrees of freedom and is
not given for a model without any. -/
theorem C207_gfi (hpv : PinvOk pinv) (hp : 0 < p) (hS : S.PosDef) (hg : m.Sigma.PosDef) :
    ∃ y, (gof pinv sf ppf n S m).gfi = some y ∧ y ≤ 1 ∧ (y = 1 ↔ m.Sigma = S) ∧
      (m.df = 0 → (gof pinv sf ppf n S m).agfi = none) ∧
      (0 < m.df → m.df ≤ dfCov p → ∃ z, (gof pinv sf ppf n S m).agfi = some z ∧ z = 1 - dfCov p / m.df * (1 - y) ∧ z ≤ y ∧ (z = 1 ↔ m.Sigma = S)) := by
  obtain ⟨y, hy, h1, h2, -⟩ := C190_gfi hpv hp hS hg
  refine ⟨y, hy, h1, h2, fun h => by simp [gof, h], fun h h' => ⟨1 - dfCov p / m.df * (1 - y), ?_, rfl, ?_, ?_⟩⟩
  · simp only [gof, hy, h.ne', ne_eq, not_false_eq_true, decide_true, if_true, Option.map_some, one_dec]
  · have hd : (0 : ℝ) < m.df := by exact_mod_cast h
    have hk : (1 : ℝ) ≤ dfCov p / m.df := by rw [one_le_div hd]; exact_mod_cast h'
    nlinarith
  · have hd : (0 : ℝ) < m.df := by exact_mod_cast h
    have hk : (1 : ℝ) ≤ dfCov p / m.df := by rw [one_le_div hd]; exact_mod_cast h'
    rw [sub_eq_self, mul_eq_zero, or_iff_right (by linarith), sub_eq_zero, eq_comm, h2]

/-- C207: RMSEA is the usual index. -/
theorem C207_rmsea (hd : 0 < m.df) (hn : 1 < n) :
    (gof pinv sf ppf n S m).rmsea = some (rmseaSpec (gof pinv sf ppf n S m).chi2 m.df n) := by
  have hd' : (0 : ℝ) < m.df := by exact_mod_cast hd
  have := C190_rmsea_factor_analysis (c := (gof pinv sf ppf n S m).chi2) hd' hn
  rw [← this]
  simp only [gof, hd.ne', ne_eq, not_false_eq_true, decide_true, if_true, rmseaF]

/-! ### Residuals -/

theorem sum_tri (f : Fin p → Fin p → ℝ) : ∑ k : Tri p, f k.1.2 k.1.1 = ∑ i, ∑ j, if j ≤ i then f i j else 0 := by
  rw [Finset.sum_comm, ← Fintype.sum_prod_type' (f := fun j i => if j ≤ i then f i j else 0), ← Finset.sum_filter,
    Finset.sum_subtype _ (p := fun x : Fin p × Fin p => x.1 ≤ x.2) (by simp)]

/-- C207: RMR is the root mean square of the residuals of all variances and covariances. -/
theorem C207_rmr : (gof pinv sf ppf n S m).rmr =
    Real.sqrt ((∑ i, ∑ j, if j ≤ i then (m.Sigma i j - S i j) ^ 2 else 0) / (p * (p + 1) / 2)) := by
  simp only [gof, meanVech, two_dfCov]
  rw [← sum_tri]; rfl

theorem srmr_val (hS : ∀ i, 0 < S i i) : (gof pinv sf ppf n S m).srmr =
    Real.sqrt ((∑ i, ∑ j, if j ≤ i then (m.Sigma i j - S i j) ^ 2 / (Real.sqrt (S i i) * Real.sqrt (S j j)) else 0) / (p * (p + 1) / 2)) := by
  simp only [gof, meanVech, two_dfCov]
  rw [← sum_tri]
  congr 2
  refine Finset.sum_congr rfl fun k _ => ?_
  simp only [vech, mul_diagonal, diagonal_mul, of_apply, Matrix.sub_apply, one_dec, Real.sqrt_div zero_le_one, Real.sqrt_one]
  have h1 := (Real.sqrt_pos.2 (hS k.1.1)).ne'
  have h2 := (Real.sqrt_pos.2 (hS k.1.2)).ne'
  field_simp

/-- C207: SRMR is the usual index for a correlation matrix. -/
theorem C207_srmr_partial (hS : ∀ i, S i i = 1) : (gof pinv sf ppf n S m).srmr = srmrSpec m.Sigma S := by
  rw [srmr_val (fun i => by rw [hS]; exact one_pos), srmrSpec]
  simp only [hS, Real.sqrt_one, mul_one, div_one]
  congr 4; funext i
  refine Finset.sum_congr rfl fun j _ => ?_
  split_ifs
  · ring
  · rfl

/-- C207 fails: SRMR depends on the scale of the variables. Multiplying them by `c` multiplies it by `c`; the
usual index stays the same. -/
theorem C207_srmr_violated (hS : ∀ i, 0 < S i i) {c : ℝ} (hc : 0 < c) (df : ℤ) (t : ℕ) (Sigma : Mat p p) :
    (gof pinv sf ppf n (c ^ 2 • S) ⟨c ^ 2 • Sigma, df, t⟩).srmr = c * (gof pinv sf ppf n S ⟨Sigma, df, t⟩).srmr ∧
      srmrSpec (c ^ 2 • Sigma) (c ^ 2 • S) = srmrSpec Sigma S := by
  have hs : ∀ i, Real.sqrt (c ^ 2 * S i i) = c * Real.sqrt (S i i) := fun i => by rw [Real.sqrt_mul (by positivity), Real.sqrt_sq hc.le]
  constructor
  · rw [srmr_val (fun i => by simp only [Matrix.smul_apply, smul_eq_mul]; exact mul_pos (by positivity) (hS i)), srmr_val hS]
    conv_rhs => rw [← Real.sqrt_sq hc.le, ← Real.sqrt_mul (by positivity)]
    congr 1
    rw [← mul_div_assoc, Finset.mul_sum]
    congr 1
    refine Finset.sum_congr rfl fun i _ => ?_
    rw [Finset.mul_sum]
    refine Finset.sum_congr rfl fun j _ => ?_
    split_ifs
    · simp only [Matrix.smul_apply, smul_eq_mul, hs]
      have h1 := (Real.sqrt_pos.2 (hS i)).ne'
      have h2 := (Real.sqrt_pos.2 (hS j)).ne'
      field_simp
    · simp
  · simp only [srmrSpec, Matrix.smul_apply, smul_eq_mul, hs]
    congr 4; funext i
    refine Finset.sum_congr rfl fun j _ => ?_
    split_ifs
    · have h1 := (Real.sqrt_pos.2 (hS i)).ne'
      have h2 := (Real.sqrt_pos.2 (hS j)).ne'
      congr 1
      field_simp
    · rfl

/-! ### Relative indices -/

/-- C207: CFI lies between zero and one whenever it is defined, and is one exactly when the statistic does not exceed
its degrees of freedom. -/
theorem C207_cfi {cn cf : ℝ} {dfn dff : ℤ} {y : ℝ} (h : cfiS cn cf dfn dff = some y) :
    0 ≤ y ∧ y ≤ 1 ∧ (y = 1 ↔ cf ≤ dff) := by
  simp only [cfiS, qdiv] at h
  split_ifs at h with h0
  · simp at h
  simp only [Option.map_some, Option.some.injEq, one_dec] at h
  rw [← h]
  set a := cf - (dff : ℝ) with ha
  set b := cn - (dfn : ℝ)
  by_cases h1 : 0 < a
  · have hM : 0 < max a b := lt_of_lt_of_le h1 (le_max_left _ _)
    rw [max_eq_left h1.le]
    have h2 : a / max a b ≤ 1 := by rw [div_le_one hM]; exact le_max_left _ _
    have h3 : 0 < a / max a b := div_pos h1 hM
    exact ⟨by linarith, by linarith, by constructor <;> intro h4 <;> linarith⟩
  · rw [max_eq_right (not_lt.1 h1), zero_div]
    exact ⟨by norm_num, by norm_num, by constructor <;> intro h4 <;> linarith [not_lt.1 h1]⟩

/-- C207: NFI1, NFI2 and Rho2 are the normed, incremental and Tucker-Lewis indices; Rho1 is the relative one. -/
theorem C207_relative {cn cf : ℝ} {dfn dff : ℤ} (hd : 0 < dff) (hn : 0 < dfn) (h : 0 < cn) :
    nfi1 cn cf = nfi cn cf ∧ nfi2 cn cf dff = ifi cn cf dff ∧ rho2 cn cf dfn dff = tli cn dfn cf dff ∧
      rho1 cn cf dfn dff = some (1 - (cf / dff) / (cn / dfn)) := by
  have hd' : (dff : ℝ) ≠ 0 := by exact_mod_cast hd.ne'
  have hn' : (dfn : ℝ) ≠ 0 := by exact_mod_cast hn.ne'
  refine ⟨rfl, rfl, ?_, ?_⟩
  · rw [rho2, if_pos hd.ne', tli, qdiv_some hn', Option.bind_some, Option.bind_some, qdiv_some hd', Option.bind_some, one_dec]
  · rw [rho1, if_pos hd.ne', qdiv_some hn', Option.bind_some, qdiv_some (div_ne_zero h.ne' hn')]
    congr 1
    field_simp

/-- C207: the null model has uncorrelated variables; its statistic is `n - 1` times minus the log determinant of
the correlations. -/
theorem C207_null (hp : PinvOk pinv) (hS : S.PosDef) :
    (gof pinv sf ppf n S (nullDict S)).chi2 = (n - 1) * (∑ i, Real.log (S i i) - Real.log S.det) := by
  have h := C190_null hS
  have hu : IsUnit (sigmaNull S).det := isUnit_iff_ne_zero.2 (null_posDef hS).det_pos.ne'
  rw [fullLoglike, inv?_unit hu, Option.map_some, Option.some.injEq, one_dec, one_mul] at h
  rw [← h]
  have e : (nullDict S).Sigma = sigmaNull S := rfl
  simp only [gof, e, hp _ hu]

end Verif.Sem.Old
