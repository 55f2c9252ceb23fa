import Verif.Lmm.Infer
import Verif.Lmm.EffProps
import Mathlib.Analysis.SpecialFunctions.Trigonometric.Arctan
/-!
# C113: inference in the mixed model
-/
namespace Verif.Lmm
open Matrix Kronecker Verif.Fa Verif.Like Verif.Calc

/-! ## the F test and its degrees of freedom -/

section df
variable {r p : ℕ} {ι : Type} [Fintype ι]

/-- The statistic is the Wald statistic of the hypothesis over the number of rows. -/
theorem C113_wald (tiny : ℝ) (L : Mat r p) (beta : Fin p → ℝ) (C : Mat p p) (J : ι → Mat p p) (V : Matrix ι ι ℝ) (u : Fin r → ℝ)
    (Q : Mat r r) (hQ : Qᵀ * Q = 1) (he : L * C * Lᵀ = Q * diagonal u * Qᵀ) (ht : 0 < tiny) (hu : ∀ i, tiny ≤ u i) (hr : L.rank = r) :
    (degfree tiny L beta J V u Q).F = ((L *ᵥ beta) ⬝ᵥ ((L * C * Lᵀ)⁻¹ *ᵥ (L *ᵥ beta))) / r ∧
      (degfree tiny L beta J V u Q).df1 = r := by
  refine ⟨?_, hr⟩
  have hQ' : Q * Qᵀ = 1 := mul_eq_one_comm.1 hQ
  have hinv : (L * C * Lᵀ)⁻¹ = Q * diagonal (fun i => (u i)⁻¹) * Qᵀ := by
    rw [he]
    refine inv_eq_right_inv ?_
    calc Q * diagonal u * Qᵀ * (Q * diagonal (fun i => (u i)⁻¹) * Qᵀ)
        = Q * diagonal u * (Qᵀ * Q) * diagonal (fun i => (u i)⁻¹) * Qᵀ := by simp only [Matrix.mul_assoc]
      _ = 1 := by
        rw [hQ, Matrix.mul_one, Matrix.mul_assoc Q, diagonal_mul_diagonal]
        have : (fun i => u i * (u i)⁻¹) = fun _ => (1 : ℝ) := funext fun i => mul_inv_cancel₀ (by have := hu i; linarith)
        rw [this, diagonal_one, Matrix.mul_one, hQ']
  unfold degfree
  simp only
  rw [hr, hinv]
  congr 1
  have h1 : (Q * diagonal (fun i => (u i)⁻¹) * Qᵀ) *ᵥ (L *ᵥ beta) =
      Q *ᵥ (diagonal (fun i => (u i)⁻¹) *ᵥ ((Qᵀ * L) *ᵥ beta)) := by
    simp only [mulVec_mulVec, Matrix.mul_assoc]
  rw [h1, dotProduct_mulVec, ← mulVec_transpose, mulVec_mulVec]
  unfold dotProduct
  refine Finset.sum_congr rfl fun i _ => ?_
  rw [mulVec_diagonal, max_eq_left (hu i)]
  change ((Qᵀ * L) *ᵥ beta) i ^ 2 / u i = ((Qᵀ * L) *ᵥ beta) i * ((u i)⁻¹ * ((Qᵀ * L) *ᵥ beta) i)
  rw [sq, div_eq_mul_inv]; ring

/-- The reported degrees of freedom are those of the F distribution whose mean, times the number of rows, is the sum of the means
of the squared t variables of the rows. -/
theorem C113_df_mean (tiny : ℝ) (L : Mat r p) (beta : Fin p → ℝ) (J : ι → Mat p p) (V : Matrix ι ι ℝ) (u : Fin r → ℝ) (Q : Mat r r)
    {nu : ℝ} (hr : 0 < L.rank) (h : (degfree tiny L beta J V u Q).df2 = some nu) :
    2 < nu ∧ L.rank * (nu / (nu - 2)) =
      ∑ i : Fin r, if i.1 < L.rank ∧ numDf tiny (Qᵀ * L) J V u i > 2 then
        numDf tiny (Qᵀ * L) J V u i / (numDf tiny (Qᵀ * L) J V u i - 2) else 0 := by
  unfold degfree at h
  simp only at h
  change _ ∧ _ = sumE L.rank (numDf tiny (Qᵀ * L) J V u)
  generalize sumE L.rank (numDf tiny (Qᵀ * L) J V u) = E at h ⊢
  have hq : (0 : ℝ) < L.rank := by exact_mod_cast hr
  by_cases hE : E > (L.rank : ℝ)
  · rw [if_pos hE] at h
    have h := Option.some.inj h
    have hd : 0 < E - L.rank := by linarith
    have h2 : nu - 2 = 2 * L.rank / (E - L.rank) := by
      rw [← h]; field_simp; ring
    refine ⟨?_, ?_⟩
    · have : 0 < nu - 2 := by rw [h2]; positivity
      linarith
    · rw [h2, ← h]
      field_simp
  · rw [if_neg hE] at h
    cases h

/-- Satterthwaite's degrees of freedom: twice the squared estimate over its variance, so that the estimate has the mean and the
variance of a scaled chi squared variable (whose variance is twice the squared mean over the degrees of freedom). -/
noncomputable def satt (est var : ℝ) : ℝ := 2 * est ^ 2 / var

/-- For one contrast `l` the variance estimate is `lᵀ C l` and its variance by the delta method is the form in the gradient;
the reported degrees of freedom are half those of Satterthwaite. -/
theorem C113_satterthwaite_half_violated (tiny : ℝ) (L : Mat 1 p) (beta : Fin p → ℝ) (C : Mat p p) (J : ι → Mat p p)
    (V : Matrix ι ι ℝ) (Q : Mat 1 1) (hQ : Q 0 0 ^ 2 = 1) (hL : L.rank = 1) (var : ℝ)
    (hv : var = (fun j => (J j *ᵥ L 0) ⬝ᵥ L 0) ⬝ᵥ (V *ᵥ fun j => (J j *ᵥ L 0) ⬝ᵥ L 0)) (ht : tiny ≤ var)
    (h4 : 4 < satt ((L * C * Lᵀ) 0 0) var) :
    (degfree tiny L beta J V (fun _ => (L * C * Lᵀ) 0 0) Q).df2 = some (satt ((L * C * Lᵀ) 0 0) var / 2) := by
  have hP : (Qᵀ * L) 0 = Q 0 0 • L 0 := by
    funext j
    simp [Matrix.mul_apply]
  have hn : numDf tiny (Qᵀ * L) J V (fun _ => (L * C * Lᵀ) 0 0) 0 = satt ((L * C * Lᵀ) 0 0) var / 2 := by
    unfold numDf satt
    simp only [hP, mulVec_smul, smul_dotProduct, dotProduct_smul, smul_eq_mul, ← mul_assoc, ← sq, hQ, one_mul]
    rw [← hv, max_eq_left ht]
    ring
  have h2 : 2 < satt ((L * C * Lᵀ) 0 0) var / 2 := by linarith
  unfold degfree
  simp only
  rw [hL]
  have hE : sumE 1 (numDf tiny (Qᵀ * L) J V fun _ => (L * C * Lᵀ) 0 0) =
      satt ((L * C * Lᵀ) 0 0) var / 2 / (satt ((L * C * Lᵀ) 0 0) var / 2 - 2) := by
    unfold sumE
    rw [Fin.sum_univ_one, hn, if_pos ⟨by simp, h2⟩]
  rw [hE]
  generalize satt ((L * C * Lᵀ) 0 0) var / 2 = s at h2 ⊢
  have hd : 0 < s - 2 := by linarith
  have hs1 : s / (s - 2) - 1 = 2 / (s - 2) := by field_simp; ring
  rw [if_pos, Nat.cast_one, hs1]
  · congr 1
    field_simp
  · rw [Nat.cast_one, gt_iff_lt, lt_div_iff₀ hd]
    linarith

/-- The mean of `n` observations: the restricted deviance in the residual variance has its minimum at the sample variance, the
variance of that estimate is the inverse of half the second derivative, and the reported degrees of freedom are `(n-1)/2`
instead of the `n-1` of the t test. -/
theorem C113_one_sample_violated (n : ℕ) (hn : 6 ≤ n) {ss s2 : ℝ} (hss : 0 < ss) (hs2 : s2 = ss / (n - 1)) (beta : Fin 1 → ℝ) {tiny : ℝ}
    (ht : tiny ≤ 2 * s2 ^ 2 / (n ^ 2 * (n - 1))) :
    let dev := fun t : ℝ => (n - 1) * Real.log t + ss / t
    ∃ dev' : ℝ → ℝ, ∃ H : ℝ, (∀ t, 0 < t → HasDerivAt dev (dev' t) t) ∧ dev' s2 = 0 ∧ HasDerivAt dev' H s2 ∧
      (degfree tiny (1 : Mat 1 1) beta (fun _ : Unit => of fun _ _ => (1 / n : ℝ)) (of fun _ _ => (H / 2)⁻¹)
        (fun _ => s2 / n) (1 : Mat 1 1)).df2 = some (((n : ℝ) - 1) / 2) := by
  intro dev
  have hn' : (6 : ℝ) ≤ n := by exact_mod_cast hn
  have hn1 : (0 : ℝ) < n - 1 := by linarith
  have hp : 0 < s2 := by rw [hs2]; positivity
  refine ⟨fun t => (n - 1) / t - ss / t ^ 2, (n - 1) / s2 ^ 2, ?_, ?_, ?_, ?_⟩
  · intro t h
    refine (((Real.hasDerivAt_log h.ne').const_mul ((n : ℝ) - 1)).add ((hasDerivAt_const t ss).div (hasDerivAt_id t) h.ne')).congr_deriv ?_
    simp only [id, zero_mul, mul_one, zero_sub]
    ring
  · rw [hs2]; field_simp; ring
  · have h1 := ((hasDerivAt_const s2 ((n : ℝ) - 1)).fun_div (hasDerivAt_id s2) hp.ne')
    have h2 := ((hasDerivAt_const s2 ss).fun_div ((hasDerivAt_id s2).fun_pow 2) (pow_ne_zero 2 hp.ne'))
    refine (h1.fun_sub h2).congr_deriv ?_
    simp only [id]
    have hss' : ss = s2 * (n - 1) := by rw [hs2]; field_simp
    rw [hss']
    field_simp
    norm_num
    ring
  · have hvar : (2 * s2 ^ 2 / (n ^ 2 * (n - 1)) : ℝ) =
        (fun _ : Unit => ((of fun _ _ => (1 / n : ℝ) : Mat 1 1) *ᵥ (1 : Mat 1 1) 0) ⬝ᵥ (1 : Mat 1 1) 0) ⬝ᵥ
        ((of fun _ _ => ((n - 1) / s2 ^ 2 / 2 : ℝ)⁻¹ : Matrix Unit Unit ℝ) *ᵥ
          fun _ : Unit => ((of fun _ _ => (1 / n : ℝ) : Mat 1 1) *ᵥ (1 : Mat 1 1) 0) ⬝ᵥ (1 : Mat 1 1) 0) := by
      simp [dotProduct, mulVec]
      field_simp
    have hs : satt (((1 : Mat 1 1) * (of fun _ _ => s2 / n : Mat 1 1) * (1 : Mat 1 1)ᵀ) 0 0) (2 * s2 ^ 2 / (n ^ 2 * (n - 1))) = n - 1 := by
      unfold satt
      rw [transpose_one, Matrix.mul_one, Matrix.one_mul, of_apply]
      field_simp
    have h := C113_satterthwaite_half_violated tiny (1 : Mat 1 1) beta (of fun _ _ => s2 / n : Mat 1 1)
      (fun _ : Unit => of fun _ _ => (1 / n : ℝ)) (of fun _ _ => ((n - 1) / s2 ^ 2 / 2 : ℝ)⁻¹) 1 (by simp) (by simp) _ hvar ht
      (by rw [hs]; linarith)
    rw [hs, transpose_one, Matrix.mul_one, Matrix.one_mul] at h
    exact h

end df

/-- The derivatives handed to `approx_degfree` are those of the variance of a contrast. -/
theorem C113_contrast_gradient {T : Terms} {n p : ℕ} (hT : T.Pd) {m : Mme T n p} {th : ℝ → T.Par → ℝ} {th' : T.Par → ℝ} {s2 : ℝ → ℝ}
    {s2' : ℝ} (h : ∀ j, HasDerivAt (fun t => th t j) (th' j) 0) (hs : HasDerivAt s2 s2' 0) (h0 : s2 0 ≠ 0)
    (hG : IsUnit (T.gcov (th 0)).det) (hC : IsUnit (cmat m (th 0) (s2 0)).det)
    (hx : IsUnit (xvx m.X (vcov m (th 0) (s2 0))).det) (l : Fin p → ℝ) :
    let C := fun t => (xvx m.X (vcov m (th t) (s2 t)))⁻¹
    let J : T.Par ⊕ Unit → Mat p p := Sum.elim (dCG m (cmat m (th 0) (s2 0)) (C 0) (s2 0)) fun _ => dCR m (cmat m (th 0) (s2 0)) (C 0) (s2 0)
    HasDerivAt (fun t => (C t *ᵥ l) ⬝ᵥ l) (∑ j, Sum.elim th' (fun _ => s2') j * ((J j *ᵥ l) ⬝ᵥ l)) 0 := by
  intro C J
  have hd := C111_dC_dtheta hT h hs h0 hG hC hx
  change MD C _ at hd
  have hq : HasDerivAt (fun t => ∑ i, (∑ j, C t i j * l j) * l i) (∑ i, (∑ j, (∑ j, th' j • dCG m (cmat m (th 0) (s2 0)) (C 0) (s2 0) j +
      s2' • dCR m (cmat m (th 0) (s2 0)) (C 0) (s2 0)) i j * l j) * l i) 0 :=
    HasDerivAt.fun_sum fun i _ => (HasDerivAt.fun_sum fun j _ => (hd i j).mul_const (l j)).mul_const (l i)
  refine hq.congr_deriv ?_
  change (((∑ j, th' j • dCG m (cmat m (th 0) (s2 0)) (C 0) (s2 0) j + s2' • dCR m (cmat m (th 0) (s2 0)) (C 0) (s2 0)) *ᵥ l) ⬝ᵥ l) = _
  rw [add_mulVec, add_dotProduct, sum_mulVec, sum_dotProduct, Fintype.sum_sum_type]
  simp only [smul_mulVec, smul_dotProduct, smul_eq_mul, Sum.elim_inl, Sum.elim_inr, Finset.univ_unique, Finset.sum_singleton, J]

/-! ## the table of results -/

/-- The reported value is half the two-sided p-value `P(|T| > |t|)`. -/
theorem C113_p_value_violated {sf : ℝ → ℝ} (hsym : ∀ x, sf (-x) = 1 - sf x) (est se : ℝ) :
    let t := est / se
    sf |t| + (1 - sf (-|t|)) = 2 * postP sf est se := by
  intro t
  rw [hsym]
  unfold postP
  ring

/-- The survival function of the t distribution with one degree of freedom. -/
noncomputable def cauchySf (x : ℝ) : ℝ := 1 / 2 - Real.arctan x / Real.pi

/-- The p-value contradicts the confidence interval: it is below `1/2` although zero lies inside the interval at level `1/2`. -/
theorem C113_duality_violated {ppf : ℝ → ℝ} (hp : ∀ a, 0 < a → a < 1 → cauchySf (ppf a) = 1 - a) :
    (∀ x, cauchySf (-x) = 1 - cauchySf x) ∧ StrictAnti cauchySf ∧
    postP cauchySf (1 / 2) 1 < 1 / 2 ∧ (confint ppf (1 / 2) (1 / 2) 1).1 < 0 ∧ 0 < (confint ppf (1 / 2) (1 / 2) 1).2 := by
  have hpi := Real.pi_pos
  have hanti : StrictAnti cauchySf := by
    intro x y h
    unfold cauchySf
    have := Real.arctan_strictMono h
    have := (div_lt_div_iff_of_pos_right hpi).2 this
    linarith
  have hq : ppf (1 - 1 / 2 / 2) = 1 := by
    apply hanti.injective
    rw [hp _ (by norm_num) (by norm_num)]
    unfold cauchySf
    rw [Real.arctan_one]
    field_simp
    norm_num
  refine ⟨fun x => ?_, hanti, ?_, ?_, ?_⟩
  · unfold cauchySf
    rw [Real.arctan_neg]; ring
  · unfold postP cauchySf
    have h : 0 < Real.arctan |(1 / 2 / 1 : ℝ)| := Real.arctan_pos.2 (by norm_num)
    have := div_pos h hpi
    linarith
  · unfold confint; simp only; rw [hq]; norm_num
  · unfold confint; simp only; rw [hq]; norm_num

/-- The quantile function exists. -/
example : ∃ ppf : ℝ → ℝ, ∀ a, 0 < a → a < 1 → cauchySf (ppf a) = 1 - a := by
  have hpi := Real.pi_pos
  refine ⟨fun a => Real.tan (Real.pi * (a - 1 / 2)), fun a h0 h1 => ?_⟩
  unfold cauchySf
  rw [Real.arctan_tan (by nlinarith) (by nlinarith)]
  field_simp
  ring

/-- A two-sided value would agree with the interval. -/
theorem C113_duality_two_sided {sf ppf : ℝ → ℝ} (ha : StrictAnti sf) (hp : ∀ a, 0 < a → a < 1 → sf (ppf a) = 1 - a) {alpha est se : ℝ}
    (hse : 0 < se) (h0 : 0 < alpha) (h1 : alpha < 1) :
    2 * postP sf est se < alpha ↔ ¬ ((confint ppf alpha est se).1 ≤ 0 ∧ 0 ≤ (confint ppf alpha est se).2) := by
  unfold postP confint
  simp only
  have hq := hp (1 - alpha / 2) (by linarith) (by linarith)
  have e : (2 * sf |est / se| < alpha) ↔ ppf (1 - alpha / 2) < |est / se| := by
    rw [← ha.lt_iff_gt (a := |est / se|), hq]
    constructor <;> intro h <;> linarith
  rw [e, abs_div, abs_of_pos hse, lt_div_iff₀ hse, lt_abs]
  constructor
  · rintro (h | h) ⟨h2, h3⟩ <;> linarith
  · intro h
    by_contra hc
    push Not at hc
    exact h ⟨by linarith [hc.1], by linarith [hc.2]⟩

/-! ## summary statistics -/

/-- Maximum likelihood: `llf` is the log density of the fitted normal distribution, at the best fixed effects. -/
theorem C113_llf {T : Terms} {n p : ℕ} {m : Mme T n p} {th : T.Par → ℝ} {s2 : ℝ} {npars : ℕ} (hV : (vcov m th s2).PosDef)
    (hx : IsUnit (xvx m.X (vcov m th s2)).det) (b : Fin p → ℝ) :
    let V := vcov m th s2
    let logdens := fun b : Fin p → ℝ =>
      -(n * Real.log (2 * Real.pi) + Real.log V.det + (m.y - m.X *ᵥ b) ⬝ᵥ (V⁻¹ *ᵥ (m.y - m.X *ᵥ b))) / 2
    let llf := (stats false n p npars (devi false m.X m.y V)).llf
    llf = logdens (gls m.X m.y V) ∧ logdens b ≤ llf := by
  intro V logdens llf
  obtain ⟨h1, h2⟩ := C111_profile (y := m.y) hV hx b
  have e : llf = logdens (gls m.X m.y V) := by
    simp only [llf, logdens, stats, devi, Bool.false_eq_true, if_false, add_zero]
    rw [h1, abs_of_pos hV.det_pos]
    ring
  refine ⟨e, ?_⟩
  rw [e]
  simp only [logdens]
  rw [← h1]
  have := h2
  linarith

/-- The criteria: `AIC`, and the corrected one in its usual form. -/
theorem C113_criteria (reml : Bool) (nobs nfe npars : ℕ) (nll : ℝ) :
    let s := stats reml nobs nfe npars nll
    let d : ℝ := if reml then npars else nfe + npars
    let n : ℝ := if reml then nobs - nfe else nobs
    s.AIC = -2 * s.llf + 2 * d ∧ (n - d - 1 ≠ 0 → s.AICC = s.AIC + 2 * d * (d + 1) / (n - d - 1)) ∧
      s.BIC = -2 * s.llf + d * Real.log n ∧ s.CAIC = s.BIC + d := by
  intro s d n
  refine ⟨?_, fun h => ?_, ?_, ?_⟩
  · simp only [s, stats, d]; ring
  · simp only [s, stats]
    change _ + 2 * d * n / (n - d - 1) = _ + 2 * d + 2 * d * (d + 1) / (n - d - 1)
    field_simp
    ring
  · simp only [s, stats, d, n]; ring
  · simp only [s, stats, d]; ring

/-- The likelihood ratio test counts the covariance parameters only: two models with the same random effects and different
fixed effects get p-value one, whatever the statistic; so do nested models given in the other order. -/
theorem C113_lrt_violated (sf : ℕ → ℝ → ℝ) {nth nth' : ℕ} (h : nth ≤ nth') (ll ll' : ℝ) : lrt sf nth nth' ll ll' = (ll' - ll, 0, 1) := by
  unfold lrt
  simp only
  rw [Nat.sub_eq_zero_of_le h]
  simp

/-- The larger model first, with the same fixed effects: the usual test. -/
theorem C113_lrt_partial (sf : ℕ → ℝ → ℝ) {nth nth' : ℕ} (h : nth' < nth) (ll ll' : ℝ) :
    lrt sf nth nth' ll ll' = (ll' - ll, nth - nth', sf (nth - nth') (ll' - ll)) := by
  unfold lrt
  simp only
  rw [if_pos (by omega), neg_sub]

/-! ## variance decomposition -/

section rsq
variable {T : Terms} {n p : ℕ}

theorem gcov_block (th : T.Par → ℝ) (k : Fin T.K) :
    (T.gcov th).submatrix (fun x => (⟨k, x⟩ : T.RE)) (fun x => (⟨k, x⟩ : T.RE)) = T.A k ⊗ₖ invech (Terms.sl th k) := by
  ext x y
  unfold Terms.gcov
  rw [submatrix_apply, blockDiagonal'_apply_eq]

/-- The parts of the terms and the residual variance add up to the mean of the marginal variances of the observations. -/
theorem C113_total_variance (m : Mme T n p) (th : T.Par → ℝ) (s2 : ℝ) (hn : 0 < n) :
    ∑ k, vre m th k + s2 = (∑ i, vcov m th s2 i i) / n := by
  have hn' : (n : ℝ) ≠ 0 := by exact_mod_cast hn.ne'
  rw [eq_div_iff hn', add_mul, Finset.sum_mul]
  have h1 : ∀ k, vre m th k * n = ∑ i, ∑ x, ∑ y, m.Z i ⟨k, x⟩ * (m.Z i ⟨k, y⟩ * T.gcov th ⟨k, y⟩ ⟨k, x⟩) := by
    intro k
    unfold vre
    simp only
    rw [div_mul_cancel₀ _ hn']
    refine Finset.sum_congr rfl fun i _ => Finset.sum_congr rfl fun x _ => ?_
    rw [Matrix.mul_apply, Finset.mul_sum]
    rfl
  simp only [h1]
  have h2 : ∀ i, vcov m th s2 i i = ∑ k, ∑ x, ∑ y, m.Z i ⟨k, x⟩ * (m.Z i ⟨k, y⟩ * T.gcov th ⟨k, y⟩ ⟨k, x⟩) + s2 := by
    intro i
    unfold vcov
    rw [Matrix.add_apply, Matrix.smul_apply, one_apply_eq, smul_eq_mul, mul_one]
    congr 1
    rw [Matrix.mul_apply, Fintype.sum_sigma]
    refine Finset.sum_congr rfl fun k _ => Finset.sum_congr rfl fun x _ => ?_
    rw [Matrix.mul_apply, Fintype.sum_sigma, transpose_apply, mul_comm, Finset.mul_sum, Finset.sum_eq_single k]
    · rw [Finset.mul_sum]
    · intro k' _ hk
      refine (Finset.mul_sum _ _ _).trans (Finset.sum_eq_zero fun y _ => ?_)
      unfold Terms.gcov
      rw [blockDiagonal'_apply_ne _ _ _ hk, mul_zero, mul_zero]
    · intro h; exact absurd (Finset.mem_univ _) h
  simp only [h2, Finset.sum_add_distrib, Finset.sum_const, Finset.card_univ, Fintype.card_fin, nsmul_eq_mul]
  rw [Finset.sum_comm, mul_comm s2]

theorem vre_nonneg (hT : T.Pd) (m : Mme T n p) {th : T.Par → ℝ} (hth : ∀ k, (invech (Terms.sl th k)).PosDef) (k : Fin T.K) : 0 ≤ vre m th k := by
  unfold vre
  simp only
  refine div_nonneg (Finset.sum_nonneg fun i _ => ?_) n.cast_nonneg
  have hG := (gcov_posDef hT hth).submatrix (e := fun x : Fin (T.nlv k) × Fin (T.nrv k) => (⟨k, x⟩ : T.RE))
    (fun x y h => by simpa using h)
  have h := hG.posSemidef.dotProduct_mulVec_nonneg (fun x => m.Z i ⟨k, x⟩)
  have e : (fun x => m.Z i ⟨k, x⟩) ⬝ᵥ (((T.gcov th).submatrix (fun x => (⟨k, x⟩ : T.RE)) (fun x => (⟨k, x⟩ : T.RE))) *ᵥ fun x => m.Z i ⟨k, x⟩) =
      ∑ j, (m.Z.submatrix id fun x => (⟨k, x⟩ : T.RE)) i j * ((m.Z.submatrix id fun x => (⟨k, x⟩ : T.RE)) *
        (T.gcov th).submatrix (fun x => (⟨k, x⟩ : T.RE)) (fun x => (⟨k, x⟩ : T.RE))) i j := by
    rw [dotProduct_mulVec]
    unfold dotProduct
    exact Finset.sum_congr rfl fun j _ => mul_comm _ _
  rw [← e]
  simpa using h

/-- The coefficients lie between zero and one, the conditional is the marginal plus the parts of the terms. -/
theorem C113_r_squared (hT : T.Pd) (m : Mme T n p) {th : T.Par → ℝ} (hth : ∀ k, (invech (Terms.sl th k)).PosDef) {s2 : ℝ} (hs : 0 < s2)
    (b : Fin p → ℝ) :
    let R := rsq m th s2 b
    0 ≤ R.1 ∧ R.1 ≤ R.2.1 ∧ R.2.1 < 1 ∧ R.2.1 = R.1 + ∑ k, R.2.2 k ∧ ∀ k, 0 ≤ R.2.2 k := by
  intro R
  have h1 : 0 ≤ vfe m b := div_nonneg (Finset.sum_nonneg fun i _ => sq_nonneg _) n.cast_nonneg
  have h2 : 0 ≤ ∑ k, vre m th k := Finset.sum_nonneg fun k _ => vre_nonneg hT m hth k
  have ht : 0 < vfe m b + ∑ k, vre m th k + s2 := by linarith
  simp only [R, rsq]
  refine ⟨div_nonneg h1 ht.le, div_le_div_of_nonneg_right (by linarith) ht.le, ?_, ?_, fun k => div_nonneg (vre_nonneg hT m hth k) ht.le⟩
  · rw [div_lt_one ht]; linarith
  · rw [← Finset.sum_div, add_div]

/-- The variance of the fitted values from their differences: half the mean squared difference of two of them, so that
adding a constant to the linear predictor leaves the coefficients of determination as they are. -/
theorem C113_fixed_spread (m : Mme T n p) (b : Fin p → ℝ) :
    vfe m b = (∑ i, ∑ j, ((m.X *ᵥ b) i - (m.X *ᵥ b) j) ^ 2) / (2 * (n : ℝ) ^ 2) := by
  rcases Nat.eq_zero_or_pos n with h | h
  · subst h; simp [vfe]
  have hn : (n : ℝ) ≠ 0 := by exact_mod_cast h.ne'
  unfold vfe
  generalize m.X *ᵥ b = e
  have h1 : ∑ i, (e i - (∑ i, e i) / n) ^ 2 = (∑ i, e i ^ 2) - (∑ i, e i) ^ 2 / n := by
    simp only [sub_sq, Finset.sum_add_distrib, Finset.sum_sub_distrib, Finset.sum_const, Finset.card_univ, Fintype.card_fin,
      nsmul_eq_mul, ← Finset.sum_mul, ← Finset.mul_sum]
    field_simp
    ring
  have h2 : ∑ i, ∑ j, (e i - e j) ^ 2 = 2 * (n * ∑ i, e i ^ 2) - 2 * (∑ i, e i) ^ 2 := by
    simp only [sub_sq, Finset.sum_add_distrib, Finset.sum_sub_distrib, Finset.sum_const, Finset.card_univ, Fintype.card_fin,
      nsmul_eq_mul, ← Finset.sum_mul, ← Finset.mul_sum]
    ring
  simp only [h1, h2]
  field_simp

end rsq
end Verif.Lmm
