import Verif.Fa.FitMeasures
import Verif.Fa.OldEfaProps
import Verif.Sem.FitProps
/-! # C190: fit measures of the older factor analysis modules -/
namespace Verif.Fa.Old
open Matrix
open scoped MatrixOrder

variable {p m : ℕ}

/-! ## Degrees of freedom -/

/-- Moments less parameters plus the `m(m-1)/2` rotations, twice. -/
def df2 (p m : ℕ) : ℤ := ((p : ℤ) - m) ^ 2 - (p + m)

theorem tri (m : ℕ) : 2 * ((m * (m - 1) / 2 : ℕ) : ℤ) = m * (m - 1) := by
  have h : 2 * (m * (m - 1) / 2) = m * (m - 1) := Nat.mul_div_cancel' (Nat.even_mul_pred_self m).two_dvd
  rcases m with _ | m
  · simp
  · have : (2 : ℤ) * (((m + 1) * (m + 1 - 1) / 2 : ℕ) : ℤ) = (((m + 1) * (m + 1 - 1) : ℕ) : ℤ) := by exact_mod_cast h
    rw [this]; push_cast; ring

theorem tri1 (p : ℕ) : 2 * ((p * (p + 1) / 2 : ℕ) : ℤ) = p * (p + 1) := by
  have h : 2 * (p * (p + 1) / 2) = p * (p + 1) := Nat.mul_div_cancel' (Nat.even_mul_succ_self p).two_dvd
  have : (2 : ℤ) * ((p * (p + 1) / 2 : ℕ) : ℤ) = ((p * (p + 1) : ℕ) : ℤ) := by exact_mod_cast h
  rw [this]; push_cast; ring

/-- C190: the degrees of freedom are short by the number of constraints, which the count of parameters leaves out. -/
theorem C190_df (p m : ℕ) :
    2 * dfFull false p m = df2 p m - m * (m - 1) ∧ 2 * dfFull true p m = df2 p m - 2 * (m * (m - 1)) ∧
      2 * degfree p m = ((df2 p m - m * (m - 1) : ℤ) : ℝ) := by
  have h1 := tri m
  have h2 := tri1 p
  refine ⟨?_, ?_, ?_⟩
  · simp only [dfFull, nParams, Bool.false_eq_true, if_false, List.length_append, List.length_range, List.length_range']
    rw [show p * m + (p + m * (m - 1) / 2) - m * (m - 1) / 2 = p * m + p by omega]
    rw [mul_sub, h2, df2]; push_cast; ring
  · simp only [dfFull, nParams, if_true, List.length_range]
    rw [show p * m + m * (m - 1) / 2 + p + m * (m - 1) - m * (m - 1) = p * m + p + m * (m - 1) / 2 by omega]
    have h3 : (2 : ℤ) * ((p * m + p + m * (m - 1) / 2 : ℕ) : ℤ) = 2 * (p * m + p) + m * (m - 1) := by
      rw [Nat.cast_add, mul_add, h1]; push_cast; ring
    rw [mul_sub, h2, df2, h3]; ring
  · have e1 : (1.0 : ℝ) = 1 := by norm_num
    have e2 : (2.0 : ℝ) = 2 := by norm_num
    rw [degfree, df2, e1, e2]; push_cast; ring

/-- C190: they are right for at most one factor. -/
theorem C190_df_partial (p m : ℕ) (hm : m ≤ 1) : 2 * dfFull false p m = df2 p m ∧ 2 * dfFull true p m = df2 p m ∧ 2 * degfree p m = (df2 p m : ℝ) := by
  obtain ⟨h1, h2, h3⟩ := C190_df p m
  have : (m : ℤ) * (m - 1) = 0 := by interval_cases m <;> rfl
  rw [this] at h1 h2 h3
  exact ⟨by linarith, by linarith, by rw [h3]; push_cast; ring⟩

/-- C190: for two or more factors they are wrong, and they differ between an orthogonal and an oblique rotation of one fit. -/
theorem C190_df_violated (p m : ℕ) (hm : 2 ≤ m) :
    2 * dfFull false p m < df2 p m ∧ dfFull true p m < dfFull false p m ∧ 2 * degfree p m < (df2 p m : ℝ) := by
  obtain ⟨h1, h2, h3⟩ := C190_df p m
  have h : (0 : ℤ) < m * (m - 1) := mul_pos (by omega) (by omega)
  refine ⟨by linarith, by linarith, ?_⟩
  rw [h3]; exact_mod_cast (by linarith : df2 p m - m * (m - 1) < df2 p m)

/-- C190: six variables and three factors are just identified (0 degrees of freedom); the code has -3 and -6. -/
example : df2 6 3 = 0 ∧ dfFull false 6 3 = -3 ∧ dfFull true 6 3 = -6 := by decide

/-- C190: the information criteria exceed their values for the free parameters by as much. -/
theorem C190_aic (oblique : Bool) (p m : ℕ) (ll : ℝ) :
    aic (nParams oblique p m) ll = (2 * (p * (p + 1) / 2 : ℕ) - 2 * (dfFull oblique p m : ℝ)) - 2 * ll := by
  rw [aic, dfFull, Int.cast_sub, Int.cast_natCast, Int.cast_natCast]; ring

/-! ## Discrepancy -/

/-- C190: the discrepancy is nonnegative, and zero only for `Sigma = S`. -/
theorem C190_discrepancy {S Sigma : Mat p p} (hS : S.PosDef) (hg : Sigma.PosDef) : ∃ f, fullLoglike S Sigma = some f ∧ 0 ≤ f ∧ (f = 0 ↔ Sigma = S) := by
  have hu : IsUnit Sigma.det := isUnit_iff_ne_zero.2 hg.det_pos.ne'
  obtain ⟨h1, h2⟩ := Verif.Sem.kl_nonneg hg hS
  rw [Fintype.card_fin] at h1 h2
  have e : (1.0 : ℝ) * (Real.log |Sigma.det| + (Sigma⁻¹ * S).trace - Real.log |S.det| - p) =
      Real.log |Sigma.det| + (Sigma⁻¹ * S).trace + (-Real.log |S.det| - p) := by
    rw [show (1.0 : ℝ) = 1 by norm_num]; ring
  refine ⟨_, by rw [fullLoglike, inv?_unit hu, Option.map_some], by rw [e]; exact h1, fun h => h2 (by rw [← e]; exact h), fun h => ?_⟩
  rw [e, h, nonsing_inv_mul _ (h ▸ hu), trace_one, Fintype.card_fin]; ring

theorem null_posDef {S : Mat p p} (hS : S.PosDef) : (sigmaNull S).PosDef := PosDef.diagonal fun i => hS.diag_pos

/-- C190: for the model of uncorrelated variables it is minus the log determinant of the correlations. -/
theorem C190_null {S : Mat p p} (hS : S.PosDef) : fullLoglike S (sigmaNull S) = some (∑ i, Real.log (S i i) - Real.log S.det) := by
  have hd : ∀ i, S i i ≠ 0 := fun i => hS.diag_pos.ne'
  have hu : IsUnit (sigmaNull S).det := isUnit_iff_ne_zero.2 (null_posDef hS).det_pos.ne'
  have hinv : (sigmaNull S)⁻¹ = diagonal fun i => (S i i)⁻¹ := by
    refine Matrix.inv_eq_left_inv ?_
    rw [sigmaNull, diagonal_mul_diagonal, ← diagonal_one]; congr 1; funext i; exact inv_mul_cancel₀ (hd i)
  have ht : ((sigmaNull S)⁻¹ * S).trace = p := by
    rw [hinv, Matrix.trace]
    simp only [Matrix.diag_apply, Matrix.diagonal_mul, inv_mul_cancel₀ (hd _)]
    simp
  rw [fullLoglike, inv?_unit hu, Option.map_some, ht, Real.log_abs, Real.log_abs, sigmaNull, det_diagonal, Real.log_prod fun i _ => hd i]
  congr 1; rw [show (1.0 : ℝ) = 1 by norm_num]; ring

/-! ## Incremental indices -/

theorem qdiv_some {a b : ℝ} (hb : b ≠ 0) : qdiv a b = some (a / b) := if_neg hb

/-- C190: `nfi` lies in `[0, 1]` and is one exactly for a perfect fit. -/
theorem C190_nfi {c0 c1 : ℝ} (h0 : 0 < c0) (h1 : 0 ≤ c1) (h : c1 ≤ c0) : ∃ y, nfi c0 c1 = some y ∧ 0 ≤ y ∧ y ≤ 1 ∧ (y = 1 ↔ c1 = 0) := by
  refine ⟨_, qdiv_some h0.ne', div_nonneg (by linarith) h0.le, (div_le_one h0).2 (by linarith), ?_⟩
  rw [div_eq_one_iff_eq h0.ne']; constructor <;> intro h <;> linarith

/-- C190: `tli`, `ifi` and `rni` are one exactly when the statistic equals its degrees of freedom. -/
theorem C190_relative {c0 d0 c1 d1 : ℝ} (hd0 : 0 < d0) (hd1 : 0 < d1) (h0 : d0 < c0) (h1 : d1 < c0) :
    (∃ y, tli c0 d0 c1 d1 = some y ∧ (y = 1 ↔ c1 = d1)) ∧ (∃ y, ifi c0 c1 d1 = some y ∧ (y = 1 ↔ c1 = d1)) ∧
      ∃ y, rni c0 d0 c1 d1 = some y ∧ (y = 1 ↔ c1 = d1) := by
  have e1 : c0 / d0 - 1 ≠ 0 := by rw [sub_ne_zero, Ne, div_eq_one_iff_eq hd0.ne']; exact h0.ne'
  have e2 : c0 - d1 ≠ 0 := (sub_pos.2 h1).ne'
  have e3 : c0 - d0 ≠ 0 := (sub_pos.2 h0).ne'
  refine ⟨⟨(c0 / d0 - c1 / d1) / (c0 / d0 - 1), ?_, ?_⟩, ⟨_, qdiv_some e2, ?_⟩, ⟨_, qdiv_some e3, ?_⟩⟩
  · rw [tli, qdiv_some hd0.ne', Option.bind_some, qdiv_some hd1.ne', Option.bind_some, qdiv_some e1]
  · rw [div_eq_one_iff_eq e1, sub_right_inj, div_eq_one_iff_eq hd1.ne']
  · rw [div_eq_one_iff_eq e2]; constructor <;> intro h <;> linarith
  · rw [div_eq_one_iff_eq e3]; constructor <;> intro h <;> linarith

/-- C190: `cfi` is `rni` cut off at one, and lies in `[0, 1]`, when the model is not worse than the null model. -/
theorem C190_cfi_partial {c0 d0 c1 d1 : ℝ} (h0 : d0 < c0) (h : c1 - d1 ≤ c0 - d0) :
    ∃ y z, cfi c0 d0 c1 d1 = some y ∧ rni c0 d0 c1 d1 = some z ∧ y = min z 1 ∧ 0 ≤ y ∧ y ≤ 1 := by
  have hp : 0 < c0 - d0 := sub_pos.2 h0
  have e : max (c0 - d0) 0 = c0 - d0 := max_eq_left hp.le
  refine ⟨(c0 - d0 - max (c1 - d1) 0) / (c0 - d0), _, by rw [cfi, e, qdiv_some hp.ne'], qdiv_some hp.ne', ?_, ?_, ?_⟩
  · rcases le_total (c1 - d1) 0 with hc | hc
    · rw [max_eq_right hc, sub_zero, div_self hp.ne', min_eq_right]
      rw [le_div_iff₀ hp]; linarith
    · rw [max_eq_left hc, min_eq_left]
      rw [div_le_one hp]; linarith
  · exact div_nonneg (sub_nonneg.2 (max_le h hp.le)) hp.le
  · rw [div_le_one hp]; linarith [le_max_right (c1 - d1) 0]

/-- C190: otherwise it is negative (the usual index is zero then), and without excess in the null model it is `0/0`. -/
theorem C190_cfi_violated : (∃ y, cfi 10 9 9 2 = some y ∧ y < 0) ∧ cfi 8 9 1 2 = none := by
  refine ⟨⟨_, qdiv_some (by norm_num), by norm_num⟩, ?_⟩
  rw [cfi, qdiv, if_pos (by norm_num)]

/-! ## RMSEA -/

/-- The usual root mean square error of approximation. -/
noncomputable def rmseaSpec (c d n : ℝ) : ℝ := Real.sqrt (max (c - d) 0 / (d * (n - 1)))

/-- C190: the version of `factor_analysis.py` is the usual one. -/
theorem C190_rmsea_factor_analysis {c d n : ℝ} (hd : 0 < d) (hn : 1 < n) : rmseaF c d n = some (rmseaSpec c d n) := by
  have hp : 0 < d * (n - 1) := mul_pos hd (sub_pos.2 hn)
  rw [rmseaF, qdiv_some hp.ne', Option.bind_some, qsqrt, if_neg (not_lt.2 (div_nonneg (le_max_right _ _) hp.le)), rmseaSpec]

/-- C190: the one of `efa.py` is the usual one times `sqrt(df_full / df_null)` when the statistic exceeds its degrees of freedom. -/
theorem C190_rmsea_partial {d0 c d n : ℝ} (hd0 : 0 < d0) (hd : 0 < d) (hn : 1 < n) (h : d ≤ c) :
    rmsea d0 c d n = some (rmseaSpec c d n * Real.sqrt (d / d0)) := by
  have hp : 0 < d0 * (n - 1) := mul_pos hd0 (sub_pos.2 hn)
  have h1 : n - 1 ≠ 0 := (sub_pos.2 hn).ne'
  rw [rmsea, qdiv_some hp.ne', Option.bind_some, qsqrt, if_neg (not_lt.2 (div_nonneg (sub_nonneg.2 h) hp.le)), rmseaSpec, max_eq_left (sub_nonneg.2 h),
    ← Real.sqrt_mul (div_nonneg (sub_nonneg.2 h) (mul_pos hd (sub_pos.2 hn)).le)]
  congr 2; field_simp

/-- C190: it is too small whenever the model has fewer degrees of freedom than the null model, and `nan` when the statistic is
below its degrees of freedom. -/
theorem C190_rmsea_violated {d0 c d n : ℝ} (hd : 0 < d) (hn : 1 < n) (h0 : d < d0) :
    (d < c → ∃ y, rmsea d0 c d n = some y ∧ y < rmseaSpec c d n) ∧ (c < d → rmsea d0 c d n = none ∧ rmseaSpec c d n = 0) := by
  constructor
  · intro h
    refine ⟨_, C190_rmsea_partial (hd.trans h0) hd hn h.le, ?_⟩
    have hs : 0 < rmseaSpec c d n := by
      rw [rmseaSpec, max_eq_left (sub_nonneg.2 h.le)]
      exact Real.sqrt_pos.2 (div_pos (sub_pos.2 h) (mul_pos hd (sub_pos.2 hn)))
    have h1 : Real.sqrt (d / d0) < 1 := by
      rw [Real.sqrt_lt' one_pos, one_pow, div_lt_one (hd.trans h0)]; exact h0
    nlinarith
  · intro h
    have hp : 0 < d0 * (n - 1) := mul_pos (hd.trans h0) (sub_pos.2 hn)
    constructor
    · rw [rmsea, qdiv_some hp.ne', Option.bind_some, qsqrt, if_pos (div_neg_of_neg_of_pos (sub_neg.2 h) hp)]
    · rw [rmseaSpec, max_eq_right (sub_neg.2 h).le, zero_div, Real.sqrt_zero]

/-! ## The likelihood-ratio test of `fit_measures.py` -/

/-- C190: the statistic is `n` times the discrepancy, kept above `1e-12`. -/
theorem C190_lr_statistic {pinv : Mat p p → Mat p p} (hpv : PinvOk pinv) {S Sigma : Mat p p} (hg : Sigma.PosDef) (sf : ℝ → ℝ → ℝ) (df n : ℝ) :
    ∃ f, fullLoglike S Sigma = some f ∧ (lrTest pinv sf Sigma S df n).1 = max (n * f) 1e-12 := by
  have hu : IsUnit Sigma.det := isUnit_iff_ne_zero.2 hg.det_pos.ne'
  refine ⟨_, by rw [fullLoglike, inv?_unit hu, Option.map_some], ?_⟩
  rw [lrTest, hpv _ hu, show (1.0 : ℝ) = 1 by norm_num]
  dsimp only
  congr 1; ring

/-- Survival function of the chi-square distribution with `2k` degrees of freedom. -/
noncomputable def sfEven (k : ℕ) (x : ℝ) : ℝ := Real.exp (-x / 2) * ∑ j ∈ Finset.range k, (x / 2) ^ j / j.factorial

theorem sfEven_lt {k l : ℕ} (h : k < l) {x : ℝ} (hx : 0 < x) : sfEven k x < sfEven l x := by
  rw [sfEven, sfEven]
  refine mul_lt_mul_of_pos_left ?_ (Real.exp_pos _)
  refine Finset.sum_lt_sum_of_subset (Finset.range_subset_range.2 h.le) (Finset.mem_range.2 h) (by simp) (by positivity) fun j _ _ => by positivity

/-- C190: the p-value takes `p(p+1)/2` degrees of freedom whatever `df` is; with four variables and one factor (two degrees of
freedom) it is always too large. -/
theorem C190_lr_violated {pinv : Mat 4 4 → Mat 4 4} (sf : ℝ → ℝ → ℝ) (hsf : ∀ k : ℕ, ∀ x, sf x (2 * k) = sfEven k x) (S Sigma : Mat 4 4) (n : ℝ) :
    degfree 4 1 = 2 ∧ sf (lrTest pinv sf Sigma S (degfree 4 1) n).1 (degfree 4 1) < (lrTest pinv sf Sigma S (degfree 4 1) n).2 := by
  have h2 : degfree 4 1 = 2 := by rw [degfree]; norm_num
  refine ⟨h2, ?_⟩
  rw [h2, lrTest]
  dsimp only
  have e1 : (2 : ℝ) = 2 * ((1 : ℕ) : ℝ) := by norm_num
  have e2 : ((4 : ℕ) + 1 : ℝ) * (4 : ℕ) / 2 = 2 * ((5 : ℕ) : ℝ) := by norm_num
  rw [e2]
  set c := max ((Real.log |Sigma.det| + (pinv Sigma * S).trace - Real.log |S.det| - ((4 : ℕ) : ℝ)) * n) 1e-12 with hc
  rw [show sf c 2 = sf c (2 * ((1 : ℕ) : ℝ)) by norm_num, hsf, hsf]
  exact sfEven_lt (by norm_num) (lt_of_lt_of_le (by norm_num) (le_max_right _ _))

/-! ## Residuals -/

/-- The usual standardised root mean square residual, over all variances and covariances. -/
noncomputable def srmrSpec (Sigma S : Mat p p) : ℝ :=
  Real.sqrt ((∑ i, ∑ j, if j ≤ i then ((S i j - Sigma i j) / (Real.sqrt (S i i) * Real.sqrt (S j j))) ^ 2 else 0) / (p * (p + 1) / 2))

theorem srmr_eq {Sigma S : Mat p p} (hS : ∀ i, 0 < S i i) (df : ℝ) :
    srmr Sigma S df = some (Real.sqrt ((∑ i, ∑ j, if j < i then ((S i j - Sigma i j) / (Real.sqrt (S i i) * Real.sqrt (S j j))) ^ 2 else 0) /
      (p * (p + 1) / 2))) := by
  have e : ∀ i j, (Sigma i j - S i j) ^ 2 / (S i i * S j j) = ((S i j - Sigma i j) / (Real.sqrt (S i i) * Real.sqrt (S j j))) ^ 2 := fun i j => by
    rw [div_pow, mul_pow, Real.sq_sqrt (hS i).le, Real.sq_sqrt (hS j).le]; congr 1; ring
  have e1 : (1.0 : ℝ) = 1 := by norm_num
  have e2 : (2.0 : ℝ) = 2 := by norm_num
  simp only [srmr, e, e1, e2]
  set y := ∑ i, ∑ j, if j < i then ((S i j - Sigma i j) / (Real.sqrt (S i i) * Real.sqrt (S j j))) ^ 2 else 0 with hy
  have hy0 : 0 ≤ y := Finset.sum_nonneg fun i _ => Finset.sum_nonneg fun j _ => by split_ifs <;> positivity
  have h0 : 2 / (((p : ℝ) + 1) * p) * y = y / (p * (p + 1) / 2) := by
    rw [div_mul_eq_mul_div, div_div_eq_mul_div]; congr 1 <;> ring
  rw [qsqrt, if_neg (not_lt.2 (mul_nonneg (by positivity) hy0)), h0]

/-- C190: `srmr` is the usual index when the variances are reproduced, as they are at the maximum of the likelihood. -/
theorem C190_srmr_partial {Sigma S : Mat p p} (hS : ∀ i, 0 < S i i) (hd : ∀ i, Sigma i i = S i i) (df : ℝ) :
    srmr Sigma S df = some (srmrSpec Sigma S) := by
  rw [srmr_eq hS, srmrSpec]
  congr 4; funext i; refine Finset.sum_congr rfl fun j _ => ?_
  rcases lt_trichotomy j i with h | h | h
  · rw [if_pos h, if_pos h.le]
  · subst h; rw [if_neg (lt_irrefl _), if_pos le_rfl, hd, sub_self, zero_div]; norm_num
  · rw [if_neg (not_lt.2 h.le), if_neg (not_le.2 h)]

/-- C190: otherwise it leaves out the residuals of the variances, though it divides by their number too: it is zero for every
diagonal `S` and `Sigma`. -/
theorem C190_srmr_violated : ∃ S Sigma : Mat 1 1, S.PosDef ∧ Sigma.PosDef ∧ (∀ df, srmr Sigma S df = some 0) ∧ srmrSpec Sigma S = 1 := by
  refine ⟨1, diagonal fun _ => 2, PosDef.one, PosDef.diagonal fun _ => two_pos, fun df => ?_, ?_⟩
  · rw [srmr_eq (by simp)]; simp
  · rw [srmrSpec]; simp; norm_num

/-! ## GFI -/

/-- `tr((Sigma⁻¹ X)²)` is a sum of squares. -/
theorem tr_sq {Sigma : Mat p p} (hg : Sigma.PosDef) {X : Mat p p} (hX : Xᵀ = X) :
    0 ≤ (Sigma⁻¹ * X * (Sigma⁻¹ * X)).trace ∧ ((Sigma⁻¹ * X * (Sigma⁻¹ * X)).trace = 0 → X = 0) := by
  obtain ⟨B, hB⟩ := CStarAlgebra.nonneg_iff_eq_star_mul_self.mp hg.inv.posSemidef.nonneg
  rw [star_eq_conjTranspose, conjTranspose_eq_transpose_of_trivial] at hB
  have hBu : IsUnit B.det := by
    have h := congrArg Matrix.det hB
    rw [det_mul, det_transpose] at h
    refine isUnit_iff_ne_zero.2 fun h0 => ?_
    rw [h0, mul_zero] at h
    exact hg.inv.det_pos.ne' h
  set Y := B * X * Bᵀ with hY
  have hYt : Yᵀ = Y := by rw [hY, transpose_mul, transpose_mul, transpose_transpose, hX, Matrix.mul_assoc]
  have e : (Sigma⁻¹ * X * (Sigma⁻¹ * X)).trace = ∑ i, ∑ j, Y i j ^ 2 := by
    rw [hB, show Bᵀ * B * X * (Bᵀ * B * X) = Bᵀ * (B * X * Bᵀ * (B * X)) by simp only [Matrix.mul_assoc], trace_mul_comm,
      show B * X * Bᵀ * (B * X) * Bᵀ = Y * Yᵀ by rw [hYt, hY]; simp only [Matrix.mul_assoc]]
    simp only [Matrix.trace, Matrix.diag_apply, Matrix.mul_apply, transpose_apply, sq]
  rw [e]
  refine ⟨Finset.sum_nonneg fun i _ => Finset.sum_nonneg fun j _ => sq_nonneg _, fun h => ?_⟩
  have hY0 : Y = 0 := by
    ext i j
    have h1 := (Finset.sum_eq_zero_iff_of_nonneg fun i _ => Finset.sum_nonneg fun j _ => sq_nonneg (Y i j)).1 h i (Finset.mem_univ i)
    have h2 := (Finset.sum_eq_zero_iff_of_nonneg fun j _ => sq_nonneg (Y i j)).1 h1 j (Finset.mem_univ j)
    exact pow_eq_zero_iff (two_ne_zero) |>.1 h2
  have hBt : IsUnit Bᵀ.det := by rw [det_transpose]; exact hBu
  have : B⁻¹ * Y * Bᵀ⁻¹ = X := by
    rw [hY, show B⁻¹ * (B * X * Bᵀ) * Bᵀ⁻¹ = (B⁻¹ * B) * X * (Bᵀ * Bᵀ⁻¹) by simp only [Matrix.mul_assoc], nonsing_inv_mul _ hBu, mul_nonsing_inv _ hBt,
      Matrix.one_mul, Matrix.mul_one]
  rw [← this, hY0, Matrix.mul_zero, Matrix.zero_mul]

theorem gfi_parts {pinv : Mat p p → Mat p p} (hpv : PinvOk pinv) {S Sigma : Mat p p} (hp : 0 < p) (hS : S.PosDef) (hg : Sigma.PosDef) :
    let a := (Sigma⁻¹ * S * (Sigma⁻¹ * S)).trace
    let b := ((Sigma⁻¹ * S - 1) * (Sigma⁻¹ * S - 1)).trace
    0 < a ∧ 0 ≤ b ∧ (b = 0 ↔ Sigma = S) ∧ b = a - 2 * (Sigma⁻¹ * S).trace + p ∧ gfi pinv Sigma S = some (1 - b / a) ∧
      ∀ df, df ≠ 0 → agfi pinv Sigma S df = some (1 - (p * (p + 1) / (2 * df)) * (b / a)) := by
  intro a b
  have hu : IsUnit Sigma.det := isUnit_iff_ne_zero.2 hg.det_pos.ne'
  have hSt : Sᵀ = S := by have := hS.1; rwa [Matrix.IsHermitian, conjTranspose_eq_transpose_of_trivial] at this
  have hgt : Sigmaᵀ = Sigma := by have := hg.1; rwa [Matrix.IsHermitian, conjTranspose_eq_transpose_of_trivial] at this
  have hd : Sigma⁻¹ * S - 1 = Sigma⁻¹ * (S - Sigma) := by rw [Matrix.mul_sub, nonsing_inv_mul _ hu]
  have ha : 0 < a := by
    obtain ⟨h1, h2⟩ := tr_sq hg hSt
    refine lt_of_le_of_ne h1 fun h => ?_
    have h3 := h2 h.symm
    have := hS.diag_pos (i := ⟨0, hp⟩)
    rw [h3] at this; exact lt_irrefl _ this
  have hb : b = (Sigma⁻¹ * (S - Sigma) * (Sigma⁻¹ * (S - Sigma))).trace := by simp only [b, hd]
  obtain ⟨h1, h2⟩ := tr_sq hg (by rw [transpose_sub, hSt, hgt] : (S - Sigma)ᵀ = S - Sigma)
  rw [← hb] at h1 h2
  have e1 : (1.0 : ℝ) = 1 := by norm_num
  have e2 : (2.0 : ℝ) = 2 := by norm_num
  refine ⟨ha, h1, ⟨fun h => (sub_eq_zero.1 (h2 h)).symm, fun h => ?_⟩, ?_, ?_, fun df hdf => ?_⟩
  · rw [hb, h, sub_self, Matrix.mul_zero, Matrix.mul_zero, trace_zero]
  · simp only [a, b]
    rw [Matrix.sub_mul, Matrix.mul_sub, Matrix.one_mul, Matrix.mul_one, trace_sub, trace_sub, trace_sub, trace_one, Fintype.card_fin]; ring
  · rw [gfi, hpv _ hu]
    rw [qdiv_some ha.ne', Option.map_some, e1]
  · rw [agfi, hpv _ hu]
    dsimp only
    rw [qdiv_some ha.ne', Option.bind_some, e2, qdiv_some (mul_ne_zero two_ne_zero hdf), Option.map_some, e1]
    congr 1; ring

/-- C190: `gfi` is at most one, with equality only for `Sigma = S`. -/
theorem C190_gfi {pinv : Mat p p → Mat p p} (hpv : PinvOk pinv) {S Sigma : Mat p p} (hp : 0 < p) (hS : S.PosDef) (hg : Sigma.PosDef) :
    ∃ y, gfi pinv Sigma S = some y ∧ y ≤ 1 ∧ (y = 1 ↔ Sigma = S) ∧ ((Sigma⁻¹ * S).trace = p →
      y = p / (Sigma⁻¹ * S * (Sigma⁻¹ * S)).trace ∧ 0 < y) := by
  obtain ⟨ha, hb, h0, hab, hgf, -⟩ := gfi_parts hpv hp hS hg
  refine ⟨_, hgf, by linarith [div_nonneg hb ha.le], ?_, fun ht => ?_⟩
  · rw [sub_eq_self, div_eq_zero_iff, or_iff_left ha.ne', h0]
  · have hpp : (0 : ℝ) < p := by exact_mod_cast hp
    rw [ht] at hab
    have e : (1 : ℝ) - ((Sigma⁻¹ * S - 1) * (Sigma⁻¹ * S - 1)).trace / (Sigma⁻¹ * S * (Sigma⁻¹ * S)).trace = p / (Sigma⁻¹ * S * (Sigma⁻¹ * S)).trace := by
      rw [hab, eq_div_iff ha.ne', sub_mul, div_mul_cancel₀ _ ha.ne']; ring
    rw [e]
    exact ⟨rfl, div_pos hpp ha⟩

/-- C190: `agfi` is at most `gfi` for at most `p(p+1)/2` degrees of freedom, and also one only for `Sigma = S`. -/
theorem C190_agfi {pinv : Mat p p → Mat p p} (hpv : PinvOk pinv) {S Sigma : Mat p p} (hp : 0 < p) (hS : S.PosDef) (hg : Sigma.PosDef) {df : ℝ}
    (h0 : 0 < df) (h1 : df ≤ p * (p + 1) / 2) :
    ∃ y z, gfi pinv Sigma S = some y ∧ agfi pinv Sigma S df = some z ∧ z = 1 - (p * (p + 1) / (2 * df)) * (1 - y) ∧ z ≤ y ∧ (z = 1 ↔ Sigma = S) := by
  obtain ⟨ha, hb, hz, hab, hgf, hag⟩ := gfi_parts hpv hp hS hg
  have hpp : (0 : ℝ) < p := by exact_mod_cast hp
  have hk : 1 ≤ (p * (p + 1) / (2 * df) : ℝ) := by rw [one_le_div (by linarith)]; linarith
  have hr := div_nonneg hb ha.le
  refine ⟨_, _, hgf, hag df h0.ne', by ring, by nlinarith, ?_⟩
  rw [sub_eq_self, mul_eq_zero, or_iff_right (by linarith), div_eq_zero_iff, or_iff_left ha.ne', hz]

/-! ## Sampling adequacy -/

/-- Squared correlations and squared anti-image correlations, below the diagonal. -/
noncomputable def msaR (Sigma : Mat p p) : ℝ := ∑ i, ∑ j, if j < i then Sigma i j ^ 2 / (Sigma i i * Sigma j j) else 0

/-- C190: `measure_of_sample_adequacy` is the share of the squared correlations in their sum with the squared partial
correlations, which are those of the inverse; the value does not depend on the scale of the variables and lies in `[0, 1]`. -/
theorem C190_adequacy {Sigma : Mat p p} (hg : Sigma.PosDef) :
    msa Sigma = qdiv (msaR Sigma) (msaR Sigma + msaR Sigma⁻¹) ∧ ∀ y, msa Sigma = some y → 0 ≤ y ∧ y ≤ 1 := by
  have hp : ∀ i, 0 < Sigma i i := fun i => hg.diag_pos
  have hip : ∀ i, 0 < Sigma⁻¹ i i := fun i => hg.inv.diag_pos
  have hu : IsUnit Sigma.det := isUnit_iff_ne_zero.2 hg.det_pos.ne'
  have hsp : ∀ i, 0 < Real.sqrt (1 / Sigma i i) := fun i => Real.sqrt_pos.2 (one_div_pos.2 (hp i))
  have hss : ∀ i, Real.sqrt (1 / Sigma i i) ^ 2 = (Sigma i i)⁻¹ := fun i => by rw [Real.sq_sqrt (one_div_pos.2 (hp i)).le, one_div]
  set v : Fin p → ℝ := fun i => Real.sqrt (1 / Sigma i i) with hv
  have hRu : IsUnit (diagonal v * Sigma * diagonal v).det := by
    rw [det_mul, det_mul, det_diagonal]
    have : IsUnit (∏ i, v i) := isUnit_iff_ne_zero.2 (Finset.prod_ne_zero_iff.2 fun i _ => (hsp i).ne')
    exact (this.mul hu).mul this
  have hRi : (diagonal v * Sigma * diagonal v)⁻¹ = diagonal (fun i => (v i)⁻¹) * Sigma⁻¹ * diagonal fun i => (v i)⁻¹ := by
    refine Matrix.inv_eq_left_inv ?_
    have h1 : (diagonal fun i => (v i)⁻¹) * diagonal v = (1 : Mat p p) := by
      rw [diagonal_mul_diagonal, ← diagonal_one]; congr 1; funext i; exact inv_mul_cancel₀ (hsp i).ne'
    rw [show (diagonal fun i => (v i)⁻¹) * Sigma⁻¹ * (diagonal fun i => (v i)⁻¹) * (diagonal v * Sigma * diagonal v) =
      (diagonal fun i => (v i)⁻¹) * (Sigma⁻¹ * ((diagonal fun i => (v i)⁻¹) * diagonal v) * Sigma) * diagonal v by simp only [Matrix.mul_assoc], h1,
      Matrix.mul_one, nonsing_inv_mul _ hu, Matrix.mul_one, h1]
  have e1 : (1.0 : ℝ) = 1 := by norm_num
  have hmain : msa Sigma = qdiv (msaR Sigma) (msaR Sigma + msaR Sigma⁻¹) := by
    rw [msa]
    dsimp only
    rw [inv?_unit hRu, Option.bind_some, hRi, e1]
    have hr : (∑ i, ∑ j, if j < i then (diagonal v * Sigma * diagonal v) i j ^ 2 else 0) = msaR Sigma := by
      refine Finset.sum_congr rfl fun i _ => Finset.sum_congr rfl fun j _ => ?_
      refine if_congr Iff.rfl ?_ rfl
      rw [Matrix.mul_diagonal, Matrix.diagonal_mul, mul_pow, mul_pow, hss, hss]
      have := (hp i).ne'; have := (hp j).ne'
      field_simp
    have hq : (∑ i, ∑ j, if j < i then ((diagonal fun i => 1 / Real.sqrt (((diagonal fun i => (v i)⁻¹) * Sigma⁻¹ * diagonal fun i => (v i)⁻¹) i i)) *
        ((diagonal fun i => (v i)⁻¹) * Sigma⁻¹ * diagonal fun i => (v i)⁻¹) *
        diagonal fun i => 1 / Real.sqrt (((diagonal fun i => (v i)⁻¹) * Sigma⁻¹ * diagonal fun i => (v i)⁻¹) i i)) i j ^ 2 else 0) = msaR Sigma⁻¹ := by
      refine Finset.sum_congr rfl fun i _ => Finset.sum_congr rfl fun j _ => ?_
      refine if_congr Iff.rfl ?_ rfl
      have hc : ∀ a b, ((diagonal fun i => (v i)⁻¹) * Sigma⁻¹ * diagonal fun i => (v i)⁻¹) a b = (v a)⁻¹ * Sigma⁻¹ a b * (v b)⁻¹ := fun a b => by
        rw [Matrix.mul_diagonal, Matrix.diagonal_mul]
      have hcp : ∀ a, 0 < (v a)⁻¹ * Sigma⁻¹ a a * (v a)⁻¹ := fun a => mul_pos (mul_pos (inv_pos.2 (hsp a)) (hip a)) (inv_pos.2 (hsp a))
      rw [Matrix.mul_diagonal, Matrix.diagonal_mul, hc, hc, hc, mul_pow, mul_pow, div_pow, div_pow, Real.sq_sqrt (hcp i).le, Real.sq_sqrt (hcp j).le]
      have := (hip i).ne'; have := (hip j).ne'; have : v i ≠ 0 := (hsp i).ne'; have : v j ≠ 0 := (hsp j).ne'
      field_simp
    rw [hr, hq]
  refine ⟨hmain, fun y hy => ?_⟩
  have hn : ∀ X : Mat p p, (∀ i, 0 < X i i) → 0 ≤ msaR X := fun X hX => Finset.sum_nonneg fun i _ => Finset.sum_nonneg fun j _ => by
    split_ifs
    · exact div_nonneg (sq_nonneg _) (mul_pos (hX i) (hX j)).le
    · exact le_rfl
  have h1 := hn _ hp
  have h2 := hn _ hip
  rw [hmain, qdiv] at hy
  split_ifs at hy with h0
  rw [Option.some.injEq] at hy
  subst hy
  have h3 : 0 < msaR Sigma + msaR Sigma⁻¹ := lt_of_le_of_ne (by linarith) (Ne.symm h0)
  exact ⟨div_nonneg h1 h3.le, (div_le_one h3).2 (by linarith)⟩

/-- C190: rescaling the variables leaves it unchanged. -/
theorem C190_adequacy_scale {Sigma : Mat p p} (hg : Sigma.PosDef) (d : Fin p → ℝ) (hd : ∀ i, d i ≠ 0) :
    msa (diagonal d * Sigma * diagonal d) = msa Sigma := by
  have hu : IsUnit Sigma.det := isUnit_iff_ne_zero.2 hg.det_pos.ne'
  have hsc : ∀ (X : Mat p p) (e : Fin p → ℝ), (∀ i, e i ≠ 0) → (∀ i, 0 < X i i) → msaR (diagonal e * X * diagonal e) = msaR X := fun X e he hX => by
    refine Finset.sum_congr rfl fun i _ => Finset.sum_congr rfl fun j _ => if_congr Iff.rfl ?_ rfl
    simp only [Matrix.mul_diagonal, Matrix.diagonal_mul]
    have := he i; have := he j; have := (hX i).ne'; have := (hX j).ne'
    field_simp
  have hpd : (diagonal d * Sigma * diagonal d).PosDef := by
    have hdu : IsUnit (diagonal d : Mat p p).det := by
      rw [det_diagonal]; exact isUnit_iff_ne_zero.2 (Finset.prod_ne_zero_iff.2 fun i _ => hd i)
    have := hg.mul_mul_conjTranspose_same (B := diagonal d)
      (Matrix.vecMul_injective_iff_isUnit.2 ((Matrix.isUnit_iff_isUnit_det _).2 hdu))
    rwa [conjTranspose_eq_transpose_of_trivial, diagonal_transpose] at this
  have hi : (diagonal d * Sigma * diagonal d)⁻¹ = diagonal (fun i => (d i)⁻¹) * Sigma⁻¹ * diagonal fun i => (d i)⁻¹ := by
    refine Matrix.inv_eq_left_inv ?_
    have h1 : (diagonal fun i => (d i)⁻¹) * diagonal d = (1 : Mat p p) := by
      rw [diagonal_mul_diagonal, ← diagonal_one]; congr 1; funext i; exact inv_mul_cancel₀ (hd i)
    rw [show (diagonal fun i => (d i)⁻¹) * Sigma⁻¹ * (diagonal fun i => (d i)⁻¹) * (diagonal d * Sigma * diagonal d) =
      (diagonal fun i => (d i)⁻¹) * (Sigma⁻¹ * ((diagonal fun i => (d i)⁻¹) * diagonal d) * Sigma) * diagonal d by simp only [Matrix.mul_assoc], h1,
      Matrix.mul_one, nonsing_inv_mul _ hu, Matrix.mul_one, h1]
  rw [(C190_adequacy hpd).1, (C190_adequacy hg).1, hi, hsc _ _ hd fun i => hg.diag_pos, hsc _ _ (fun i => inv_ne_zero (hd i)) fun i => hg.inv.diag_pos]

/-- The hypotheses of `C190_lr_violated` can be met. -/
example : ∃ sf : ℝ → ℝ → ℝ, ∀ k : ℕ, ∀ x, sf x (2 * k) = sfEven k x :=
  ⟨fun x d => sfEven ⌊d / 2⌋₊ x, fun k x => by
    show sfEven ⌊(2 * (k : ℝ)) / 2⌋₊ x = _
    rw [mul_div_cancel_left₀ _ two_ne_zero, Nat.floor_natCast]⟩

end Verif.Fa.Old
