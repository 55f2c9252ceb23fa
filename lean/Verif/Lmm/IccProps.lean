import Verif.Lmm.Icc
import Mathlib.Tactic.FieldSimp
import Mathlib.Tactic.Linarith
import Mathlib.Tactic.Ring
import Mathlib.Tactic.NormNum
import Mathlib.Tactic.Positivity

/-!
Claim C172: the intraclass correlations are the ratios of variance components they are defined as.
-/

namespace Verif.Lmm

/-- The definitions of Shrout and Fleiss in terms of mean squares and variances. -/
noncomputable def iccTrue (s r e k : ℝ) : List ℝ :=
  let one := (k * s - r) / (k * s - r + k * (r + e))
  [one, s / (s + r + e), s / (s + e), k * one / (1 + (k - 1) * one), s / (s + (r + e) / k), s / (s + e / k)]

/-- **C172**: the six coefficients.  For single ratings they are shares of the variance; those for averages of `k` ratings are given by the
Spearman-Brown formula, where the noise is divided by `k`. -/
theorem C172_icc (s r e n k : ℝ) (hs : 0 ≤ s) (hr : 0 ≤ r) (he : 0 < e) (hn : 0 < n) (hk : 1 ≤ k) :
    (iccSummary s r e n k).2.1.icc = iccTrue s r e k := by
  have h1 : k * s + e ≠ 0 := by positivity
  have h2 : s + r + e ≠ 0 := by positivity
  have h3 : s + e ≠ 0 := by positivity
  have hk0 : k ≠ 0 := by positivity
  have h4 : k * s - r + k * (r + e) ≠ 0 := by nlinarith [mul_nonneg (show (0 : ℝ) ≤ k by linarith) hs, mul_nonneg (sub_nonneg.2 hk) hr, mul_pos (show 0 < k by linarith) he]
  have h5 : k * s + e + r ≠ 0 := by positivity
  simp only [iccSummary, iccTrue, List.cons.injEq, and_true]
  refine ⟨?_, ?_, ?_, ?_, ?_, ?_⟩
  · congr 1 <;> ring
  · rw [div_eq_div_iff _ h2]
    · field_simp; ring
    · have : k * s + e + (k - 1) * e + k / n * (n * r + e - e) = k * (s + r + e) := by field_simp; ring
      rw [this]; positivity
  · rw [div_eq_div_iff _ h3]
    · ring
    · have : k * s + e + (k - 1) * e = k * (s + e) := by ring
      rw [this]; positivity
  · have : 1 + (k - 1) * ((k * s - r) / (k * s - r + k * (r + e))) = k * (k * s + e) / (k * s - r + k * (r + e)) := by
      rw [eq_div_iff h4, add_mul, one_mul, mul_assoc, div_mul_cancel₀ _ h4]; ring
    rw [this, mul_div_assoc', div_div_div_cancel_right₀ h4, mul_div_mul_left _ _ hk0]
    congr 1; ring
  · have e1 : k * s + e + (n * r + e - e) / n = k * (s + (r + e) / k) := by field_simp; ring
    rw [e1, show k * s + e - e = k * s by ring, mul_div_mul_left _ _ hk0]
  · have e1 : k * s + e = k * (s + e / k) := by field_simp
    rw [show k * s + e - e = k * s by ring, e1, mul_div_mul_left _ _ hk0]

/-- **C172**: the averaged coefficients follow from the single ones by the Spearman-Brown formula. -/
theorem C172_spearman_brown (s r e k : ℝ) (hs : 0 ≤ s) (hr : 0 ≤ r) (he : 0 < e) (hk : 1 ≤ k) :
    s / (s + (r + e) / k) = k * (s / (s + r + e)) / (1 + (k - 1) * (s / (s + r + e))) ∧
    s / (s + e / k) = k * (s / (s + e)) / (1 + (k - 1) * (s / (s + e))) := by
  have key : ∀ v, 0 < v → s / (s + v / k) = k * (s / (s + v)) / (1 + (k - 1) * (s / (s + v))) := by
    intro v hv
    have h1 : s + v ≠ 0 := by positivity
    have h2 : k * s + v ≠ 0 := by positivity
    have e1 : 1 + (k - 1) * (s / (s + v)) = (k * s + v) / (s + v) := by field_simp; ring
    rw [e1]; field_simp
  refine ⟨?_, key e he⟩
  rw [add_assoc]; exact key (r + e) (by positivity)

/-- **C172**: the mean square within subjects pools the raters and the residuals with their degrees of freedom. -/
theorem C172_within (r e n k : ℝ) (hn : 0 < n) (hk : 1 < k) :
    ((k - 1) * (n * r + e) + (n - 1) * (k - 1) * e) / (n * (k - 1)) = r + e := by
  have : k - 1 ≠ 0 := by linarith
  field_simp; ring

/-- **C172**: for non-negative components `ICC1 ≤ ICC2 ≤ ICC3`, and the last two lie between zero and one. -/
theorem C172_order (s r e k : ℝ) (hs : 0 ≤ s) (hr : 0 ≤ r) (he : 0 < e) (hk : 1 ≤ k) :
    (k * s - r) / (k * s - r + k * (r + e)) ≤ s / (s + r + e) ∧ s / (s + r + e) ≤ s / (s + e) ∧ 0 ≤ s / (s + r + e) ∧ s / (s + e) ≤ 1 := by
  have h4 : 0 < k * s - r + k * (r + e) := by nlinarith [mul_nonneg (show (0 : ℝ) ≤ k by linarith) hs, mul_nonneg (sub_nonneg.2 hk) hr, mul_pos (show 0 < k by linarith) he]
  refine ⟨?_, ?_, by positivity, ?_⟩
  · rw [div_le_div_iff₀ h4 (by positivity)]
    nlinarith [mul_nonneg hr hr, mul_nonneg hr he.le, mul_nonneg hr hs]
  · gcongr; linarith
  · rw [div_le_one (by positivity)]; linarith

/-- **C172**: the three copies give the same table of coefficients. -/
theorem C172_agree (s r e n k : ℝ) : (iccClass s r e k n).2 = (iccSummary s r e n k).2.1 ∧ (iccFun s r e n k).2 = (iccSummary s r e n k).2.1 := ⟨rfl, rfl⟩

/-- A consistent analysis of variance: sums of squares are mean squares times degrees of freedom, and `F` compares them with the residual. -/
def AnovaOk (t : AnovaTable) (s r e n k : ℝ) : Prop :=
  t.df = [n - 1, k - 1, (n - 1) * (k - 1)] ∧ t.ms = [some (k * s + e), some (n * r + e), some e] ∧
  t.ssq = [(k * s + e) * (n - 1), (n * r + e) * (k - 1), e * ((n - 1) * (k - 1))] ∧ t.f = [some ((k * s + e) / e), some ((n * r + e) / e), none]

/-- **C172**: the analysis of variance of `icc_from_summary_stats` and of `ICC`, and the shares of the total variance. -/
theorem C172_anova_partial (s r e n k : ℝ) : AnovaOk (iccSummary s r e n k).1 s r e n k ∧ AnovaOk (iccClass s r e k n).1 s r e n k ∧
    (iccSummary s r e n k).2.2 = [s / (s + r + e), r / (s + r + e), e / (s + r + e), (s + r + e) / (s + r + e)] :=
  ⟨⟨rfl, rfl, rfl, rfl⟩, ⟨rfl, rfl, rfl, rfl⟩, rfl⟩

/-- **C172 (violated)**: `icc` writes the `F` ratios into the row of mean squares and leaves the row of `F` zero. -/
theorem C172_anova_violated : ¬ AnovaOk (iccFun 1 1 1 10 3).1 1 1 1 10 3 ∧
    ∀ s r e n k, (iccFun s r e n k).1.ms = [some ((k * s + e) / e), some ((n * r + e) / e), none] ∧ (iccFun s r e n k).1.f = [some 0, some 0, some 0] := by
  refine ⟨fun h => ?_, fun s r e n k => ⟨rfl, rfl⟩⟩
  have := h.2.2.2
  simp [iccFun] at this

/-- **C172 (violated)**: `ICC1` is not a share of variance and can be negative although all components are positive. -/
theorem C172_icc1_violated : ∃ s r e n k : ℝ, 0 < s ∧ 0 < r ∧ 0 < e ∧ 1 < n ∧ 1 < k ∧ ∃ v, (iccSummary s r e n k).2.1.icc.head? = some v ∧ v < 0 :=
  ⟨1, 3, 1, 10, 2, by norm_num, by norm_num, by norm_num, by norm_num, by norm_num, _, rfl, by norm_num⟩

end Verif.Lmm
