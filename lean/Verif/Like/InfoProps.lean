import Verif.Like.Info
import Mathlib.Tactic.Linarith
import Mathlib.Tactic.FieldSimp
import Mathlib.Tactic.NormNum
import Mathlib.Tactic.Positivity
import Mathlib.Analysis.Complex.ExponentialBounds
/-! # Information criteria and pseudo R-squared (C92, C93) -/
namespace Verif.Like
open Real

/-! ## C92 -/

/-- With more than `k + 1` observations the four criteria exist, AICc is AIC plus the small-sample term, and CAIC is
BIC plus the number of parameters. -/
theorem C92_criteria (ll : ℝ) {k n : ℕ} (h : k + 1 < n) :
    ∃ i, getInformation ll k n = some i ∧ i.aic = 2 * ll + 2 * k ∧
      i.aicc = i.aic + 2 * k * (k + 1) / ((n : ℝ) - k - 1) ∧ i.bic = 2 * ll + k * log n ∧
      i.caic = i.bic + k := by
  have h0 : (n : ℤ) - k - 1 ≠ 0 := by omega
  have h1 : (0 : ℝ) < (n : ℝ) - k - 1 := by
    have : ((k + 1 : ℕ) : ℝ) < n := by exact_mod_cast h
    push_cast at this; linarith
  refine ⟨_, if_neg h0, rfl, ?_, rfl, ?_⟩
  · push_cast
    have := h1.ne'
    field_simp
    ring
  · show 2 * ll + (k : ℝ) * (log n + 1) = 2 * ll + k * log n + k
    ring

/-- AICc exceeds AIC as soon as there is a parameter. -/
theorem C92_aicc {ll : ℝ} {k n : ℕ} (h : k + 1 < n) (hk : 0 < k) {i : Info} (hi : getInformation ll k n = some i) :
    i.aic < i.aicc := by
  obtain ⟨j, hj, -, h2, -⟩ := C92_criteria ll h
  obtain rfl : i = j := Option.some.inj (hi.symm.trans hj)
  have h1 : (0 : ℝ) < (n : ℝ) - k - 1 := by
    have : ((k + 1 : ℕ) : ℝ) < n := by exact_mod_cast h
    push_cast at this; linarith
  have : (0 : ℝ) < k := by exact_mod_cast hk
  rw [h2]
  have : 0 < 2 * (k : ℝ) * (k + 1) / ((n : ℝ) - k - 1) := by positivity
  linarith

/-- BIC penalises at least as much as AIC exactly from eight observations on. -/
theorem C92_bic {ll : ℝ} {k n : ℕ} (h : k + 1 < n) (hk : 0 < k) {i : Info} (hi : getInformation ll k n = some i) :
    i.aic ≤ i.bic ↔ 8 ≤ n := by
  obtain ⟨j, hj, h1, -, h3, -⟩ := C92_criteria ll h
  obtain rfl : i = j := Option.some.inj (hi.symm.trans hj)
  have hk' : (0 : ℝ) < k := by exact_mod_cast hk
  have hn : (0 : ℝ) < n := by exact_mod_cast (show 0 < n by omega)
  have e : i.aic ≤ i.bic ↔ 2 ≤ log n := by
    rw [h1, h3]
    constructor
    · intro h
      have : (k : ℝ) * 2 ≤ k * log n := by linarith
      exact le_of_mul_le_mul_left this hk'
    · intro h
      have : (k : ℝ) * 2 ≤ k * log n := mul_le_mul_of_nonneg_left h hk'.le
      linarith
  rw [e, le_log_iff_exp_le hn]
  have e1 := exp_one_gt_d9
  have e2 := exp_one_lt_d9
  have e3 : exp 2 = exp 1 * exp 1 := by rw [← exp_add]; norm_num
  have l : (7.3 : ℝ) < exp 2 := by rw [e3]; nlinarith
  have u : exp 2 < (7.4 : ℝ) := by rw [e3]; nlinarith
  constructor
  · intro h
    by_contra h8
    have : n ≤ 7 := by omega
    have : (n : ℝ) ≤ 7 := by exact_mod_cast this
    linarith
  · intro h
    have : (8 : ℝ) ≤ n := by exact_mod_cast h
    linarith

/-- A larger model has the smaller AIC exactly when twice the gain in log-likelihood exceeds twice the number of extra
parameters. -/
theorem C92_compare {l0 l1 : ℝ} {k0 k1 n : ℕ} {i0 i1 : Info} (h0 : getInformation l0 k0 n = some i0)
    (h1 : getInformation l1 k1 n = some i1) :
    i1.aic < i0.aic ↔ 2 * ((k1 : ℝ) - k0) < (pseudoR2 l1 l0 k1 n).llr := by
  unfold getInformation at h0 h1
  simp only at h0 h1
  split at h0
  · cases h0
  split at h1
  · cases h1
  cases h0; cases h1
  simp only [pseudoR2]
  norm_num
  constructor <;> intro h <;> linarith

/-- With exactly one observation more than parameters the statistics raise. -/
theorem C92_raises (ll : ℝ) (k : ℕ) : getInformation ll k (k + 1) = none := by
  simp [getInformation]

/-- With fewer observations than that, the "corrected" criterion is below the uncorrected one. -/
theorem C92_aicc_violated : ∃ (ll : ℝ) (k n : ℕ) (i : Info), 0 < k ∧ 0 < n ∧ getInformation ll k n = some i ∧
    i.aicc < i.aic := by
  have h : ¬ ((2 : ℕ) : ℤ) - ((2 : ℕ) : ℤ) - 1 = 0 := by norm_num
  refine ⟨0, 2, 2, _, by norm_num, by norm_num, by unfold getInformation; exact if_neg h, ?_⟩
  norm_num

example : ∃ i, getInformation 3 2 10 = some i ∧ i.aic ≤ i.bic := by
  obtain ⟨i, hi, -⟩ := C92_criteria 3 (k := 2) (n := 10) (by norm_num)
  exact ⟨i, hi, (C92_bic (by norm_num) (by norm_num) hi).2 (by norm_num)⟩

/-! ## C93 -/

theorem lit1 : (1.0 : ℝ) = 1 := by norm_num

theorem lit2 : (2.0 : ℝ) = 2 := by norm_num


section
variable {l l0 : ℝ} {k n : ℕ}

/-- The likelihood-ratio statistic determines the statistics: textbook forms. -/
theorem C93_forms (hl : 0 < l) (hl0 : 0 < l0) (hn : 0 < n) :
    let r := pseudoR2 l l0 k n
    r.cs = 1 - exp (-(r.llr / n)) ∧ r.nk = r.cs / (1 - exp (-(2 * l0 / n))) ∧ r.mc = 1 - l / l0 ∧
      r.es = 1 - (l / l0) ^ (2 * l0 / n) ∧ r.an = r.llr / (r.llr + n) ∧
      (l ≤ l0 → r.vz = r.an / (2 * l0 / (2 * l0 + n))) := by
  have hn' : (0 : ℝ) < n := by exact_mod_cast hn
  refine ⟨?_, ?_, ?_, ?_, rfl, ?_⟩
  · simp only [pseudoR2]; congr 2; norm_num; ring
  · simp only [pseudoR2]; congr 3; norm_num; ring
  · simp only [pseudoR2]; norm_num
  · simp only [pseudoR2]
    rw [rpow_def_of_pos (div_pos hl hl0)]
    have : (1.0 : ℝ) - 2.0 * (l0 - l) / (2 * l0) = l / l0 := by field_simp; norm_num; ring
    rw [this]
    norm_num
    ring_nf
  · intro h
    simp only [pseudoR2]
    have : 0 < 2 * (l0 - l) + n := by linarith
    norm_num
    field_simp

private theorem exp_arg (hn : 0 < n) (x y : ℝ) : (2.0 : ℝ) / n * x ≤ 2.0 / n * y ↔ x ≤ y := by
  have hn' : (0 : ℝ) < n := by exact_mod_cast hn
  exact mul_le_mul_iff_right₀ (by positivity)

/-- For discrete data (`0 < l ≤ l0`) the unadjusted statistics are between zero and one. -/
theorem C93_range (hl : 0 < l) (h : l ≤ l0) (hn : 0 < n) :
    let r := pseudoR2 l l0 k n
    (0 ≤ r.cs ∧ r.cs < 1) ∧ (0 ≤ r.nk ∧ r.nk ≤ 1) ∧ (0 ≤ r.mc ∧ r.mc < 1) ∧ (0 ≤ r.es ∧ r.es < 1) ∧
      (0 ≤ r.an ∧ r.an < 1) ∧ (0 ≤ r.vz ∧ r.vz ≤ 1) ∧ r.cs ≤ r.nk ∧ r.an ≤ r.cs := by
  have hn' : (0 : ℝ) < n := by exact_mod_cast hn
  have hl0 : 0 < l0 := hl.trans_le h
  obtain ⟨fcs, fnk, fmc, fes, fan, fvz⟩ := C93_forms (k := k) hl hl0 hn
  have fvz := fvz h
  have hr : 0 ≤ (pseudoR2 l l0 k n).llr := by simp only [pseudoR2]; norm_num; linarith
  have hr' : (pseudoR2 l l0 k n).llr ≤ 2 * l0 := by simp only [pseudoR2]; norm_num; linarith
  intro r
  set x : ℝ := r.llr / n with hx
  have hx0 : 0 ≤ x := div_nonneg hr hn'.le
  have cs0 : 0 ≤ r.cs := by
    rw [show r.cs = _ from fcs, sub_nonneg]; exact exp_le_one_iff.2 (by linarith)
  have cs1 : r.cs < 1 := by
    rw [show r.cs = _ from fcs]; have := exp_pos (-(r.llr / n)); linarith
  have d0 : 0 < 1 - exp (-(2 * l0 / n)) := by
    rw [sub_pos, exp_lt_one_iff, neg_lt_zero]; positivity
  have d1 : 1 - exp (-(2 * l0 / n)) ≤ 1 := by have := exp_pos (-(2 * l0 / n)); linarith
  have csd : r.cs ≤ 1 - exp (-(2 * l0 / n)) := by
    rw [show r.cs = _ from fcs]
    have : exp (-(2 * l0 / n)) ≤ exp (-(r.llr / n)) := by
      refine exp_le_exp.2 (neg_le_neg ?_)
      exact (div_le_div_iff_of_pos_right hn').2 hr'
    linarith
  have q0 : 0 < l / l0 := div_pos hl hl0
  have q1 : l / l0 ≤ 1 := (div_le_one hl0).2 h
  have an0 : 0 ≤ r.an := by rw [show r.an = _ from fan]; exact div_nonneg hr (by linarith [hr])
  have ran : r.llr + n > 0 := by have : 0 ≤ r.llr := hr; linarith
  have an1 : r.an < 1 := by
    rw [show r.an = _ from fan]
    exact (div_lt_one ran).2 (by show r.llr < r.llr + n; linarith)
  have top : 0 < 2 * l0 / (2 * l0 + (n : ℝ)) := by positivity
  have anx : r.an = x / (1 + x) := by
    rw [show r.an = _ from fan, hx]
    show r.llr / (r.llr + n) = _
    have : (1 : ℝ) + r.llr / n = (r.llr + n) / n := by field_simp; ring
    rw [this, div_div_div_cancel_right₀ hn'.ne']
  refine ⟨⟨cs0, cs1⟩, ⟨?_, ?_⟩, ⟨?_, ?_⟩, ⟨?_, ?_⟩, ⟨an0, an1⟩, ⟨?_, ?_⟩, ?_, ?_⟩
  · rw [show r.nk = _ from fnk]; exact div_nonneg cs0 d0.le
  · rw [show r.nk = _ from fnk]; exact (div_le_one d0).2 csd
  · rw [show r.mc = _ from fmc]; linarith
  · rw [show r.mc = _ from fmc]; linarith
  · rw [show r.es = _ from fes, sub_nonneg]; exact rpow_le_one q0.le q1 (by positivity)
  · rw [show r.es = _ from fes]; have := rpow_pos_of_pos q0 (2 * l0 / n); linarith
  · rw [show r.vz = _ from fvz]; exact div_nonneg an0 top.le
  · rw [show r.vz = _ from fvz, div_le_one top]
    show r.an ≤ _
    rw [show r.an = _ from fan]
    show r.llr / (r.llr + n) ≤ _
    rw [div_le_div_iff₀ ran (by positivity)]
    have : r.llr ≤ 2 * l0 := hr'
    nlinarith
  · rw [show r.nk = _ from fnk]
    exact le_div_self cs0 d0 d1
  · rw [anx, show r.cs = _ from fcs]
    show x / (1 + x) ≤ 1 - exp (-x)
    have h1 : 1 + x ≤ exp x := by have := add_one_le_exp x; linarith
    have h2 : exp (-x) ≤ (1 + x)⁻¹ := by
      rw [exp_neg]; exact inv_anti₀ (by linarith) h1
    have h3 : x / (1 + x) = 1 - (1 + x)⁻¹ := by field_simp; ring
    rw [h3]; linarith

/-- A model no better than the null model scores zero on every unadjusted statistic. -/
theorem C93_null (hl0 : 0 < l0) (hn : 0 < n) :
    let r := pseudoR2 l0 l0 k n
    r.cs = 0 ∧ r.nk = 0 ∧ r.mc = 0 ∧ r.es = 0 ∧ r.an = 0 ∧ r.vz = 0 ∧ r.llr = 0 := by
  obtain ⟨-, -, -, fes, -, -⟩ := C93_forms (k := k) hl0 hl0 hn
  refine ⟨by simp [pseudoR2], by simp [pseudoR2], ?_, ?_, by simp [pseudoR2], by simp [pseudoR2], by simp [pseudoR2]⟩
  · simp only [pseudoR2]; rw [div_self hl0.ne']; norm_num
  · rw [fes, div_self hl0.ne', one_rpow, sub_self]

/-- A better fit (smaller `l`) never lowers any unadjusted statistic, and strictly raises the ratio. -/
theorem C93_mono {l' : ℝ} (hl' : 0 < l') (h' : l' < l) (h : l ≤ l0) (hn : 0 < n) :
    let r := pseudoR2 l l0 k n
    let s := pseudoR2 l' l0 k n
    r.llr < s.llr ∧ r.cs < s.cs ∧ r.nk < s.nk ∧ r.mc < s.mc ∧ r.es < s.es ∧ r.an < s.an ∧ r.vz < s.vz := by
  have hn' : (0 : ℝ) < n := by exact_mod_cast hn
  have hl : 0 < l := hl'.trans h'
  have hl0 : 0 < l0 := hl.trans_le h
  obtain ⟨fcs, fnk, fmc, fes, fan, fvz⟩ := C93_forms (k := k) hl hl0 hn
  obtain ⟨gcs, gnk, gmc, ges, gan, gvz⟩ := C93_forms (k := k) hl' hl0 hn
  intro r s
  have hr : 0 ≤ r.llr := by simp only [r, pseudoR2]; norm_num; linarith
  have hrs : r.llr < s.llr := by simp only [r, s, pseudoR2]; norm_num; linarith
  have hcs : r.cs < s.cs := by
    rw [show r.cs = _ from fcs, show s.cs = _ from gcs]
    have : exp (-(s.llr / n)) < exp (-(r.llr / n)) :=
      exp_lt_exp.2 (neg_lt_neg ((div_lt_div_iff_of_pos_right hn').2 hrs))
    show 1 - exp (-(r.llr / n)) < 1 - exp (-(s.llr / n))
    linarith
  have d0 : 0 < 1 - exp (-(2 * l0 / n)) := by
    rw [sub_pos, exp_lt_one_iff, neg_lt_zero]; positivity
  have han : r.an < s.an := by
    rw [show r.an = _ from fan, show s.an = _ from gan]
    show r.llr / (r.llr + n) < s.llr / (s.llr + n)
    rw [div_lt_div_iff₀ (by linarith) (by linarith)]
    nlinarith
  refine ⟨hrs, hcs, ?_, ?_, ?_, han, ?_⟩
  · rw [show r.nk = _ from fnk, show s.nk = _ from gnk]
    exact (div_lt_div_iff_of_pos_right d0).2 hcs
  · rw [show r.mc = _ from fmc, show s.mc = _ from gmc]
    have := (div_lt_div_iff_of_pos_right hl0).2 h'
    linarith
  · rw [show r.es = _ from fes, show s.es = _ from ges]
    have := rpow_lt_rpow (div_pos hl' hl0).le ((div_lt_div_iff_of_pos_right hl0).2 h')
      (by positivity : 0 < 2 * l0 / (n : ℝ))
    linarith
  · rw [show r.vz = _ from fvz h, show s.vz = _ from gvz (h'.le.trans h)]
    exact (div_lt_div_iff_of_pos_right (by positivity)).2 han

/-- What the adjusted statistics compute: the penalty enters with the sign of a log-likelihood. -/
theorem C93_adjusted_partial (hl0 : 0 < l0) (hk : (k : ℝ) < l) :
    let r := pseudoR2 l l0 k n
    r.mb = r.mc + k / l0 ∧ r.ea = 1 - ((l - k) / l0) ^ (2 * l0 / n) ∧
      (k = 0 → 0 < l → 0 < n → r.mb = r.mc ∧ r.ea = r.es) := by
  have e : (pseudoR2 l l0 k n).ea = 1 - ((l - k) / l0) ^ (2 * l0 / n) := by
    simp only [pseudoR2]
    have h1 : ((k : ℝ) - l) / -l0 = (l - k) / l0 := by rw [div_neg, ← neg_div]; ring_nf
    rw [h1, rpow_def_of_pos (div_pos (by linarith) hl0)]
    norm_num
    ring_nf
  refine ⟨?_, e, ?_⟩
  · simp only [pseudoR2, lit1]; field_simp; ring
  · rintro rfl hl hn
    obtain ⟨-, -, -, fes, -, -⟩ := C93_forms (k := 0) hl hl0 hn
    refine ⟨by simp [pseudoR2], ?_⟩
    rw [e, fes]; simp

/-- The adjusted statistics reward extra parameters: with the same fit, one more parameter raises both. -/
theorem C93_adjusted_violated : ∃ (l l0 : ℝ) (k n : ℕ), 0 < l ∧ l < l0 ∧ k + 1 < n ∧
    (pseudoR2 l l0 k n).mb < (pseudoR2 l l0 (k + 1) n).mb ∧ (pseudoR2 l l0 k n).ea < (pseudoR2 l l0 (k + 1) n).ea ∧
    (pseudoR2 l l0 k n).mc < (pseudoR2 l l0 k n).mb := by
  refine ⟨5, 10, 1, 20, by norm_num, by norm_num, by norm_num, ?_, ?_, ?_⟩
  · simp only [pseudoR2]; norm_num
  · obtain ⟨-, h1, -⟩ := C93_adjusted_partial (l := 5) (l0 := 10) (k := 1) (n := 20) (by norm_num) (by norm_num)
    obtain ⟨-, h2, -⟩ := C93_adjusted_partial (l := 5) (l0 := 10) (k := 2) (n := 20) (by norm_num) (by norm_num)
    rw [h1, show (1 : ℕ) + 1 = 2 from rfl, h2]
    norm_num
  · simp only [pseudoR2]; norm_num

/-- Given genuine log-likelihoods (minus what the models return), `_lr_test` returns the ratio reported with the
pseudo R-squared. -/
theorem C93_lr_partial (l l0 : ℝ) (k n : ℕ) : lrStat (-l) (-l0) = (pseudoR2 l l0 k n).llr ∧
    (l ≤ l0 → 0 ≤ lrStat (-l) (-l0)) := by
  refine ⟨by simp only [lrStat, pseudoR2, lit2]; ring, fun h => ?_⟩
  simp only [lrStat, lit2]; linarith

/-- `_lr_test` takes log-likelihoods: on the values the models return its statistic is minus the ratio reported by
`_get_pseudo_rsquared`, so it is negative for every better fitting model. -/
theorem C93_lr_violated : (∀ (l l0 : ℝ) (k n : ℕ), lrStat l l0 = -(pseudoR2 l l0 k n).llr) ∧
    ∃ l l0 : ℝ, l < l0 ∧ lrStat l l0 < 0 := by
  refine ⟨fun l l0 k n => ?_, 1, 2, by norm_num, ?_⟩
  · simp only [lrStat, pseudoR2, lit2]; ring
  · simp only [lrStat]; norm_num

end

example : (0 ≤ (pseudoR2 5 10 1 20).cs ∧ (pseudoR2 5 10 1 20).cs < 1) :=
  (C93_range (by norm_num) (by norm_num) (by norm_num)).1

end Verif.Like
