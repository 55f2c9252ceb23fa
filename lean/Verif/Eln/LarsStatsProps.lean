import Verif.Eln.LarsStats
import Mathlib.Analysis.Complex.ExponentialBounds
import Mathlib.Tactic

/-!
C255: the scaling of the data of the least angle path and the table of summary statistics of its rows.
-/

namespace Verif.Eln
open Finset

variable {n p : ℕ}

theorem lsMean_centre (hn : n ≠ 0) (v : Fin n → ℝ) : ∑ i, lsCentre v i = 0 := by
  have : (n : ℝ) ≠ 0 := Nat.cast_ne_zero.2 hn
  simp only [lsCentre, lsMean, Finset.sum_sub_distrib, Finset.sum_const, card_univ, Fintype.card_fin, nsmul_eq_mul]
  field_simp; ring

theorem lsVar_of_sum_zero (v : Fin n → ℝ) (h : ∑ i, v i = 0) : lsVar v = (∑ i, v i ^ 2) / n := by
  simp [lsVar, lsMean, h]

theorem lsVar_sq (hn : n ≠ 0) (v : Fin n → ℝ) : ∑ i, v i ^ 2 = n * lsVar v + n * lsMean v ^ 2 := by
  have hn' : (n : ℝ) ≠ 0 := Nat.cast_ne_zero.2 hn
  have hs : ∑ i, v i = n * lsMean v := by unfold lsMean; field_simp
  have h1 : n * lsVar v = ∑ i, (v i - lsMean v) ^ 2 := by unfold lsVar; field_simp
  rw [h1]
  have : ∀ i, (v i - lsMean v) ^ 2 = v i ^ 2 - 2 * lsMean v * v i + lsMean v ^ 2 := fun i => by ring
  simp only [this, Finset.sum_add_distrib, Finset.sum_sub_distrib, ← Finset.mul_sum, hs, Finset.sum_const, card_univ, Fintype.card_fin,
    nsmul_eq_mul]
  ring

/-- **C255** With an intercept every column of the design and the response sum to zero, whatever the scaling. -/
theorem C255_centred (hn : n ≠ 0) (nz st : Bool) (v : Fin n → ℝ) :
    ∑ i, lsColumn true nz st v i = 0 ∧ ∑ i, lsResponse true v i = 0 := by
  have h := lsMean_centre hn v
  refine ⟨?_, by simpa [lsResponse] using h⟩
  cases nz <;> cases st <;> simp [lsColumn, ← Finset.sum_div, h]

/-- **C255** With all three flags a column that is not constant gets unit length: the scaling the least angle path assumes. -/
theorem C255_unit (hn : n ≠ 0) (v : Fin n → ℝ) (hv : 0 < lsVar v) : ∑ i, lsColumn true true true v i ^ 2 = 1 := by
  have hn' : (0 : ℝ) < n := Nat.cast_pos.2 (Nat.pos_of_ne_zero hn)
  have hz := lsMean_centre hn v
  have e : lsVar (lsCentre v) = lsVar v := by rw [lsVar_of_sum_zero _ hz]; rfl
  have hs : ∑ i, lsCentre v i ^ 2 = n * lsVar v := by unfold lsVar lsCentre; field_simp
  simp only [lsColumn, if_true, e, div_pow, Real.sq_sqrt hv.le, Real.sq_sqrt hn'.le, ← Finset.sum_div, hs]
  field_simp

/-- **C255** One of the scalings alone: standardizing gives squared length `n`, normalizing the variance. -/
theorem C255_one (hn : n ≠ 0) (v : Fin n → ℝ) (hv : 0 < lsVar v) :
    ∑ i, lsColumn true false true v i ^ 2 = n ∧ ∑ i, lsColumn true true false v i ^ 2 = lsVar v := by
  have hn' : (0 : ℝ) < n := Nat.cast_pos.2 (Nat.pos_of_ne_zero hn)
  have hz := lsMean_centre hn v
  have e : lsVar (lsCentre v) = lsVar v := by rw [lsVar_of_sum_zero _ hz]; rfl
  have hs : ∑ i, lsCentre v i ^ 2 = n * lsVar v := by unfold lsVar lsCentre; field_simp
  constructor
  · simp only [lsColumn, if_true, Bool.false_eq_true, if_false, e, div_pow, Real.sq_sqrt hv.le, ← Finset.sum_div, hs]
    field_simp
  · simp only [lsColumn, if_true, Bool.false_eq_true, if_false, div_pow, Real.sq_sqrt hn'.le, ← Finset.sum_div, hs]
    field_simp

/-- **C255** Without an intercept the scaling divides by the standard deviation about the mean, so the squared length of the column is one plus
the squared mean over the variance. -/
theorem C255_unit_partial (hn : n ≠ 0) (v : Fin n → ℝ) (hv : 0 < lsVar v) :
    ∑ i, lsColumn false true true v i ^ 2 = 1 + lsMean v ^ 2 / lsVar v := by
  have hn' : (0 : ℝ) < n := Nat.cast_pos.2 (Nat.pos_of_ne_zero hn)
  simp only [lsColumn, if_true, div_pow, Real.sq_sqrt hv.le, Real.sq_sqrt hn'.le, ← Finset.sum_div, lsVar_sq hn, Bool.false_eq_true,
    if_false]
  field_simp

/-- **C255 (violated)** Two columns standardized without an intercept can have different lengths: (0, 2) and (1, 3) get squared lengths 2 and 5. -/
theorem C255_unit_violated : ∑ i, lsColumn false true true (![0, 2] : Fin 2 → ℝ) i ^ 2 = 2 ∧
    ∑ i, lsColumn false true true (![1, 3] : Fin 2 → ℝ) i ^ 2 = 5 := by
  constructor <;> rw [C255_unit_partial (by norm_num) _ (by norm_num [lsVar, lsMean, Fin.sum_univ_two])] <;>
    norm_num [lsVar, lsMean, Fin.sum_univ_two]

/-- **C255** The flags off leave the data alone. -/
theorem C255_plain (v : Fin n → ℝ) : lsColumn false false false v = v ∧ lsResponse false v = v := by
  simp [lsColumn, lsResponse]

/-- The excess of the residual sum of squares over the least one. -/
theorem lsSsr_normal (X : Fin n → Fin p → ℝ) (y : Fin n → ℝ) (b c : Fin p → ℝ) (h : LsNormal X y b) :
    lsSsr X y c = lsSsr X y b + ∑ i, (∑ j, X i j * (c j - b j)) ^ 2 := by
  have hx : ∑ i, (y i - ∑ k, X i k * b k) * ∑ j, X i j * (c j - b j) = 0 := by
    simp only [Finset.mul_sum]
    rw [Finset.sum_comm]
    refine Finset.sum_eq_zero fun j _ => ?_
    have := h j
    calc _ = (c j - b j) * ∑ i, X i j * (y i - ∑ k, X i k * b k) := by
            rw [Finset.mul_sum]; exact Finset.sum_congr rfl fun i _ => by ring
      _ = 0 := by rw [this, mul_zero]
  have e : ∀ i, (y i - ∑ j, X i j * c j) ^ 2 = (y i - ∑ j, X i j * b j) ^ 2 + (∑ j, X i j * (c j - b j)) ^ 2
      - 2 * ((y i - ∑ k, X i k * b k) * ∑ j, X i j * (c j - b j)) := fun i => by
    have : ∑ j, X i j * (c j - b j) = ∑ j, X i j * c j - ∑ j, X i j * b j := by simp [mul_sub]
    rw [this]; ring
  simp only [lsSsr, e, Finset.sum_sub_distrib, Finset.sum_add_distrib, ← Finset.mul_sum, hx]
  ring

/-- **C255** With the variance of the response and centred data `Rsq` is the coefficient of determination: zero for the empty row at the
start of the path, at most one for every row, and greatest, and not negative, for the least squares fit. -/
theorem C255_rsq_partial (hn : n ≠ 0) (X : Fin n → Fin p → ℝ) (y : Fin n → ℝ) (b last : Fin p → ℝ) (hy : ∑ i, y i = 0) (hv : 0 < lsVar y) :
    let s2 := lsS2 none .yvar X y b last
    lsRsq s2 X y (fun _ => 0) = 0 ∧ (∀ c, lsRsq s2 X y c = 1 - lsSsr X y c / ∑ i, y i ^ 2) ∧ (∀ c, lsRsq s2 X y c ≤ 1) ∧
      (LsNormal X y b → (∀ c, lsRsq s2 X y c ≤ lsRsq s2 X y b) ∧ 0 ≤ lsRsq s2 X y b) := by
  have hn' : (0 : ℝ) < n := Nat.cast_pos.2 (Nat.pos_of_ne_zero hn)
  have hs : lsVar y * n = ∑ i, y i ^ 2 := by rw [lsVar_of_sum_zero y hy]; field_simp
  have hp : 0 < lsVar y * n := mul_pos hv hn'
  have h0 : lsRsq (lsVar y) X y (fun _ => 0) = 0 := by
    have : lsSsr X y (fun _ => 0) = lsVar y * n := by rw [hs]; simp [lsSsr]
    rw [lsRsq, this, div_self hp.ne', sub_self]
  have hmax : LsNormal X y b → ∀ c, lsRsq (lsVar y) X y c ≤ lsRsq (lsVar y) X y b := fun h c => by
    have e := lsSsr_normal X y b c h
    have : 0 ≤ ∑ i, (∑ j, X i j * (c j - b j)) ^ 2 := Finset.sum_nonneg fun i _ => sq_nonneg _
    exact sub_le_sub_left (div_le_div_of_nonneg_right (by linarith) hp.le) 1
  refine ⟨h0, fun c => ?_, fun c => ?_, fun h => ⟨hmax h, ?_⟩⟩
  · simp only [lsS2, lsRsq, hs]
  · have : 0 ≤ lsSsr X y c := Finset.sum_nonneg fun i _ => sq_nonneg _
    have := div_nonneg this hp.le
    simp only [lsS2, lsRsq]; linarith
  · have := hmax h (fun _ => 0)
    rw [h0] at this; exact this

/-- **C255 (violated)** For a response that is not centred `Rsq` is negative at the start of the path: minus the squared mean over the
variance. -/
theorem C255_rsq_violated (hn : n ≠ 0) (X : Fin n → Fin p → ℝ) (y : Fin n → ℝ) (b last : Fin p → ℝ) (hv : 0 < lsVar y) :
    lsRsq (lsS2 none .yvar X y b last) X y (fun _ => 0) = -(lsMean y ^ 2 / lsVar y) := by
  have hn' : (0 : ℝ) < n := Nat.cast_pos.2 (Nat.pos_of_ne_zero hn)
  have : lsSsr X y (fun _ => 0) = n * lsVar y + n * lsMean y ^ 2 := by rw [← lsVar_sq hn]; simp [lsSsr]
  simp only [lsS2, lsRsq, this]
  field_simp; ring

/-- **C255 (violated)** With `s2_method="ols"` `Rsq` is no coefficient of determination: it is zero for the least squares fit itself and at most
zero for every row of the path, below zero when the row fits worse. -/
theorem C255_ols_violated (hn : n ≠ 0) (X : Fin n → Fin p → ℝ) (y : Fin n → ℝ) (b last : Fin p → ℝ) (h : LsNormal X y b)
    (hs : 0 < lsSsr X y b) : let s2 := lsS2 none .ols X y b last
    lsRsq s2 X y b = 0 ∧ (∀ c, lsRsq s2 X y c ≤ 0) ∧ ∀ c, lsSsr X y b < lsSsr X y c → lsRsq s2 X y c < 0 := by
  have hn' : (0 : ℝ) < n := Nat.cast_pos.2 (Nat.pos_of_ne_zero hn)
  have e : lsSsr X y b / n * n = lsSsr X y b := by field_simp
  refine ⟨?_, fun c => ?_, fun c hc => ?_⟩
  · simp only [lsS2, lsRsq, e, div_self hs.ne', sub_self]
  · have e2 := lsSsr_normal X y b c h
    have : 0 ≤ ∑ i, (∑ j, X i j * (c j - b j)) ^ 2 := Finset.sum_nonneg fun i _ => sq_nonneg _
    have : 1 ≤ lsSsr X y c / lsSsr X y b := (one_le_div hs).2 (by linarith)
    simp only [lsS2, lsRsq, e]; linarith
  · have : 1 < lsSsr X y c / lsSsr X y b := (one_lt_div hs).2 hc
    simp only [lsS2, lsRsq, e]; linarith

/-- **C255 (violated)** With any other method the variance is the residual sum of squares over the number of nonzero coefficients, in place of
the number of observations less it: `Rsq` of the last row is one minus the number of its coefficients over the number of observations,
whatever the data. -/
theorem C255_other_violated (hn : n ≠ 0) (X : Fin n → Fin p → ℝ) (y : Fin n → ℝ) (b last : Fin p → ℝ) (hs : 0 < lsSsr X y last)
    (hd : 0 < lsDf last) : lsRsq (lsS2 none .other X y b last) X y last = 1 - lsDf last / n := by
  have hn' : (0 : ℝ) < n := Nat.cast_pos.2 (Nat.pos_of_ne_zero hn)
  have hd' : (0 : ℝ) < lsDf last := Nat.cast_pos.2 hd
  simp only [lsS2, lsRsq]
  field_simp

/-- **C255** A variance that is given is used, whatever the method. -/
theorem C255_given (s : ℝ) (m : S2Method) (X : Fin n → Fin p → ℝ) (y : Fin n → ℝ) (b last : Fin p → ℝ) : lsS2 (some s) m X y b last = s := by
  cases m <;> rfl

/-- **C255** A row is preferred by the first criterion to another exactly when the fall of the residual sum of squares exceeds twice the variance
for each coefficient added, by the second when it exceeds the log of the number of observations. -/
theorem C255_criteria (s2 : ℝ) (h : 0 < s2) (X : Fin n → Fin p → ℝ) (y : Fin n → ℝ) (b c : Fin p → ℝ) :
    (lsAic s2 X y c < lsAic s2 X y b ↔ 2 * s2 * ((lsDf c : ℝ) - lsDf b) < lsSsr X y b - lsSsr X y c) ∧
      (lsBic s2 X y c < lsBic s2 X y b ↔ Real.log n * s2 * ((lsDf c : ℝ) - lsDf b) < lsSsr X y b - lsSsr X y c) := by
  have key : ∀ k : ℝ, (lsSsr X y c / s2 + k * lsDf c < lsSsr X y b / s2 + k * lsDf b ↔
      k * s2 * ((lsDf c : ℝ) - lsDf b) < lsSsr X y b - lsSsr X y c) := fun k => by
    rw [← sub_pos, ← sub_pos (b := k * s2 * _)]
    have : lsSsr X y b - lsSsr X y c - k * s2 * ((lsDf c : ℝ) - lsDf b) =
        s2 * (lsSsr X y b / s2 + k * lsDf b - (lsSsr X y c / s2 + k * lsDf c)) := by field_simp; ring
    rw [this, mul_pos_iff_of_pos_left h]
  exact ⟨key 2, key _⟩

/-- **C255** From eight observations on the second criterion asks at least as much of a further coefficient as the first, and up to seven less. -/
theorem C255_penalty (s2 : ℝ) (X : Fin n → Fin p → ℝ) (y : Fin n → ℝ) (b : Fin p → ℝ) :
    lsBic s2 X y b - lsAic s2 X y b = (Real.log n - 2) * lsDf b ∧ (8 ≤ n → 2 < Real.log n) ∧ (1 ≤ n → n ≤ 7 → Real.log n < 2) := by
  have he : Real.exp 2 = Real.exp 1 * Real.exp 1 := by rw [← Real.exp_add]; norm_num
  have h1 := Real.exp_one_lt_d9
  have h2 := Real.exp_one_gt_d9
  refine ⟨by unfold lsBic lsAic; ring, fun h => ?_, fun h h' => ?_⟩
  · have h8 : (8 : ℝ) ≤ n := by exact_mod_cast h
    rw [Real.lt_log_iff_exp_lt (by linarith), he]
    nlinarith
  · have h7 : (n : ℝ) ≤ 7 := by exact_mod_cast h'
    have h0 : (1 : ℝ) ≤ n := by exact_mod_cast h
    rw [Real.log_lt_iff_lt_exp (by linarith), he]
    nlinarith

/-- **C255** The empty row has no degrees of freedom, and the count never exceeds the number of variables. -/
theorem C255_df (b : Fin p → ℝ) : lsDf (fun _ : Fin p => (0 : ℝ)) = 0 ∧ lsDf b ≤ p ∧ (lsDf b = 0 ↔ b = fun _ => 0) ∧
    ((∀ j, b j ≠ 0) → lsDf b = p) := by
  classical
  refine ⟨by simp [lsDf], ?_, ?_, fun h => ?_⟩
  · unfold lsDf
    refine (Finset.card_filter_le _ _).trans ?_
    simp
  · unfold lsDf
    rw [Finset.card_eq_zero, Finset.filter_eq_empty_iff]
    simp [funext_iff]
  · unfold lsDf
    rw [Finset.filter_true_of_mem fun j _ => h j]; simp

/-- The hypotheses are satisfiable: a centred response with one centred variable and its least squares coefficient. -/
example : let X : Fin 3 → Fin 1 → ℝ := fun i _ => ![-1, 0, 1] i
    let y : Fin 3 → ℝ := ![-2, 1, 1]
    ∑ i, y i = 0 ∧ 0 < lsVar y ∧ LsNormal X y (fun _ => 3 / 2) ∧ 0 < lsSsr X y (fun _ => 3 / 2) := by
  have h1 : (![-1, 0, 1] : Fin 3 → ℝ) 2 = 1 := rfl
  have h2 : (![-2, 1, 1] : Fin 3 → ℝ) 2 = 1 := rfl
  refine ⟨by norm_num [Fin.sum_univ_three, h2], by norm_num [lsVar, lsMean, Fin.sum_univ_three, h2],
    fun j => by norm_num [Fin.sum_univ_three, h1, h2], by norm_num [lsSsr, Fin.sum_univ_three, h1, h2]⟩

end Verif.Eln
