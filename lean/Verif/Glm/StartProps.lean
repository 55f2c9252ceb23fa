import Verif.Glm.Start
import Mathlib.Tactic

/-!
C262: starting values of generalised linear models.
-/

namespace Verif.Glm
open Finset

variable {n p : ℕ}

/-- **C262** For proportions the starting means lie strictly between zero and one, with the half added to the successes and to the failures. -/
theorem C262_binomial_interior (w y : Fin n → ℝ) (i : Fin n) (hw : 0 ≤ w i) (hy : 0 ≤ y i ∧ y i ≤ 1) :
    0 < startMu true w y i ∧ startMu true w y i < 1 ∧
      startMu true w y i * (w i + 1) = y i * w i + 1 / 2 ∧ (1 - startMu true w y i) * (w i + 1) = (1 - y i) * w i + 1 / 2 := by
  have hp : 0 < w i + 1 := by linarith
  have e : startMu true w y i * (w i + 1) = y i * w i + 1 / 2 := by
    simp only [startMu, if_true]; rw [div_mul_cancel₀ _ hp.ne']
  have e' : (1 - startMu true w y i) * (w i + 1) = (1 - y i) * w i + 1 / 2 := by rw [sub_mul, e]; ring
  refine ⟨?_, ?_, e, e'⟩
  · exact pos_of_mul_pos_left (by rw [e]; nlinarith [mul_nonneg hy.1 hw]) hp.le
  · have : 0 < 1 - startMu true w y i :=
      pos_of_mul_pos_left (by rw [e']; nlinarith [mul_nonneg (sub_nonneg.2 hy.2) hw]) hp.le
    linarith

/-- **C262** For the other families the starting mean is halfway between the response and the mean response; it is positive for nonnegative responses that
are not all zero, and the mean is kept. -/
theorem C262_midpoint (w y : Fin n → ℝ) (i : Fin n) :
    startMu false w y i = (y i + (∑ j, y j) / n) / 2 ∧ ((∀ j, 0 ≤ y j) → (∃ j, y j ≠ 0) → 0 < startMu false w y i) ∧
      (∑ j, startMu false w y j) / n = (∑ j, y j) / n := by
  have hn : (0 : ℝ) < n := by
    have : 0 < n := lt_of_le_of_lt (Nat.zero_le _) i.2
    exact_mod_cast this
  refine ⟨by simp [startMu], fun h0 ⟨j, hj⟩ => ?_, ?_⟩
  · have hs : 0 < ∑ j, y j := Finset.sum_pos' (fun j _ => h0 j) ⟨j, Finset.mem_univ j, lt_of_le_of_ne (h0 j) (Ne.symm hj)⟩
    have : 0 < (∑ j, y j) / n := div_pos hs hn
    simp only [startMu, Bool.false_eq_true, if_false]
    linarith [h0 i]
  · simp only [startMu, Bool.false_eq_true, if_false]
    rw [← Finset.sum_div, Finset.sum_add_distrib, Finset.sum_const, Finset.card_univ, Fintype.card_fin, nsmul_eq_mul]
    field_simp
    ring

/-- **C262** The weights are nonnegative for a nonnegative variance function, positive unless the variance or the derivative of the link is zero, and one
over the variance times the squared derivative where both are finite. -/
theorem C262_weights (dlink var : ℝ → Option ℝ) (mu : ℝ) :
    ((∀ v, var mu = some v → 0 ≤ v) → 0 ≤ startW dlink var mu) ∧
      (∀ v g, var mu = some v → dlink mu = some g → 0 < v → g ≠ 0 → startW dlink var mu = 1 / (v * g ^ 2) ∧ 0 < startW dlink var mu) := by
  constructor
  · intro h
    simp only [startW]
    split_ifs
    · exact le_rfl
    · have : 0 ≤ orOne (var mu) := by
        rcases hv : var mu with _ | v
        · simp [orOne]
        · simpa [orOne] using h v hv
      positivity
  · intro v g hv hg hv0 hg0
    have hd : v * g ^ 2 ≠ 0 := by positivity
    have e : startW dlink var mu = 1 / (v * g ^ 2) := by
      simp only [startW, hv, hg, orOne, Option.getD_some, if_neg hd]
    exact ⟨e, by rw [e]; positivity⟩

/-- **C262** Where variance and derivative are not finite the weight is one; a link that is not finite counts as one. -/
theorem C262_not_finite (link dlink var : ℝ → Option ℝ) (y mu : ℝ) (hl : link mu = none) (hg : dlink mu = none) (hv : var mu = none) :
    startW dlink var mu = 1 ∧ startZ false link dlink y mu = 1 ∧ startZ true link dlink y mu = 1 + (y - mu) := by
  simp [startW, startZ, orOne, hl, hg, hv]

/-- **C262** For proportions the start is a step of Fisher scoring from the starting means: the weighted difference of the predictors is balanced by the score. -/
theorem C262_scoring (link dlink var : ℝ → Option ℝ) (w y : Fin n → ℝ) (X : Fin n → Fin p → ℝ) (b : Fin p → ℝ)
    (eta g v : Fin n → ℝ) (hl : ∀ i, link (startMu true w y i) = some (eta i)) (hg : ∀ i, dlink (startMu true w y i) = some (g i))
    (hv : ∀ i, var (startMu true w y i) = some (v i)) (hg0 : ∀ i, g i ≠ 0) (hv0 : ∀ i, 0 < v i) :
    IsStart true link dlink var w y X b ↔
      ∀ k, ∑ i, X i k * ((∑ l, X i l * b l - eta i) / (v i * g i ^ 2)) = ∑ i, X i k * ((y i - startMu true w y i) / (v i * g i)) := by
  refine forall_congr' fun k => ?_
  rw [eq_comm, ← sub_eq_zero (a := ∑ i, X i k * ((∑ l, X i l * b l - eta i) / (v i * g i ^ 2))), ← Finset.sum_sub_distrib, eq_comm]
  have e : ∀ i, X i k * (startW dlink var (startMu true w y i) * (startZ true link dlink (y i) (startMu true w y i) - ∑ l, X i l * b l)) =
      -(X i k * ((∑ l, X i l * b l - eta i) / (v i * g i ^ 2)) - X i k * ((y i - startMu true w y i) / (v i * g i))) := fun i => by
    rw [((C262_weights dlink var _).2 _ _ (hv i) (hg i) (hv0 i) (hg0 i)).1]
    simp only [startZ, if_true, hl i, hg i, orOne, Option.getD_some]
    have h1 := hg0 i
    have h2 := (hv0 i).ne'
    field_simp
    ring
  simp only [e, Finset.sum_neg_distrib]
  constructor <;> intro h <;> linarith

/-- **C262** For the normal model the start is not least squares, which would be the solution: with coefficients `m` of the constant mean, it is
halfway between `m` and the least squares coefficients. -/
theorem C262_gaussian_half (w y : Fin n → ℝ) (X : Fin n → Fin p → ℝ) (b m : Fin p → ℝ) (hb : ∀ k, ∑ i, X i k * (y i - ∑ l, X i l * b l) = 0)
    (hm : ∀ i, ∑ l, X i l * m l = (∑ j, y j) / n) :
    IsStart false some (fun _ => some 1) (fun _ => some 1) w y X fun l => (b l + m l) / 2 := by
  intro k
  have e : ∀ i, X i k * (startW (fun _ => some 1) (fun _ => some 1) (startMu false w y i) *
      (startZ false some (fun _ => some 1) (y i) (startMu false w y i) - ∑ l, X i l * ((b l + m l) / 2))) = X i k * (y i - ∑ l, X i l * b l) / 2 := fun i => by
    have h1 : ∑ l, X i l * ((b l + m l) / 2) = (∑ l, X i l * b l + (∑ j, y j) / n) / 2 := by
      rw [← hm i, ← Finset.sum_add_distrib, Finset.sum_div]
      exact Finset.sum_congr rfl fun l _ => by ring
    rw [h1]
    simp only [startW, startZ, orOne, Option.getD_some, startMu, Bool.false_eq_true, if_false]
    norm_num
    ring
  simp only [e]
  rw [← Finset.sum_div, hb k, zero_div]

/-- **C262 (violated)** An instance: the points (0, 0) and (1, 2) have least squares slope two, and every start has slope one. -/
theorem C262_gaussian_violated (b : Fin 2 → ℝ)
    (h : IsStart false some (fun _ => some 1) (fun _ => some 1) (fun _ => 1) ![0, 2] ![![1, 0], ![1, 1]] b) : b 1 = 1 := by
  have h0 := h 0
  have h1 := h 1
  simp [startW, startZ, orOne, startMu, Fin.sum_univ_two] at h0 h1
  linarith

/-- **C262 (violated)** For counts that are all zero under the log link every weight is zero, so that every vector of coefficients solves the equations. -/
theorem C262_zero_violated (log : ℝ → Option ℝ) (dlog : ℝ → Option ℝ) (w : Fin n → ℝ) (X : Fin n → Fin p → ℝ) (b : Fin p → ℝ) :
    IsStart false log dlog some w (fun _ => 0) X b := by
  intro k
  refine Finset.sum_eq_zero fun i _ => ?_
  simp [startMu, startW, orOne]

/-- **C262** With the log link and variance proportional to the squared mean (gamma regression) all weights are the same, and multiplying the responses by a
constant adds its logarithm to every working response. -/
theorem C262_gamma (log : ℝ → ℝ) (hlog : ∀ a b, 0 < a → 0 < b → log (a * b) = log a + log b) (w y : Fin n → ℝ) (hy : ∀ i, 0 < y i) (c : ℝ) (hc : 0 < c)
    (i : Fin n) :
    startW (fun u => some (1 / u)) (fun u => some (u ^ 2)) (startMu false w y i) = 1 ∧
      startZ false (fun u => some (log u)) (fun u => some (1 / u)) (c * y i) (startMu false w (fun j => c * y j) i) =
        log c + startZ false (fun u => some (log u)) (fun u => some (1 / u)) (y i) (startMu false w y i) := by
  have hpos : 0 < startMu false w y i := (C262_midpoint w y i).2.1 (fun j => (hy j).le) ⟨i, (hy i).ne'⟩
  have hsc : startMu false w (fun j => c * y j) i = c * startMu false w y i := by
    simp only [startMu, Bool.false_eq_true, if_false, ← Finset.mul_sum]; ring
  constructor
  · rw [((C262_weights (fun u => some (1 / u)) (fun u => some (u ^ 2)) (startMu false w y i)).2 _ _ rfl rfl (by positivity) (by positivity)).1]
    field_simp
  · simp only [startZ, Bool.false_eq_true, if_false, orOne, Option.getD_some, hsc, hlog c _ hc hpos]

/-- The hypotheses of the halfway theorem are satisfiable. -/
example : (∀ k : Fin 2, ∑ i, (![![1, 0], ![1, 1]] : Fin 2 → Fin 2 → ℝ) i k * ((![0, 2] : Fin 2 → ℝ) i - ∑ l, (![![1, 0], ![1, 1]] : Fin 2 → Fin 2 → ℝ) i l * (![0, 2] : Fin 2 → ℝ) l) = 0) ∧
    ∀ i : Fin 2, ∑ l, (![![1, 0], ![1, 1]] : Fin 2 → Fin 2 → ℝ) i l * (![1, 0] : Fin 2 → ℝ) l = (∑ j, (![0, 2] : Fin 2 → ℝ) j) / (2 : ℕ) := by
  constructor <;> intro k <;> fin_cases k <;> simp [Fin.sum_univ_two]

end Verif.Glm
