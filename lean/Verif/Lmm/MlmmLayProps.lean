import Verif.Lmm.Mlmm
import Mathlib.Tactic.Linarith
import Mathlib.Algebra.BigOperators.Intervals
/-!
# C201: the layout of the stacked data and the labels of `MLMM`
-/
namespace Verif.Lmm.Mlmm
open Finset
variable {k : ℕ}

theorem pos_div {o a : ℕ} (ha : a < k) : (o * k + a) / k = o := by
  rw [add_comm, Nat.add_mul_div_right _ _ (by omega), Nat.div_eq_of_lt ha, zero_add]

theorem pos_mod {o a : ℕ} (ha : a < k) : (o * k + a) % k = a := by
  rw [add_comm, Nat.add_mul_mod_self_right, Nat.mod_eq_of_lt ha]

/-- The entries of the stacked design and response: observation `o`, response `a`. -/
theorem C201_entries {o a x b : ℕ} (X y : ℕ → ℕ → ℝ) (ha : a < k) (hb : b < k) :
    kronI k X (o * k + a) (x * k + b) = (if a = b then X o x else 0) ∧ vecT k y (o * k + a) = y o a := by
  constructor
  · rw [kronI, pos_div ha, pos_div hb, pos_mod ha, pos_mod hb]
    split_ifs <;> simp
  · rw [vecT, pos_div ha, pos_mod ha]

theorem sum_blocks (p : ℕ) (f : ℕ → ℝ) : ∑ c ∈ range (p * k), f c = ∑ x ∈ range p, ∑ b ∈ range k, f (x * k + b) := by
  induction p with
  | zero => simp
  | succ p ih => rw [sum_range_succ, ← ih, Nat.succ_mul, sum_range_add]

/-- The linear predictor of a row is that of the univariate model of its response, with the coefficients `x * k + a`. -/
theorem C201_predictor {o a p : ℕ} (X : ℕ → ℕ → ℝ) (β : ℕ → ℝ) (ha : a < k) :
    ∑ c ∈ range (p * k), kronI k X (o * k + a) c * β c = ∑ x ∈ range p, X o x * β (x * k + a) := by
  rw [sum_blocks]
  refine sum_congr rfl fun x _ => ?_
  rw [sum_eq_single_of_mem a (mem_range.2 ha)]
  · rw [(C201_entries X X ha ha).1, if_pos rfl]
  · intro b hb hba
    rw [(C201_entries X X ha (mem_range.1 hb)).1, if_neg (fun h => hba h.symm), zero_mul]

/-- The rows given to a residual variance are those of its response. -/
theorem C201_rows {n a i : ℕ} (ha : a < k) : i ∈ rIdx k n a ↔ i < n ∧ i % k = a := by
  have hk : 0 < k := by omega
  simp only [rIdx, List.mem_map, List.mem_range]
  constructor
  · rintro ⟨t, ht, rfl⟩
    rw [add_comm, pos_mod ha]
    refine ⟨?_, rfl⟩
    rw [Nat.lt_iff_add_one_le, Nat.le_div_iff_mul_le hk, add_mul] at ht
    omega
  · rintro ⟨h1, h2⟩
    refine ⟨i / k, ?_, ?_⟩
    · rw [Nat.lt_iff_add_one_le, Nat.le_div_iff_mul_le hk, add_mul]
      have := Nat.div_add_mod i k
      rw [mul_comm] at this
      omega
    · have := Nat.div_add_mod i k
      rw [mul_comm] at this
      omega

theorem flat_get {α : Type} (f : ℕ → ℕ → α) (k p : ℕ) {a x : ℕ} (ha : a < k) (hx : x < p) :
    ((List.range k).flatMap fun a => (List.range p).map (f a))[a * p + x]? = some (f a x) := by
  induction k with
  | zero => omega
  | succ k ih =>
    have hl : ∀ k, ((List.range k).flatMap fun a => (List.range p).map (f a)).length = k * p := fun k => by
      induction k with
      | zero => simp
      | succ k ih => rw [List.range_succ, List.flatMap_append, List.length_append, ih]; simp [Nat.succ_mul]
    rw [List.range_succ, List.flatMap_append]
    rcases Nat.lt_or_ge a k with h | h
    · rw [List.getElem?_append_left, ih h]
      rw [hl]
      calc a * p + x < a * p + p := by omega
        _ = (a + 1) * p := by ring
        _ ≤ k * p := Nat.mul_le_mul_right _ h
    · have : a = k := by omega
      subst this
      rw [List.getElem?_append_right (by rw [hl]; omega), hl, Nat.add_sub_cancel_left]
      simp [hx]

/-- The name printed at a position. -/
theorem feNames_get {k p a x : ℕ} (ha : a < k) (hx : x < p) : (feNames k p)[a * p + x]? = some (a, x) :=
  flat_get (fun a x => (a, x)) k p ha hx

/-- With one response or one column every coefficient has the name of its response and its column. -/
theorem C201_names_partial {p a x : ℕ} (ha : a < k) (hx : x < p) (h : k = 1 ∨ p = 1) : (feNames k p)[x * k + a]? = some (a, x) := by
  rcases h with h | h
  · subst h
    have : a = 0 := by omega
    subst this
    have := feNames_get (k := 1) ha hx
    simpa using this
  · subst h
    have : x = 0 := by omega
    subst this
    have := feNames_get ha hx
    simpa using this

/-- With two or more responses and two or more columns the coefficient of the first column for the second response has the name of
the second column for the first response. -/
theorem C201_names_violated {p : ℕ} (hk : 2 ≤ k) (hp : 2 ≤ p) : (feNames k p)[0 * k + 1]? = some (0, 1) := by
  have := feNames_get (k := k) (p := p) (a := 0) (x := 1) (by omega) (by omega)
  simpa using this

/-- The response and the variable printed for a row of the covariance of a term. -/
theorem reLab_get {nv a x : ℕ} (ha : a < k) (hx : x < nv) : (reLab k nv)[a * nv + x]? = some (a, x) := by
  have h1 := flat_get (fun a _ => a) k nv ha hx
  have h2 := flat_get (fun _ x => x) k nv ha hx
  have e1 : ((List.range k).flatMap fun a => (List.range nv).map fun _ => a) = (List.range k).flatMap fun a => List.replicate nv a := by
    congr 1
    funext a
    simp [List.map_const']
  rw [e1] at h1
  simp only [List.map_id'] at h2
  rw [reLab, List.getElem?_zip_eq_some]
  exact ⟨h1, h2⟩

/-- With one response or one variable every row of the covariance of a term has the label of its response and variable. -/
theorem C201_labels_partial {nv a x : ℕ} (ha : a < k) (hx : x < nv) (h : k = 1 ∨ nv = 1) :
    (reLab k nv)[x * k + a]? = some (a, x) := by
  rcases h with h | h
  · subst h
    have : a = 0 := by omega
    subst this
    have := reLab_get (k := 1) ha hx
    simpa using this
  · subst h
    have : x = 0 := by omega
    subst this
    have := reLab_get ha hx
    simpa using this

/-- With two or more responses and two or more variables the intercept of the second response has the label of the second variable
of the first response. -/
theorem C201_labels_violated {nv : ℕ} (hk : 2 ≤ k) (hp : 2 ≤ nv) : (reLab k nv)[0 * k + 1]? = some (0, 1) := by
  have := reLab_get (k := k) (nv := nv) (a := 0) (x := 1) (by omega) (by omega)
  simpa using this

/-- The information criteria of a fit by maximum likelihood: minus twice the log likelihood plus the penalty of all parameters. -/
theorem C201_criteria (N p d : ℕ) (f : ℝ) :
    let ll := N * Real.log (2 * Real.pi) + f
    sumstats false N p d f = [ll, -ll / 2, ll + 2 * (p + d), ll + 2 * (p + d) * N / (N - (p + d) - 1), ll + (p + d) * Real.log N,
      ll + (p + d) * (Real.log N + 1)] := by
  simp only [sumstats, Bool.false_eq_true, if_false]
  congr 2
  ring

/-- Those of a restricted fit: the number of rows less that of the columns, and only the covariance parameters. -/
theorem C201_criteria_reml (N p d : ℕ) (f : ℝ) :
    let n : ℝ := N - p
    let ll := n * Real.log (2 * Real.pi) + f
    sumstats true N p d f = [ll, -ll / 2, ll + 2 * d, ll + 2 * d * n / (n - d - 1), ll + d * Real.log n,
      ll + d * (Real.log n + 1)] := by
  simp only [sumstats, if_true]
  congr 2
  ring

/-- The second order criterion is the first plus the usual correction. -/
theorem C201_aicc (ll d n : ℝ) (h : n - d - 1 ≠ 0) : ll + 2 * d * n / (n - d - 1) = ll + 2 * d + 2 * d * (d + 1) / (n - d - 1) := by
  rw [add_assoc]
  congr 1
  rw [eq_comm, ← sub_eq_zero]
  field_simp
  ring

/-- The first fit starts at residual variances 1. -/
theorem C201_start (k : ℕ) : startResid (initResid k).1 = List.replicate k 1 := by
  simp [startResid, initResid]

/-- `self.theta` does not hold the residual variances before a fit: they are 0. -/
theorem C201_theta_violated (k : ℕ) : (initResid k).1 = List.replicate k 0 ∧ (k ≠ 0 → (initResid k).1 ≠ List.replicate k 1) := by
  refine ⟨by simp [initResid], fun hk h => ?_⟩
  obtain ⟨k, rfl⟩ := Nat.exists_eq_succ_of_ne_zero hk
  simp [initResid, List.replicate_succ] at h

/-- A second fit does not start where the first one ended: every residual variance is larger. -/
theorem C201_refit_violated (x : List ℝ) (i : ℕ) (h : i < x.length) :
    (fitResid x)[i]'(by simpa [fitResid] using h) < (startResid (fitResid x))[i]'(by simpa [startResid, fitResid] using h) := by
  simp only [startResid, fitResid, List.getElem_map]
  have := Real.add_one_le_exp (Real.exp x[i])
  linarith

/-- The printed p value is one sided: half of the probability of a statistic as large in absolute value. -/
theorem C201_pvalue_violated {sf : ℝ → ℝ} (h : ∀ x, sf (-x) = 1 - sf x) (se : ℝ) : pval sf 0 se = 1 / 2 := by
  have := h 0
  rw [neg_zero] at this
  rw [pval, zero_div, abs_zero]
  linarith

end Verif.Lmm.Mlmm
