import Verif.Eln.Binom2Props
/-!
# C224: the path, the grid of penalties and the cross-validation of the second binomial elastic net
-/
namespace Verif.Eln
open Verif.Func
variable {n p : ℕ} {X : ℕ → ℕ → ℝ} {y : ℕ → ℝ}

/-- Spec: the solutions along the path, each started from the one before. -/
def warm {W : Type*} (fit : ℝ → W → W) (start : W) (lams : List ℝ) (i : ℕ) : W :=
  (lams.take i).foldl (fun v l => fit l v) start

theorem warm_succ {W : Type*} (fit : ℝ → W → W) (start : W) (lams : List ℝ) (i : ℕ) (hi : i < lams.length) :
    warm fit start lams (i + 1) = fit lams[i] (warm fit start lams i) := by
  unfold warm
  rw [List.take_succ_eq_append_getElem hi, List.foldl_append]
  rfl

theorem path_inv {W : Type*} (fit : ℝ → W → W) (zero start : W) (lams : List ℝ) (m : ℕ) (hm : m ≤ lams.length) :
    (((List.range lams.length).zip lams).take m).foldl (pathStep fit zero)
      (start :: List.replicate lams.length zero) =
    (List.range m).map (fun i => warm fit start lams (i + 1)) ++
      warm fit start lams m :: List.replicate (lams.length - m) zero := by
  induction m with
  | zero => simp [warm]
  | succ m ih =>
    have hl : m < lams.length := hm
    have hz : m < ((List.range lams.length).zip lams).length := by simpa using hl
    rw [List.take_succ_eq_append_getElem hz, List.foldl_append, ih hl.le]
    simp only [List.getElem_zip, List.getElem_range, List.foldl_cons, List.foldl_nil]
    have hlen : ((List.range m).map fun i => warm fit start lams (i + 1)).length = m := by simp
    unfold pathStep
    dsimp only
    generalize hP : (List.range m).map (fun i => warm fit start lams (i + 1)) = P at hlen
    have hr : (P ++ warm fit start lams m :: List.replicate (lams.length - m) zero).getD m zero =
        warm fit start lams m := by
      rw [List.getD_eq_getElem?_getD, List.getElem?_append_right (by omega), hlen]
      simp
    rw [hr, ← warm_succ fit start lams m hl, List.set_append_right _ _ (by omega), hlen, Nat.sub_self,
      List.set_cons_zero, List.set_append_right _ _ (by omega), hlen]
    have h1 : m + 1 - m = 1 := by omega
    have h2 : lams.length - m = (lams.length - (m + 1)) + 1 := by omega
    rw [h1, h2, List.replicate_succ, List.set_cons_succ, List.set_cons_zero, List.range_succ, List.map_append, hP]
    simp

/-- **C224.** What the path returns: row `i` holds the solution for the penalty after the `i`-th, and the
last two rows are equal. -/
theorem C224_rows {W : Type*} (fit : ℝ → W → W) (zero start : W) (lams : List ℝ) :
    pathBetas fit zero start lams =
      ((List.range lams.length).map fun i => warm fit start lams (i + 1)).tail ++
        (if lams = [] then [] else [warm fit start lams lams.length]) := by
  unfold pathBetas pathRows
  have h := path_inv fit zero start lams lams.length le_rfl
  have ht : ((List.range lams.length).zip lams).take lams.length = (List.range lams.length).zip lams :=
    List.take_of_length_le (by simp)
  rw [ht] at h
  rw [h]
  cases lams with
  | nil => simp
  | cons l ls =>
    simp only [List.length_cons, List.range_succ_eq_map, List.map_cons, List.cons_append, List.tail_cons,
      Nat.sub_self, List.replicate_zero]
    simp

/-- The row for a penalty is not its solution. -/
theorem C224_path_violated {W : Type*} (fit : ℝ → W → W) (zero start : W) (lams : List ℝ) (i : ℕ)
    (hi : i + 1 < lams.length) :
    (pathBetas fit zero start lams)[i]? = some (warm fit start lams (i + 2)) := by
  rw [C224_rows]
  have hl : i < (((List.range lams.length).map fun i => warm fit start lams (i + 1)).tail).length := by
    simp; omega
  rw [List.getElem?_append_left hl, List.getElem?_tail]
  simp [hi]

/-- It differs, for instance, when the solution is the penalty itself. -/
example : pathBetas (fun l _ => l) (0 : ℝ) 0 [2, 1] = [1, 1] := by
  simp [pathBetas, pathRows, pathStep, List.range_succ]

/-- **C224.** The last row is the solution for the last penalty, and there is one row for each penalty. -/
theorem C224_last_partial {W : Type*} (fit : ℝ → W → W) (zero start : W) (lams : List ℝ) (h : lams ≠ []) :
    (pathBetas fit zero start lams).getLast? = some (warm fit start lams lams.length) ∧
    (pathBetas fit zero start lams).length = lams.length := by
  rw [C224_rows, if_neg h]
  refine ⟨by simp, ?_⟩
  have : 0 < lams.length := List.length_pos_iff.2 h
  simp
  omega

/-! ## The grid of penalties -/

theorem logit_inv {m : ℝ} (h0 : 0 < m) (h1 : m < 1) : Real.exp (Real.log (m / (1 - m))) = m / (1 - m) :=
  Real.exp_log (div_pos h0 (by linarith))

theorem lamMax_entry {m r d : ℝ} (h0 : 0 < m) (h1 : m < 1) :
    r / (m * (1 - m)) * (Real.exp (Real.log (m / (1 - m))) / (1 + Real.exp (Real.log (m / (1 - m)))) ^ 2) * d = r * d := by
  have h2 : 1 - m ≠ 0 := by linarith
  have h3 : m ≠ 0 := h0.ne'
  rw [logit_inv h0 h1]
  have : 1 + m / (1 - m) = 1 / (1 - m) := by field_simp; ring
  rw [this]
  field_simp

/-- **C224.** At the largest penalty of the grid, computed from the columns that are fitted, the intercept
alone minimises the objective. -/
theorem C224_grid_partial (hn : 0 < n) {al lam lm : ℝ} (hal : 0 < al) (hal1 : al ≤ 1)
    (hm0 : 0 < (∑ i ∈ Finset.range n, y i) / n) (hm1 : (∑ i ∈ Finset.range n, y i) / n < 1)
    (hl : b2LambdaMax n p X y (fun _ => 1) al = some lm) (hle : lm ≤ lam) (c : ℕ → ℝ) (c0 : ℝ) :
    pObj n p X y (lam * al) (lam * (1 - al)) (fun _ => 0)
      (Real.log ((∑ i ∈ Finset.range n, y i) / n / (1 - (∑ i ∈ Finset.range n, y i) / n))) ≤
      pObj n p X y (lam * al) (lam * (1 - al)) c c0 := by
  have hn' : (0 : ℝ) < n := by exact_mod_cast hn
  unfold b2LambdaMax at hl
  simp only [Finset.sum_const, Finset.card_range, nsmul_eq_mul, mul_one, one_mul] at hl
  set m := (∑ i ∈ Finset.range n, y i) / n with hm
  rw [Option.map_eq_some_iff] at hl
  obtain ⟨a, ha, rfl⟩ := hl
  have hle' : a ≤ lam * al := (div_le_iff₀ hal).1 hle
  have hmem : ∀ j, j < p → |(∑ i ∈ Finset.range n, (y i - m) * X i j) / n| ≤ lam * al := by
    intro j hj
    refine le_trans ?_ hle'
    have hmax := (List.max?_eq_some_iff.1 ha).2
    refine hmax _ (List.mem_map.2 ⟨j, List.mem_range.2 hj, ?_⟩)
    congr 1
    rw [Finset.sum_div]
    refine Finset.sum_congr rfl fun i _ => ?_
    rw [lamMax_entry hm0 hm1]
    ring
  have hlam0 : 0 ≤ lam := by
    have : 0 ≤ lam * al := by
      have hpos : 0 ≤ a := by
        obtain ⟨hmem', _⟩ := List.max?_eq_some_iff.1 ha
        obtain ⟨j, _, rfl⟩ := List.mem_map.1 hmem'
        exact abs_nonneg _
      linarith
    exact nonneg_of_mul_nonneg_left this hal
  refine min_of_kkt hn (mul_nonneg hlam0 (by linarith)) (m := fun _ => m) (fun i _ => ?_) ?_ (fun j hj c => ?_) c c0
  · simp only [mul_zero, Finset.sum_const_zero, add_zero]
    exact (invLogit_logit hm0 hm1).symm
  · rw [Finset.sum_sub_distrib, Finset.sum_const, Finset.card_range, nsmul_eq_mul, hm]
    field_simp
    ring
  · simp only [mul_zero, sub_zero, abs_zero]
    calc _ ≤ |(∑ i ∈ Finset.range n, (y i - m) * X i j) / n * c| := le_abs_self _
      _ = |(∑ i ∈ Finset.range n, (y i - m) * X i j) / n| * |c| := abs_mul _ _
      _ ≤ _ := mul_le_mul_of_nonneg_right (hmem j hj) (abs_nonneg c)

/-- The columns of the example. -/
noncomputable def gridX (i _j : ℕ) : ℝ := if i = 0 then 0 else 1 / 2

/-- The responses of the example. -/
def gridY (i : ℕ) : ℝ := if i = 0 then 0 else 1

theorem gridStd (i : ℕ) : b2Std 2 gridX i 0 = if i = 0 then -1 else 1 := by
  have h : Real.sqrt ((∑ k ∈ Finset.range 2, (gridX k 0 - (∑ k ∈ Finset.range 2, gridX k 0) / (2 : ℕ)) ^ 2) / (2 : ℕ)) =
      1 / 4 := by
    have : (∑ k ∈ Finset.range 2, (gridX k 0 - (∑ k ∈ Finset.range 2, gridX k 0) / (2 : ℕ)) ^ 2) / (2 : ℕ) =
        ((1 / 4 : ℝ)) ^ 2 := by
      simp [Finset.sum_range_succ, gridX]
      norm_num
    rw [this, Real.sqrt_sq (by norm_num)]
  unfold b2Std
  dsimp only
  rw [h]
  simp only [Finset.sum_range_succ, Finset.range_zero, Finset.sum_empty, gridX]
  by_cases hi : i = 0
  · simp only [if_pos hi]; norm_num
  · simp only [if_neg hi]; norm_num

/-- The grid is computed from the raw columns, the fit uses standardised ones: the first penalty need not
exclude every variable, or lie where the first variable enters. -/
theorem C224_grid_violated :
    b2LambdaMax 2 1 gridX gridY (fun _ => 1) 1 = some (1 / 8) ∧
    b2LambdaMax 2 1 (b2Std 2 gridX) gridY (fun _ => 1) 1 = some (1 / 2) := by
  have e : ∀ (Z : ℕ → ℕ → ℝ), b2LambdaMax 2 1 Z gridY (fun _ => 1) 1 = some |(Z 1 0 - Z 0 0) / 4| := by
    intro Z
    unfold b2LambdaMax
    have hm : (∑ i ∈ Finset.range 2, (1 : ℝ) * gridY i) / ∑ i ∈ Finset.range 2, (1 : ℝ) = 1 / 2 := by
      simp [Finset.sum_range_succ, gridY]
    simp only [hm]
    have h1 : ∀ r d : ℝ, r / (1 / 2 * (1 - 1 / 2)) * (Real.exp (Real.log (1 / 2 / (1 - 1 / 2))) /
        (1 + Real.exp (Real.log (1 / 2 / (1 - 1 / 2)))) ^ 2) * d = r * d :=
      fun r d => lamMax_entry (by norm_num) (by norm_num)
    simp only [h1]
    have h2 : List.range 1 = [0] := rfl
    rw [h2]
    simp only [List.map_cons, List.map_nil, List.max?_singleton, Option.map_some, div_one]
    congr 2
    simp [Finset.sum_range_succ, gridY]
    ring
  rw [e, e, gridStd, gridStd]
  refine ⟨?_, ?_⟩ <;> congr 1 <;> simp [gridX] <;> norm_num [abs_of_pos]

/-- The observation weights given by the caller are replaced by ones. -/
theorem C224_weights_violated : ∃ wt : ℕ → ℝ, b2PathWeights wt ≠ wt :=
  ⟨fun _ => 2, fun h => by have := congrFun h 0; norm_num [b2PathWeights] at this⟩

/-- **C224.** On data with mean zero and unit variance in each column the validation predictor is that of the
model fitted; the standardisation does nothing. -/
theorem C224_cv_partial (b : ℕ → ℝ) (b0 : ℝ) (i : ℕ) (hm : ∀ j, j < p → ∑ k ∈ Finset.range n, X k j = 0)
    (hv : ∀ j, j < p → (∑ k ∈ Finset.range n, X k j ^ 2) / n = 1) :
    b2CvEta p X b b0 i = b2CvEta p (b2Std n X) b b0 i := by
  unfold b2CvEta
  congr 1
  refine Finset.sum_congr rfl fun j hj => ?_
  have hj' := Finset.mem_range.1 hj
  unfold b2Std
  dsimp only
  simp only [hm j hj', zero_div, sub_zero, hv j hj', Real.sqrt_one, div_one]

/-- In general the coefficients belong to the standardised columns but are applied to the raw ones. -/
theorem C224_cv_violated : ∃ (b : ℕ → ℝ), b2CvEta 1 gridX b 0 0 ≠ b2CvEta 1 (b2Std 2 gridX) b 0 0 := by
  refine ⟨fun _ => 1, ?_⟩
  unfold b2CvEta
  simp only [Finset.sum_range_one, gridStd]
  simp [gridX]

end Verif.Eln
