import Verif.Robust.Simul
import Mathlib.Tactic

/-!
C261: simultaneous estimation of location and scale.
-/

namespace Verif.Robust
open Finset

variable {n : ℕ}

/-- **C261 (violated)** With the estimators of the module the function raises for all data. -/
theorem C261_own_violated (w : ℝ → ℝ) (d tol : ℝ) (iters : ℕ) (x : Fin n → ℝ) (start : ℝ × ℝ) :
    simulFit (simulOwn w) d tol iters x start = none ∧ simulHist (simulOwn w) d tol iters x start = none := ⟨rfl, rfl⟩

/-- **C261** The fixed points of a turn are the solutions of the estimating equations: the weighted residuals sum to zero and the weighted squares to `d * n`. -/
theorem C261_fixed (w sw : ℝ → ℝ) (d : ℝ) (hd : 0 < d) (hn : 0 < n) (x : Fin n → ℝ) (m s : ℝ) (hs : 0 < s)
    (hw : ∑ i, w ((x i - m) / s) ≠ 0) (hsw : ∀ t, 0 ≤ sw t) :
    simulStep w sw d x (m, s) = (m, s) ↔
      ∑ i, w ((x i - m) / s) * ((x i - m) / s) = 0 ∧ ∑ i, sw ((x i - m) / s) * ((x i - m) / s) ^ 2 = d * n := by
  have hdn : 0 < d * n := mul_pos hd (by exact_mod_cast hn)
  have h1 : (∑ i, w ((x i - m) / s) * x i) / (∑ i, w ((x i - m) / s)) = m ↔ ∑ i, w ((x i - m) / s) * ((x i - m) / s) = 0 := by
    rw [div_eq_iff hw]
    have e : ∑ i, w ((x i - m) / s) * ((x i - m) / s) = (∑ i, w ((x i - m) / s) * x i - m * ∑ i, w ((x i - m) / s)) / s := by
      rw [Finset.mul_sum, ← Finset.sum_sub_distrib, Finset.sum_div]
      exact Finset.sum_congr rfl fun i _ => by ring
    rw [e, div_eq_zero_iff]
    constructor
    · intro h; left; linarith
    · rintro (h | h)
      · linarith
      · exact absurd h hs.ne'
  have h2 : √(s ^ 2 / (d * n) * ∑ i, sw ((x i - m) / s) * ((x i - m) / s) ^ 2) = s ↔ ∑ i, sw ((x i - m) / s) * ((x i - m) / s) ^ 2 = d * n := by
    have hp : 0 ≤ ∑ i, sw ((x i - m) / s) * ((x i - m) / s) ^ 2 := Finset.sum_nonneg fun i _ => mul_nonneg (hsw _) (sq_nonneg _)
    rw [Real.sqrt_eq_iff_eq_sq (mul_nonneg (by positivity) hp) hs.le]
    have hs2 : s ^ 2 ≠ 0 := by positivity
    constructor
    · intro h
      rw [div_mul_eq_mul_div, div_eq_iff hdn.ne'] at h
      exact mul_left_cancel₀ hs2 h
    · intro h
      rw [h, div_mul_cancel₀ _ hdn.ne']
  simp only [simulStep, Prod.mk.injEq, h1, h2]

/-- **C261** With nonnegative weights the location stays within the range of the data. -/
theorem C261_range (w sw : ℝ → ℝ) (d : ℝ) (x : Fin n → ℝ) (s : ℝ × ℝ) (lo hi : ℝ) (hx : ∀ i, lo ≤ x i ∧ x i ≤ hi) (hw : ∀ t, 0 ≤ w t)
    (hpos : 0 < ∑ i, w ((x i - s.1) / s.2)) : lo ≤ (simulStep w sw d x s).1 ∧ (simulStep w sw d x s).1 ≤ hi := by
  simp only [simulStep]
  rw [le_div_iff₀ hpos, div_le_iff₀ hpos, Finset.mul_sum, Finset.mul_sum]
  constructor
  · exact Finset.sum_le_sum fun i _ => by nlinarith [hw ((x i - s.1) / s.2), (hx i).1]
  · exact Finset.sum_le_sum fun i _ => by nlinarith [hw ((x i - s.1) / s.2), (hx i).2]

/-- The map of states that goes with `x ↦ a + b * x`. -/
def simulMap (a b : ℝ) (s : ℝ × ℝ) : ℝ × ℝ := (a + b * s.1, b * s.2)

theorem simul_resid (a b : ℝ) (hb : 0 < b) (u m s : ℝ) : (a + b * u - (a + b * m)) / (b * s) = (u - m) / s := by
  rw [show a + b * u - (a + b * m) = b * (u - m) by ring, mul_div_mul_left _ _ hb.ne']

/-- **C261** One turn commutes with shifts and positive scalings. -/
theorem C261_equivariant_step (w sw : ℝ → ℝ) (d : ℝ) (x : Fin n → ℝ) (a b : ℝ) (hb : 0 < b) (s : ℝ × ℝ)
    (hw : ∑ i, w ((x i - s.1) / s.2) ≠ 0) :
    simulStep w sw d (fun i => a + b * x i) (simulMap a b s) = simulMap a b (simulStep w sw d x s) := by
  simp only [simulStep, simulMap, simul_resid a b hb, Prod.mk.injEq]
  constructor
  · rw [div_eq_iff hw, add_mul, mul_assoc, div_mul_cancel₀ _ hw, Finset.mul_sum, Finset.mul_sum, ← Finset.sum_add_distrib]
    exact Finset.sum_congr rfl fun i _ => by ring
  · rw [mul_pow, mul_div_assoc, mul_assoc, Real.sqrt_mul (sq_nonneg b), Real.sqrt_sq hb.le]

/-- **C261** The objective does not change under shifts and positive scalings. -/
theorem C261_equivariant_obj (rho : ℝ → ℝ) (x : Fin n → ℝ) (a b : ℝ) (hb : 0 < b) (s : ℝ × ℝ) :
    simulObj rho (fun i => a + b * x i) (simulMap a b s) = simulObj rho x s := by
  simp only [simulObj, simulMap, simul_resid a b hb]

/-- **C261** With positive weights the whole run commutes with shifts and positive scalings: the same number of turns, the same objectives, and the states
mapped. -/
theorem C261_equivariant (f : SimulMethods) (hw : ∀ t, 0 < f.weights t) (hn : 0 < n) (d tol : ℝ) (iters : ℕ) (x : Fin n → ℝ) (a b : ℝ) (hb : 0 < b)
    (start : ℝ × ℝ) :
    simulRun f d tol iters (fun i => a + b * x i) (simulMap a b start) =
      (simulRun f d tol iters x start).map (List.map fun e => (e.1, simulMap a b e.2)) := by
  have hne : ∀ s : ℝ × ℝ, ∑ i, f.weights ((x i - s.1) / s.2) ≠ 0 := fun s =>
    (Finset.sum_pos (fun i _ => hw _) ⟨⟨0, hn⟩, Finset.mem_univ _⟩).ne'
  have key : ∀ (rho sw : ℝ → ℝ) (f0 : ℝ) (k : ℕ) (s : ℝ × ℝ),
      simulLoop (simulStep f.weights sw d fun i => a + b * x i) (simulObj rho fun i => a + b * x i) f0 tol k (simulMap a b s) =
        (simulLoop (simulStep f.weights sw d x) (simulObj rho x) f0 tol k s).map fun e => (e.1, simulMap a b e.2) := by
    intro rho sw f0 k
    induction k with
    | zero => intro s; rfl
    | succ k ih =>
      intro s
      simp only [simulLoop, C261_equivariant_step f.weights sw d x a b hb s (hne s), C261_equivariant_obj rho x a b hb, List.map_cons]
      split_ifs
      · rfl
      · rw [ih]
  rcases f with ⟨_ | rho, w, _ | sw⟩
  · rfl
  · rfl
  · rfl
  · simp only [simulRun, Option.bind_some, C261_equivariant_obj rho x a b hb]
    split_ifs
    · rfl
    · rw [key rho sw]; rfl

/-- **C261** The `k`-th entry is the `k + 1`-th iterate with its objective. -/
theorem C261_iterates (step : ℝ × ℝ → ℝ × ℝ) (obj : ℝ × ℝ → ℝ) (f0 tol : ℝ) (m : ℕ) (s : ℝ × ℝ) (k : ℕ) (e : ℝ × ℝ × ℝ)
    (h : (simulLoop step obj f0 tol m s)[k]? = some e) : e = (obj (step^[k + 1] s), step^[k + 1] s) := by
  induction m generalizing s k with
  | zero => simp [simulLoop] at h
  | succ m ih =>
    cases k with
    | zero =>
      simp only [simulLoop, List.getElem?_cons_zero, Option.some.injEq] at h
      rw [← h]; rfl
    | succ k =>
      simp only [simulLoop, List.getElem?_cons_succ] at h
      split_ifs at h with hc
      · simp at h
      · rw [ih _ _ h, Function.iterate_succ_apply step (k + 1)]

/-- **C261** The loop makes at least one turn and at most the allowed number, and stops early only at an objective within the tolerance of the one at the
start. -/
theorem C261_stop (step : ℝ × ℝ → ℝ × ℝ) (obj : ℝ × ℝ → ℝ) (f0 tol : ℝ) (m : ℕ) (s : ℝ × ℝ) :
    (simulLoop step obj f0 tol m s).length ≤ m ∧ (0 < m → simulLoop step obj f0 tol m s ≠ []) ∧
      ((simulLoop step obj f0 tol m s).length < m → ∃ e, (simulLoop step obj f0 tol m s).getLast? = some e ∧ |e.1 - f0| < tol) := by
  induction m generalizing s with
  | zero => simp [simulLoop]
  | succ m ih =>
    obtain ⟨h1, h2, h3⟩ := ih (step s)
    simp only [simulLoop]
    split_ifs with hc
    · exact ⟨by simp, by simp, fun _ => ⟨_, rfl, hc⟩⟩
    · refine ⟨by simpa using h1, by simp, fun h => ?_⟩
      obtain ⟨e, he, ht⟩ := h3 (by simpa using h)
      refine ⟨e, ?_, ht⟩
      rw [List.getLast?_cons, he]; rfl

/-- Least squares as an estimator: loss `r^2 / 2`, unit weights. -/
noncomputable def simulLs : SimulMethods := ⟨some fun r => r ^ 2 / 2, fun _ => 1, some fun _ => 1⟩

/-- **C261 (violated)** The loop does not notice that it stands still: for the data minus one and one, from location zero and a scale other than one, the
first turn reaches the solution, the second leaves it unchanged, and yet all turns are made. -/
theorem C261_still_violated (s0 tol : ℝ) (hs : 0 < s0) (htol : tol ≤ |1 - 1 / s0 ^ 2|) (iters : ℕ) (hi : 0 < iters) :
    simulRun simulLs 1 tol iters ![-1, 1] (0, s0) = some (List.replicate iters (1, 0, 1)) := by
  have hst : ∀ s : ℝ, 0 < s → simulStep (fun _ => 1) (fun _ => 1) 1 ![-1, 1] (0, s) = (0, 1) := fun s h => by
    simp only [simulStep, Fin.sum_univ_two, Matrix.cons_val_zero, Matrix.cons_val_one, Prod.mk.injEq]
    constructor
    · norm_num
    · rw [show s ^ 2 / (1 * ((2 : ℕ) : ℝ)) * (1 * ((-1 - 0) / s) ^ 2 + 1 * ((1 - 0) / s) ^ 2) = 1 by field_simp; norm_num, Real.sqrt_one]
  have hobj : ∀ s : ℝ, 0 < s → simulObj (fun r => r ^ 2 / 2) ![-1, 1] (0, s) = 1 / s ^ 2 := fun s h => by
    simp only [simulObj, Fin.sum_univ_two, Matrix.cons_val_zero, Matrix.cons_val_one]
    field_simp; norm_num
  have hl : ∀ (k : ℕ) (s : ℝ), 0 < s → simulLoop (simulStep (fun _ => 1) (fun _ => 1) 1 ![-1, 1]) (simulObj (fun r => r ^ 2 / 2) ![-1, 1]) (1 / s0 ^ 2) tol k (0, s) =
      List.replicate k (1, 0, 1) := by
    intro k
    induction k with
    | zero => intro s _; rfl
    | succ k ih =>
      intro s h
      simp only [simulLoop, hst s h, hobj 1 one_pos]
      rw [if_neg (by norm_num; simpa using htol), ih 1 one_pos, List.replicate_succ]
      norm_num
  simp only [simulRun, simulLs, Option.bind_some, if_neg hi.ne', hobj s0 hs, hl iters s0 hs]

/-- **C261 (violated)** The loop may stop at a state that is no solution: for the data minus one, zero and four, from the median and a suitable scale, it
stops after one turn with a scale that is not that of least squares. -/
theorem C261_early_violated (s0 tol : ℝ) (hs : s0 ^ 2 = 289 / 42) (htol : 0 < tol) (iters : ℕ) :
    simulFit simulLs 1 tol (iters + 1) ![-1, 0, 4] (0, s0) = some (21 / 17, 1, √(17 / 3)) ∧
      simulStep (fun _ => 1) (fun _ => 1) 1 ![-1, 0, 4] (1, √(17 / 3)) ≠ (1, √(17 / 3)) := by
  have v2 : (![-1, 0, 4] : Fin 3 → ℝ) 2 = 4 := rfl
  have hs0 : s0 ≠ 0 := fun h => by rw [h] at hs; norm_num at hs
  have hq : √(17 / 3 : ℝ) ^ 2 = 17 / 3 := Real.sq_sqrt (by norm_num)
  have hq0 : √(17 / 3 : ℝ) ≠ 0 := fun h => by rw [h] at hq; norm_num at hq
  have hst : simulStep (fun _ => 1) (fun _ => 1) 1 ![-1, 0, 4] (0, s0) = (1, √(17 / 3)) := by
    simp only [simulStep, Fin.sum_univ_three, Matrix.cons_val_zero, Matrix.cons_val_one, v2, Prod.mk.injEq]
    constructor
    · norm_num
    · congr 1
      field_simp; norm_num
  have ho0 : simulObj (fun r => r ^ 2 / 2) ![-1, 0, 4] (0, s0) = 21 / 17 := by
    simp only [simulObj, Fin.sum_univ_three, Matrix.cons_val_zero, Matrix.cons_val_one, v2, div_pow, hs]
    norm_num
  have ho1 : simulObj (fun r => r ^ 2 / 2) ![-1, 0, 4] (1, √(17 / 3)) = 21 / 17 := by
    simp only [simulObj, Fin.sum_univ_three, Matrix.cons_val_zero, Matrix.cons_val_one, v2, div_pow, hq]
    norm_num
  constructor
  · simp only [simulFit, simulRun, simulLs, Option.bind_some, if_neg (Nat.succ_ne_zero iters), simulLoop, hst, ho0, ho1, sub_self, abs_zero, if_pos htol]
    rfl
  · intro h
    have h2 := congrArg Prod.snd h
    simp only [simulStep, Fin.sum_univ_three, Matrix.cons_val_zero, Matrix.cons_val_one, v2, div_pow, hq] at h2
    rw [Real.sqrt_inj (by norm_num) (by norm_num)] at h2
    norm_num at h2

/-- **C261 (violated)** The history leaves out the last turn: it has one entry fewer than there were turns, and none if the loop stops at once. -/
theorem C261_history_violated (f : SimulMethods) (d tol : ℝ) (iters : ℕ) (x : Fin n → ℝ) (start : ℝ × ℝ) (run : List (ℝ × ℝ × ℝ))
    (h : simulRun f d tol iters x start = some run) :
    ∃ e, simulFit f d tol iters x start = some e ∧ ∃ hist, simulHist f d tol iters x start = some hist ∧ run = hist ++ [e] := by
  have hne : run ≠ [] := by
    rcases f with ⟨_ | rho, w, _ | sw⟩
    · simp [simulRun] at h
    · simp [simulRun] at h
    · simp [simulRun] at h
    · simp only [simulRun, Option.bind_some] at h
      split_ifs at h with hi
      rw [← Option.some.inj h]
      exact (C261_stop _ _ _ _ _ _).2.1 (Nat.pos_of_ne_zero hi)
  refine ⟨run.getLast hne, ?_, run.dropLast, ?_, (List.dropLast_append_getLast hne).symm⟩
  · rw [simulFit, h, Option.bind_some, List.getLast?_eq_some_getLast hne]
  · rw [simulHist, h]; rfl

/-- The scale of the witness exists. -/
example : ∃ s : ℝ, 0 < s ∧ s ^ 2 = 289 / 42 := ⟨√(289 / 42), Real.sqrt_pos.2 (by norm_num), Real.sq_sqrt (by norm_num)⟩

/-- The hypotheses of the first witness are satisfiable. -/
example : (0 : ℝ) < 2 ∧ (1 / 1000000 : ℝ) ≤ |1 - 1 / 2 ^ 2| := by
  refine ⟨by norm_num, ?_⟩
  rw [abs_of_pos (by norm_num)]; norm_num

end Verif.Robust
