import Mathlib.Analysis.SpecialFunctions.Log.Deriv
import Mathlib.Analysis.Calculus.Deriv.Slope
import Mathlib.Analysis.Complex.ExponentialBounds
import Mathlib.Analysis.SpecialFunctions.ExpDeriv
import Verif.Eln.BinomProps
/-!
# C108: the outer loop of the binomial elastic net
-/
namespace Verif.Eln
open Verif.Func
variable {n p : ℕ} {X : ℕ → ℕ → ℝ} {y w z b : ℕ → ℝ} {la dla b0 : ℝ} {s : BSt}

/-- Spec: the penalised negative mean Bernoulli log-likelihood. -/
noncomputable def pObj (n p : ℕ) (X : ℕ → ℕ → ℝ) (y : ℕ → ℝ) (la dla : ℝ) (b : ℕ → ℝ) (b0 : ℝ) : ℝ :=
  -(∑ i ∈ Finset.range n, (y i * (b0 + ∑ j ∈ Finset.range p, X i j * b j) -
      Real.log (1 + Real.exp (b0 + ∑ j ∈ Finset.range p, X i j * b j)))) / n +
    (la * ∑ j ∈ Finset.range p, |b j| + dla / 2 * ∑ j ∈ Finset.range p, b j ^ 2)

theorem invLogit_pos (x : ℝ) : 0 < invLogit x := by unfold invLogit; positivity

theorem one_sub_invLogit (x : ℝ) : 1 - invLogit x = 1 / (Real.exp x + 1) := by
  have : Real.exp x + 1 ≠ 0 := by positivity
  unfold invLogit; field_simp; ring

theorem one_sub_invLogit_pos (x : ℝ) : 0 < 1 - invLogit x := by rw [one_sub_invLogit]; positivity

theorem bern_ll (y x : ℝ) : y * Real.log (invLogit x) + (1 - y) * Real.log (1 - invLogit x) =
    y * x - Real.log (1 + Real.exp x) := by
  have h : Real.exp x + 1 ≠ 0 := by positivity
  rw [one_sub_invLogit, invLogit, Real.log_div (Real.exp_pos x).ne' h, Real.log_div one_ne_zero h, Real.log_exp,
    Real.log_one, add_comm (1 : ℝ)]
  ring

/-- The logistic loss lies above its tangents. -/
theorem logistic_tangent (x0 x : ℝ) : Real.log (1 + Real.exp x0) + invLogit x0 * (x - x0) ≤ Real.log (1 + Real.exp x) := by
  have h0 : 0 < 1 + Real.exp x0 := by positivity
  have h1 : 0 < 1 + Real.exp x := by positivity
  rw [← Real.exp_le_exp, Real.exp_add, Real.exp_log h0, Real.exp_log h1]
  have hc := convexOn_exp.2 (Set.mem_univ 0) (Set.mem_univ (x - x0)) (one_sub_invLogit_pos x0).le (invLogit_pos x0).le
    (by ring)
  simp only [smul_eq_mul, mul_zero, zero_add, Real.exp_zero, mul_one] at hc
  calc (1 + Real.exp x0) * Real.exp (invLogit x0 * (x - x0))
      ≤ (1 + Real.exp x0) * (1 - invLogit x0 + invLogit x0 * Real.exp (x - x0)) := mul_le_mul_of_nonneg_left hc h0.le
    _ = 1 + Real.exp x := by
      rw [Real.exp_sub, one_sub_invLogit, invLogit, add_comm 1 (Real.exp x0)]
      have h2 := (Real.exp_pos x0).ne'
      have h3 : Real.exp x0 + 1 ≠ 0 := by positivity
      field_simp

/-- Subgradient conditions suffice for a global minimum. -/
theorem min_of_kkt (hn : 0 < n) (hdla : 0 ≤ dla) {b : ℕ → ℝ} {b0 : ℝ} {m : ℕ → ℝ}
    (hm : ∀ i, i < n → m i = invLogit (b0 + ∑ j ∈ Finset.range p, X i j * b j))
    (h0 : ∑ i ∈ Finset.range n, (y i - m i) = 0)
    (hk : ∀ j, j < p → ∀ c : ℝ, ((∑ i ∈ Finset.range n, (y i - m i) * X i j) / n - dla * b j) * (c - b j) ≤
      la * (|c| - |b j|)) (c : ℕ → ℝ) (c0 : ℝ) : pObj n p X y la dla b b0 ≤ pObj n p X y la dla c c0 := by
  have hn' : (0 : ℝ) < n := by exact_mod_cast hn
  have hs := Finset.sum_le_sum fun j hj => hk j (Finset.mem_range.1 hj) (c j)
  rw [← Finset.mul_sum, Finset.sum_sub_distrib] at hs
  have hlik : ∑ i ∈ Finset.range n, (y i * (c0 + ∑ j ∈ Finset.range p, X i j * c j) -
        Real.log (1 + Real.exp (c0 + ∑ j ∈ Finset.range p, X i j * c j))) ≤
      ∑ i ∈ Finset.range n, (y i * (b0 + ∑ j ∈ Finset.range p, X i j * b j) -
        Real.log (1 + Real.exp (b0 + ∑ j ∈ Finset.range p, X i j * b j))) +
      ∑ i ∈ Finset.range n, (y i - m i) * ((c0 - b0) + ∑ j ∈ Finset.range p, X i j * (c j - b j)) := by
    rw [← Finset.sum_add_distrib]
    refine Finset.sum_le_sum fun i hi => ?_
    have ht := logistic_tangent (b0 + ∑ j ∈ Finset.range p, X i j * b j) (c0 + ∑ j ∈ Finset.range p, X i j * c j)
    rw [← hm i (Finset.mem_range.1 hi)] at ht
    have : ∑ j ∈ Finset.range p, X i j * (c j - b j) =
        ∑ j ∈ Finset.range p, X i j * c j - ∑ j ∈ Finset.range p, X i j * b j := by
      rw [← Finset.sum_sub_distrib]; exact Finset.sum_congr rfl fun j _ => by ring
    rw [this]
    nlinarith
  have hlin : ∑ i ∈ Finset.range n, (y i - m i) * ((c0 - b0) + ∑ j ∈ Finset.range p, X i j * (c j - b j)) =
      n * ∑ j ∈ Finset.range p, (∑ i ∈ Finset.range n, (y i - m i) * X i j) / n * (c j - b j) := by
    have e1 : ∀ i ∈ Finset.range n, (y i - m i) * ((c0 - b0) + ∑ j ∈ Finset.range p, X i j * (c j - b j)) =
        (c0 - b0) * (y i - m i) + ∑ j ∈ Finset.range p, (y i - m i) * X i j * (c j - b j) := by
      intro i _
      rw [mul_add, Finset.mul_sum, mul_comm]
      congr 1
      exact Finset.sum_congr rfl fun j _ => by ring
    rw [Finset.sum_congr rfl e1, Finset.sum_add_distrib, ← Finset.mul_sum, h0, mul_zero, zero_add, Finset.sum_comm,
      Finset.mul_sum]
    refine Finset.sum_congr rfl fun j _ => ?_
    rw [← Finset.sum_mul]
    field_simp
  have hq : ∑ j ∈ Finset.range p, ((∑ i ∈ Finset.range n, (y i - m i) * X i j) / n - dla * b j) * (c j - b j) =
      ∑ j ∈ Finset.range p, (∑ i ∈ Finset.range n, (y i - m i) * X i j) / n * (c j - b j) -
        dla * ∑ j ∈ Finset.range p, b j * (c j - b j) := by
    rw [Finset.mul_sum, ← Finset.sum_sub_distrib]
    exact Finset.sum_congr rfl fun j _ => by ring
  have hsq : ∑ j ∈ Finset.range p, b j ^ 2 + 2 * ∑ j ∈ Finset.range p, b j * (c j - b j) ≤
      ∑ j ∈ Finset.range p, c j ^ 2 := by
    rw [Finset.mul_sum, ← Finset.sum_add_distrib]
    exact Finset.sum_le_sum fun j _ => by nlinarith [sq_nonneg (c j - b j)]
  rw [hq] at hs
  rw [hlin] at hlik
  unfold pObj
  generalize ∑ i ∈ Finset.range n, (y i * (c0 + ∑ j ∈ Finset.range p, X i j * c j) -
        Real.log (1 + Real.exp (c0 + ∑ j ∈ Finset.range p, X i j * c j))) = Lc at *
  generalize ∑ i ∈ Finset.range n, (y i * (b0 + ∑ j ∈ Finset.range p, X i j * b j) -
        Real.log (1 + Real.exp (b0 + ∑ j ∈ Finset.range p, X i j * b j))) = Lb at *
  generalize ∑ j ∈ Finset.range p, (∑ i ∈ Finset.range n, (y i - m i) * X i j) / n * (c j - b j) = G at *
  have h3 : -Lb / n ≤ -Lc / n + G := by
    rw [div_add' _ _ _ hn'.ne', div_le_div_iff_of_pos_right hn']
    linarith
  have h4 := mul_le_mul_of_nonneg_left hsq (div_nonneg hdla (by norm_num : (0 : ℝ) ≤ 2))
  linarith

theorem bfold_fixed : ∀ (L : List ℕ) (s : BSt), L.Nodup → NoRound n X w la dla L s →
    (L.foldl (bStep n X (fun i j => X i j ^ 2) w la dla) s).b = s.b →
    (∀ j ∈ L, s.b j = bNew n X w la dla s j) ∧ (L.foldl (bStep n X (fun i j => X i j ^ 2) w la dla) s).r = s.r
  | [], _, _, _, _ => ⟨by simp, rfl⟩
  | j :: L, s, hnd, hr, h => by
    have hkeep : ∀ (L : List ℕ) (s : BSt), j ∉ L →
        (L.foldl (bStep n X (fun i j => X i j ^ 2) w la dla) s).b j = s.b j := by
      intro L
      induction L with
      | nil => intro s _; rfl
      | cons k L ih =>
        intro s hk
        rw [List.foldl_cons, ih _ fun h => hk (by simp [h])]
        exact Function.update_of_ne (fun h => hk (by simp [h])) _ _
    rw [List.foldl_cons] at h ⊢
    have hnd' := List.nodup_cons.1 hnd
    have hj : s.b j = bNew n X w la dla s j := by
      have := congrFun h j
      rw [hkeep L _ hnd'.1, bstep_b s j hr.1, Function.update_self] at this
      exact this.symm
    have hb : (bStep n X (fun i j => X i j ^ 2) w la dla s j).b = s.b := by
      rw [bstep_b s j hr.1, ← hj, Function.update_eq_self]
    have hrr : (bStep n X (fun i j => X i j ^ 2) w la dla s j).r = s.r := by
      funext i; rw [bstep_r, hj]; ring
    obtain ⟨h1, h2⟩ := bfold_fixed L _ hnd'.2 hr.2 (h.trans hb.symm)
    refine ⟨fun k hk => ?_, h2.trans hrr⟩
    rcases List.mem_cons.1 hk with rfl | hk
    · exact hj
    · have := h1 k hk
      rwa [hb, bNew, hb, hrr, ← bNew] at this

/-- Where the loop stands still with every variable active, no linear predictor clipped and no coefficient rounded, the
coefficients are a global minimum of the penalised likelihood. -/
theorem C108_fixed_partial (a : BArgs) (hn : 0 < a.n) (hla : 0 ≤ a.la) (hdla : 0 ≤ a.dla) (hic : a.ic = 1) {b xv : ℕ → ℝ}
    {b0 : ℝ} (hclip : ∀ i, i < a.n → |linPred a.p a.X b b0 1 i| ≤ a.ub)
    (hD : ∀ j, j < a.p → 0 < curv a.n a.X (fun i => a.mu b b0 i * (1 - a.mu b b0 i)) j + a.dla)
    (hr : NoRound a.n a.X (fun i => a.mu b b0 i * (1 - a.mu b b0 i)) a.la a.dla (List.range a.p)
      ⟨b, b0, fun i => a.y i - a.mu b b0 i, fun _ => true, xv⟩)
    (hfb : (a.cycle b b0 (fun _ => true) xv).b = b) (hf0 : (a.cycle b b0 (fun _ => true) xv).b0 = b0) (c : ℕ → ℝ) (c0 : ℝ) :
    pObj a.n a.p a.X a.y a.la a.dla b b0 ≤ pObj a.n a.p a.X a.y a.la a.dla c c0 := by
  have hmu : ∀ i, i < a.n → a.mu b b0 i = invLogit (b0 + ∑ j ∈ Finset.range a.p, a.X i j * b j) := by
    intro i hi
    have h := abs_le.1 (hclip i hi)
    rw [BArgs.mu, hic, clipEta]
    simp only [if_neg (not_lt.2 h.1), if_neg (not_lt.2 h.2), gt_iff_lt]
    rw [linPred, mul_one, add_comm]
  have hfil : (List.range a.p).filter (fun _ => true) = List.range a.p := by simp
  simp only [BArgs.cycle, bCycle, hfil] at hfb hf0
  obtain ⟨h1, h2⟩ := bfold_fixed _ _ List.nodup_range hr hfb
  have hsum : ∑ i ∈ Finset.range a.n, (a.y i - a.mu b b0 i) = 0 := by
    simp only [bIntercept] at hf0
    rw [h2, bfold_b0] at hf0
    have hW : 0 < ∑ i ∈ Finset.range a.n, a.mu b b0 i * (1 - a.mu b b0 i) :=
      Finset.sum_pos (fun i hi => by
        rw [hmu i (Finset.mem_range.1 hi)]
        exact mul_pos (invLogit_pos _) (one_sub_invLogit_pos _)) ⟨0, Finset.mem_range.2 hn⟩
    have hd := add_eq_left.1 hf0
    exact (div_eq_zero_iff.1 hd).resolve_right hW.ne'
  refine min_of_kkt hn hdla hmu hsum (fun j hj c => ?_) c c0
  have hb := h1 j (List.mem_range.2 hj)
  simp only at hb
  have hs := soft_sub (u := (∑ i ∈ Finset.range a.n, (a.y i - a.mu b b0 i) * a.X i j) / a.n +
    curv a.n a.X (fun i => a.mu b b0 i * (1 - a.mu b b0 i)) j * b j) hla (hD j hj) c
  have hb' : softThreshold ((∑ i ∈ Finset.range a.n, (a.y i - a.mu b b0 i) * a.X i j) / a.n +
    curv a.n a.X (fun i => a.mu b b0 i * (1 - a.mu b b0 i)) j * b j) a.la /
      (curv a.n a.X (fun i => a.mu b b0 i * (1 - a.mu b b0 i)) j + a.dla) = b j := hb.symm
  rw [hb'] at hs
  refine le_trans (le_of_eq ?_) hs
  ring

/-- `binom_eval` returns the objective when given the linear predictor with its intercept. -/
theorem C108_eval (al lam : ℝ) : (binomEval n p y (fun i => b0 + ∑ j ∈ Finset.range p, X i j * b j) b al lam).2.2 =
    pObj n p X y (lam * al) (lam * (1 - al)) b b0 := by
  simp only [binomEval, pObj]
  rw [← Finset.sum_add_distrib, Finset.sum_congr rfl fun i _ => bern_ll _ _]
  ring

/-- `cv_binom_glmnet` leaves the intercept out: the validation values do not depend on it, although the likelihood does. -/
theorem C108_cv_violated : ∃ (y b : ℕ → ℝ) (b0 : ℝ), ∀ (X : ℕ → ℕ → ℝ),
    (cvEval 1 0 X y b b0 1 1).2.2 ≠ pObj 1 0 X y 1 0 b b0 := by
  refine ⟨fun _ => 0, fun _ => 0, 1, fun X h => ?_⟩
  have hz := C108_eval (n := 1) (p := 0) (X := X) (y := fun _ => 0) (b := fun _ => 0) (b0 := 0) 1 1
  simp only [zero_add] at hz
  rw [cvEval, hz] at h
  simp only [pObj, Finset.range_zero, Finset.sum_empty, Finset.range_one, Finset.sum_singleton] at h
  norm_num at h
  have h2 : Real.log 2 < Real.log (1 + Real.exp 1) := Real.log_lt_log (by norm_num) (by
    have := Real.add_one_lt_exp (one_ne_zero (α := ℝ)); linarith)
  linarith

/-- The recorded value is the mean deviance of the (clipped) linear predictor. -/
theorem C108_deviance (a : BArgs) (b : ℕ → ℝ) (b0 al lam : ℝ) : a.dev b b0 =
    (binomEval a.n a.p a.y (fun i => clipEta (-a.ub) a.ub (linPred a.p a.X b b0 a.ic i)) b al lam).1 := by
  simp only [BArgs.dev, binomEval, BArgs.mu, Finset.sum_add_distrib]
  rw [Finset.sum_congr rfl fun i (_ : i ∈ Finset.range a.n) =>
    mul_comm (Real.log (1 - invLogit (clipEta (-a.ub) a.ub (linPred a.p a.X b b0 a.ic i)))) (1 - a.y i)]
  ring

/-- One value is recorded for each iteration, at most as many as are allowed. -/
theorem C108_values (a : BArgs) (k : ℕ) (b : ℕ → ℝ) (b0 : ℝ) (acs : ℕ → Bool) (xv : ℕ → ℝ) (prev : Option ℝ) :
    (bLoop a k b b0 acs xv prev).2.2.2.length ≤ k ∧ (bLoop a k b b0 acs xv prev).2.2.2.head? = if k = 0 then none else some (a.dev b b0) := by
  induction k generalizing b b0 acs xv prev with
  | zero => exact ⟨le_rfl, rfl⟩
  | succ k ih =>
    simp only [bLoop, Nat.succ_ne_zero, if_false]
    split_ifs
    · exact ⟨by simp, rfl⟩
    · exact ⟨by simp, rfl⟩
    · exact ⟨by simpa using (ih _ _ _ _ _).1, rfl⟩
    · exact ⟨by simpa using (ih _ _ _ _ _).1, rfl⟩

/-- `nr_ent` changes nothing. -/
theorem C108_reentry (a : BArgs) (v : Bool) (k : ℕ) (b : ℕ → ℝ) (b0 : ℝ) (acs : ℕ → Bool) (xv : ℕ → ℝ) (prev : Option ℝ) :
    bLoop { a with nrEnt := v } k b b0 acs xv prev = bLoop a k b b0 acs xv prev := by
  induction k generalizing b b0 acs xv prev with
  | zero => rfl
  | succ k ih =>
    simp only [bLoop, ite_self]
    simp only [ih]
    rfl

/-- A variable that has left the active set never comes back, and its coefficient stays. -/
theorem C108_dropped (a : BArgs) (k : ℕ) (b : ℕ → ℝ) (b0 : ℝ) (acs : ℕ → Bool) (xv : ℕ → ℝ) (prev : Option ℝ) {j : ℕ}
    (hj : acs j = false) : (bLoop a k b b0 acs xv prev).1 j = b j ∧ (bLoop a k b b0 acs xv prev).2.2.1 j = false := by
  have hkeep : ∀ (w : ℕ → ℝ) (L : List ℕ) (s : BSt), j ∉ L → s.active j = false →
      (L.foldl (bStep a.n a.X (fun i j => a.X i j ^ 2) w a.la a.dla) s).b j = s.b j ∧
      (L.foldl (bStep a.n a.X (fun i j => a.X i j ^ 2) w a.la a.dla) s).active j = false := by
    intro w L
    induction L with
    | nil => intro s _ h; exact ⟨rfl, h⟩
    | cons k L ih =>
      intro s hk ha
      have hne : j ≠ k := fun h => hk (by simp [h])
      obtain ⟨h1, h2⟩ := ih (bStep a.n a.X (fun i j => a.X i j ^ 2) w a.la a.dla s k) (fun h => hk (by simp [h])) (by
        simp only [bStep]
        split_ifs
        · rw [Function.update_of_ne hne]; exact ha
        · exact ha)
      rw [List.foldl_cons]
      exact ⟨h1.trans (Function.update_of_ne hne _ _), h2⟩
  have hc : ∀ (b : ℕ → ℝ) (b0 : ℝ) (acs : ℕ → Bool) (xv : ℕ → ℝ), acs j = false →
      (a.cycle b b0 acs xv).b j = b j ∧ (a.cycle b b0 acs xv).active j = false := by
    intro b b0 acs xv hj
    exact hkeep _ _ ⟨b, b0, _, acs, xv⟩ (by simp [hj]) hj
  induction k generalizing b b0 acs xv prev with
  | zero => exact ⟨rfl, hj⟩
  | succ k ih =>
    obtain ⟨h1, h2⟩ := hc b b0 acs xv hj
    simp only [bLoop, ite_self]
    split_ifs
    · exact ⟨rfl, h2⟩
    · exact ⟨rfl, h2⟩
    · obtain ⟨h3, h4⟩ := ih (a.cycle b b0 acs xv).b (a.cycle b b0 acs xv).b0 _ (a.cycle b b0 acs xv).xv
        (some (a.dev b b0)) h2
      exact ⟨h3.trans h1, h4⟩

/-- The screening rule lets every variable through. -/
theorem C108_screen_violated {al lam lamMax : ℝ} (hal : 0 < al) (hl : lam < lamMax) (j : ℕ) :
    bScreen n p X y b al lam lamMax j := by
  have : 2 * al * (lam - lamMax) < 0 := mul_neg_of_pos_of_neg (by linarith) (by linarith)
  exact lt_of_lt_of_le this (abs_nonneg _)

/-- The loop can make the recorded deviance rise: there is no step control. -/
theorem C108_descent_violated : ∃ (a : BArgs) (b xv : ℕ → ℝ) (b0 : ℝ), a.la = 0 ∧ a.dla = 0 ∧
    a.dev b b0 < a.dev (a.cycle b b0 (fun _ => true) xv).b (a.cycle b b0 (fun _ => true) xv).b0 := by
  set t : ℝ := Real.log 19 with ht
  have het : Real.exp t = 19 := Real.exp_log (by norm_num)
  have ht0 : 0 < t := Real.log_pos (by norm_num)
  have ht1 : t < 4 := by
    have h1 : t < Real.log (2 ^ 5) := Real.log_lt_log (by norm_num) (by norm_num)
    rw [Real.log_pow] at h1
    have := Real.log_two_lt_d9
    norm_num at h1
    linarith
  let a : BArgs := ⟨2, 1, fun _ _ => 1, fun i => if i = 0 then 1 else 0, 0, 0, 0, 0, 20, 0, false⟩
  have hmu : ∀ (c : ℕ → ℝ) (c0 : ℝ) (i : ℕ), |c 0| ≤ 20 → a.mu c c0 i = invLogit (c 0) := by
    intro c c0 i hc
    have h := abs_le.1 hc
    have e : linPred a.p a.X c c0 a.ic i = c 0 := by simp [a, linPred]
    rw [BArgs.mu, e, clipEta]
    simp only [a, if_neg (not_lt.2 h.1), if_neg (not_lt.2 h.2), gt_iff_lt]
  have hdev : ∀ (c : ℕ → ℝ) (c0 : ℝ), |c 0| ≤ 20 → a.dev c c0 = 2 * Real.log (1 + Real.exp (c 0)) - c 0 := by
    intro c c0 hc
    have e := bern_ll 1 (c 0)
    have e' := bern_ll 0 (c 0)
    rw [BArgs.dev]
    simp only [hmu c c0 _ hc]
    simp only [a, Finset.sum_range_succ, Finset.sum_range_zero]
    norm_num at e e' ⊢
    rw [e'] 
    rw [e]
    ring
  have hm : invLogit t = 19 / 20 := by rw [invLogit, het]; norm_num
  have hc : (a.cycle (fun _ => t) 0 (fun _ => true) (fun _ => 0)).b 0 = t - 180 / 19 := by
    have hmt := fun i => hmu (fun _ => t) 0 i (by rw [abs_of_pos ht0]; linarith)
    simp only [BArgs.cycle, bCycle, bIntercept, hmt, hm]
    have hf : (List.range a.p).filter (fun _ => true) = [0] := by simp [a]
    rw [hf, List.foldl_cons, List.foldl_nil]
    have hb : bNew a.n a.X (fun _ => (19 / 20 : ℝ) * (1 - 19 / 20)) a.la a.dla
        ⟨fun _ => t, 0, fun i => a.y i - 19 / 20, fun _ => true, fun _ => 0⟩ 0 = t - 180 / 19 := by
      simp only [bNew, curv, a, Finset.sum_range_succ, Finset.sum_range_zero]
      norm_num
      have hneg : -(9 / 20) + 19 / 400 * t < 0 := by linarith
      rw [softThreshold, npSign, if_pos hneg, abs_of_neg hneg, sub_zero, max_eq_left (by linarith)]
      ring
    rw [bstep_b, hb, Function.update_self]
    intro h
    rw [hb, abs_of_neg (by linarith)] at h
    exfalso
    norm_num at h
    linarith
  refine ⟨a, fun _ => t, fun _ => 0, 0, rfl, rfl, ?_⟩
  rw [hdev _ _ (by rw [abs_of_pos ht0]; linarith), hdev _ _ (by rw [hc, abs_of_neg (by linarith)]; linarith), hc]
  have htan := logistic_tangent t (180 / 19 - t)
  rw [hm] at htan
  have hsym : Real.log (1 + Real.exp (t - 180 / 19)) = Real.log (1 + Real.exp (180 / 19 - t)) + (t - 180 / 19) := by
    have h1 : (1 + Real.exp (t - 180 / 19)) = (1 + Real.exp (180 / 19 - t)) * Real.exp (t - 180 / 19) := by
      rw [add_mul, one_mul, ← Real.exp_add, show (180 / 19 - t) + (t - 180 / 19) = 0 by ring, Real.exp_zero, add_comm]
    rw [h1, Real.log_mul (by positivity) (Real.exp_pos _).ne', Real.log_exp]
  rw [hsym]
  linarith

/-- The stopping rule looks at the coefficients only: the loop can stop in its first pass with the intercept moved by more
than `1.9`, and it then returns the new intercept with the old coefficients. -/
theorem C108_stop_violated : ∃ (a : BArgs) (b xv : ℕ → ℝ), a.btol = 1 / 10 ^ 4 ∧ ∀ k,
    let t := bLoop a (k + 1) b 0 (fun _ => true) xv none
    t.1 = b ∧ t.1 0 ≠ (a.cycle b 0 (fun _ => true) xv).b 0 ∧ t.2.1 = (a.cycle b 0 (fun _ => true) xv).b0 ∧ 1.9 < t.2.1 := by
  let a : BArgs := ⟨1, 1, fun _ _ => 1 / 100, fun _ => 1, 0, 1, 1 / 10 ^ 4, 0, 20, 1, false⟩
  have hmu : ∀ i, a.mu (fun _ => 0) 0 i = 1 / 2 := by
    intro i
    rw [BArgs.mu]
    simp only [a, linPred, clipEta, invLogit]
    norm_num
  have hb : bNew a.n a.X (fun _ => (1 / 2 : ℝ) * (1 - 1 / 2)) a.la a.dla
      ⟨fun _ => 0, 0, fun i => a.y i - 1 / 2, fun _ => true, fun _ => 0⟩ 0 = 200 / 40001 := by
    simp only [bNew, curv, a, softThreshold, npSign]
    norm_num
  have hf : (List.range a.p).filter (fun _ => true) = [0] := by simp [a]
  have hcy : a.cycle (fun _ => 0) 0 (fun _ => true) (fun _ => 0) = bIntercept a.n (fun _ => (1 / 2 : ℝ) * (1 - 1 / 2))
      (bStep a.n a.X (fun i j => a.X i j ^ 2) (fun _ => (1 / 2 : ℝ) * (1 - 1 / 2)) a.la a.dla
        ⟨fun _ => 0, 0, fun i => a.y i - 1 / 2, fun _ => true, fun _ => 0⟩ 0) := by
    simp only [BArgs.cycle, bCycle, hmu]
    rw [hf, List.foldl_cons, List.foldl_nil]
  have hcb : (a.cycle (fun _ => 0) 0 (fun _ => true) (fun _ => 0)).b 0 = 200 / 40001 := by
    rw [hcy]
    show (bStep a.n a.X (fun i j => a.X i j ^ 2) (fun _ => (1 / 2 : ℝ) * (1 - 1 / 2)) a.la a.dla
        ⟨fun _ => 0, 0, fun i => a.y i - 1 / 2, fun _ => true, fun _ => 0⟩ 0).b 0 = _
    rw [bstep_b, hb, Function.update_self]
    intro h
    rw [hb] at h
    norm_num at h
  have hcx : (a.cycle (fun _ => 0) 0 (fun _ => true) (fun _ => 0)).xv 0 = (200 / 40001) ^ 2 * (1 / 4 * (1 / 100) ^ 2) := by
    rw [hcy]
    simp only [bIntercept, bStep, Function.update_self]
    simp only [a, softThreshold, npSign]
    norm_num
  have hc0 : (a.cycle (fun _ => 0) 0 (fun _ => true) (fun _ => 0)).b0 = 2 - 2 / 40001 := by
    rw [hcy]
    simp only [bIntercept, bstep_r, hb]
    simp only [bStep, a]
    norm_num
  refine ⟨a, fun _ => 0, fun _ => 0, rfl, fun k => ?_⟩
  have hL : bLoop a (k + 1) (fun _ => 0) 0 (fun _ => true) (fun _ => 0) none =
      (fun _ => 0, (a.cycle (fun _ => 0) 0 (fun _ => true) (fun _ => 0)).b0,
        (a.cycle (fun _ => 0) 0 (fun _ => true) (fun _ => 0)).active, [a.dev (fun _ => 0) 0]) := by
    simp only [bLoop]
    refine if_pos fun j hj => ?_
    have hj0 : j = 0 := by simpa [a] using hj
    rw [hj0, hcx]
    simp only [a]
    norm_num
  simp only [hL, hcb, hc0]
  norm_num

/-! ## The start of the path -/

theorem deriv_of_min {h : ℝ → ℝ} {h' : ℝ} (hd : HasDerivAt h h' 0) (hm : ∀ t, h 0 ≤ h t + la * |t| + dla / 2 * t ^ 2) :
    |h'| ≤ la := by
  have hr := hd.hasDerivWithinAt (s := Set.Ioi 0)
  have hl := hd.hasDerivWithinAt (s := Set.Iio 0)
  rw [hasDerivWithinAt_iff_tendsto_slope' (by simp)] at hr hl
  have hcont : Filter.Tendsto (fun t : ℝ => dla / 2 * t) (nhds 0) (nhds 0) := by
    have : Continuous fun t : ℝ => dla / 2 * t := by fun_prop
    simpa using this.tendsto 0
  refine abs_le.2 ⟨?_, ?_⟩
  · have hg : Filter.Tendsto (fun t : ℝ => -la - dla / 2 * t) (nhdsWithin 0 (Set.Ioi 0)) (nhds (-la)) := by
      simpa using (hcont.const_sub (-la)).mono_left nhdsWithin_le_nhds
    refine le_of_tendsto_of_tendsto hg hr ?_
    filter_upwards [self_mem_nhdsWithin] with t ht
    have ht : 0 < t := ht
    rw [slope_def_field, sub_zero, le_div_iff₀ ht]
    have := hm t
    rw [abs_of_pos ht] at this
    nlinarith
  · have hg : Filter.Tendsto (fun t : ℝ => la - dla / 2 * t) (nhdsWithin 0 (Set.Iio 0)) (nhds la) := by
      simpa using (hcont.const_sub la).mono_left nhdsWithin_le_nhds
    refine le_of_tendsto_of_tendsto hl hg ?_
    filter_upwards [self_mem_nhdsWithin] with t ht
    have ht : t < 0 := ht
    rw [slope_def_field, sub_zero, div_le_iff_of_neg ht]
    have := hm t
    rw [abs_of_neg ht] at this
    nlinarith

theorem invLogit_logit {m : ℝ} (h0 : 0 < m) (h1 : m < 1) : invLogit (Real.log (m / (1 - m))) = m := by
  have h2 : 0 < 1 - m := by linarith
  rw [invLogit, Real.exp_log (div_pos h0 h2)]
  field_simp
  ring

/-- With both outcomes present, the zero coefficients are optimal (with the intercept `logit ȳ`) exactly when every
`|x_j'(y - ȳ)|/n` is at most `la`. -/
theorem C108_zero_optimal (hn : 0 < n) (hla : 0 ≤ la) (hdla : 0 ≤ dla) (h0 : 0 < mean n y) (h1 : mean n y < 1) :
    (∀ c c0, pObj n p X y la dla (fun _ => 0) (Real.log (mean n y / (1 - mean n y))) ≤ pObj n p X y la dla c c0) ↔
      ∀ j, j < p → |(∑ i ∈ Finset.range n, X i j * (y i - mean n y)) / n| ≤ la := by
  have hn' : (0 : ℝ) < n := by exact_mod_cast hn
  have hil := invLogit_logit h0 h1
  constructor
  · intro h j hj
    set L := Real.log (mean n y / (1 - mean n y)) with hL
    let g : ℝ → ℝ := fun t => -(∑ i ∈ Finset.range n, (y i * (L + X i j * t) - Real.log (1 + Real.exp (L + X i j * t)))) / n
    have hd : HasDerivAt g (-(∑ i ∈ Finset.range n, X i j * (y i - mean n y)) / n) 0 := by
      have hi : ∀ i ∈ Finset.range n, HasDerivAt (fun t => y i * (L + X i j * t) - Real.log (1 + Real.exp (L + X i j * t)))
          (X i j * (y i - mean n y)) 0 := by
        intro i _
        have e1 : HasDerivAt (fun t : ℝ => L + X i j * t) (X i j) 0 := by
          simpa using ((hasDerivAt_id (0 : ℝ)).const_mul (X i j)).const_add L
        have e2 := e1.exp.const_add 1
        have e3 := e2.log (by positivity)
        refine ((e1.const_mul (y i)).fun_sub e3).congr_deriv ?_
        rw [mul_zero, add_zero, ← hil, invLogit, add_comm 1 (Real.exp L)]
        have : Real.exp L + 1 ≠ 0 := by positivity
        field_simp
      exact ((HasDerivAt.fun_sum hi).fun_neg).div_const _
    have := deriv_of_min (la := la) (dla := dla) hd (fun t => by
      have ht := h (Function.update (fun _ => 0) j t) L
      have es : ∀ f : ℕ → ℝ → ℝ, (∀ k, f k 0 = 0) → ∑ k ∈ Finset.range p, f k (Function.update (fun _ => (0 : ℝ)) j t k) = f j t := by
        intro f hf
        rw [Finset.sum_eq_single_of_mem j (Finset.mem_range.2 hj)]
        · rw [Function.update_self]
        · intro k _ hk
          rw [Function.update_of_ne hk, hf]
      simp only [pObj] at ht
      have ex : ∀ i, ∑ k ∈ Finset.range p, X i k * Function.update (fun _ => (0 : ℝ)) j t k = X i j * t :=
        fun i => es (fun k v => X i k * v) (by simp)
      rw [es (fun _ v => |v|) (by simp), es (fun _ v => v ^ 2) (by simp)] at ht
      simp only [ex] at ht
      simp only [mul_zero, Finset.sum_const_zero, abs_zero, add_zero, ne_eq, OfNat.ofNat_ne_zero, not_false_eq_true,
        zero_pow] at ht
      simp only [g, mul_zero, add_zero]
      linarith)
    rwa [neg_div, abs_neg] at this
  · intro h c c0
    refine min_of_kkt (m := fun _ => mean n y) hn hdla (fun i _ => by simp [hil]) ?_ (fun j hj c => ?_) c c0
    · rw [Finset.sum_sub_distrib, Finset.sum_const, Finset.card_range, nsmul_eq_mul, mean]
      field_simp
      ring
    · have hj := h j hj
      have e : ∑ i ∈ Finset.range n, (y i - mean n y) * X i j = ∑ i ∈ Finset.range n, X i j * (y i - mean n y) :=
        Finset.sum_congr rfl fun i _ => mul_comm _ _
      rw [e]
      simp only [mul_zero, sub_zero, abs_zero]
      refine (le_abs_self _).trans ?_
      rw [abs_mul]
      exact mul_le_mul_of_nonneg_right hj (abs_nonneg _)

/-- For centred columns `lambda_max` is the smallest `λ` at which the zero coefficients are optimal. -/
theorem C108_lambda_max_partial {al L lam : ℝ} (hn : 0 < n) (hal : 0 < al) (hal1 : al ≤ 1) (hlam : 0 ≤ lam) (h0 : 0 < mean n y)
    (h1 : mean n y < 1) (hX : ∀ j, j < p → ∑ i ∈ Finset.range n, X i j = 0) (hL : bLambdaMax n p X y al = some L) :
    (∀ c c0, pObj n p X y (lam * al) (lam * (1 - al)) (fun _ => 0) (Real.log (mean n y / (1 - mean n y))) ≤
      pObj n p X y (lam * al) (lam * (1 - al)) c c0) ↔ L ≤ lam := by
  rw [C108_zero_optimal hn (mul_nonneg hlam hal.le) (mul_nonneg hlam (by linarith)) h0 h1]
  have e : ∀ j, j < p → ∀ c : ℝ, ∑ i ∈ Finset.range n, X i j * (y i - c) = ∑ i ∈ Finset.range n, X i j * y i := by
    intro j hj c
    have := hX j hj
    rw [Finset.sum_congr rfl fun i _ => mul_sub (X i j) (y i) c, Finset.sum_sub_distrib, ← Finset.sum_mul, this]
    ring
  unfold bLambdaMax at hL
  obtain ⟨M, hM, rfl⟩ := Option.map_eq_some_iff.1 hL
  rw [List.max?_eq_some_iff] at hM
  rw [div_le_iff₀ hal]
  constructor
  · intro h
    obtain ⟨j, hj, rfl⟩ := List.mem_map.1 hM.1
    have hj := List.mem_range.1 hj
    have := h j hj
    rwa [e j hj] at this ⊢
  · intro h j hj
    have := hM.2 _ (List.mem_map.2 ⟨j, List.mem_range.2 hj, rfl⟩)
    rw [e j hj] at this ⊢
    exact this.trans h

/-- Otherwise it is not, because `y - logit ȳ` stands for `y - ȳ`: here the zero coefficients are not optimal at
`lambda_max`. -/
theorem C108_lambda_max_violated : ∃ (X : ℕ → ℕ → ℝ) (y : ℕ → ℝ) (L : ℝ), bLambdaMax 2 1 X y 1 = some L ∧
    ¬ ∀ c c0, pObj 2 1 X y L 0 (fun _ => 0) (Real.log (mean 2 y / (1 - mean 2 y))) ≤ pObj 2 1 X y L 0 c c0 := by
  have hm : mean 2 (fun i : ℕ => if i = 0 then (1 : ℝ) else 0) = 1 / 2 := by
    simp only [mean, Finset.sum_range_succ, Finset.sum_range_zero]; norm_num
  refine ⟨fun i _ => if i = 0 then 1 else 4, fun i => if i = 0 then 1 else 0, 1 / 2, ?_, ?_⟩
  · rw [bLambdaMax, hm]
    norm_num [Finset.sum_range_succ, List.range_succ]
  · rw [C108_zero_optimal (by norm_num) (by norm_num) le_rfl (by rw [hm]; norm_num) (by rw [hm]; norm_num)]
    intro h
    have := h 0 one_pos
    rw [hm] at this
    norm_num [Finset.sum_range_succ, abs_le] at this

/-- The hypotheses of `C108_fixed_partial` can be met. -/
example : ∃ (a : BArgs) (b xv : ℕ → ℝ), 0 < a.n ∧ 0 ≤ a.la ∧ 0 ≤ a.dla ∧ a.ic = 1 ∧
    (∀ i, i < a.n → |linPred a.p a.X b 0 1 i| ≤ a.ub) ∧
    (∀ j, j < a.p → 0 < curv a.n a.X (fun i => a.mu b 0 i * (1 - a.mu b 0 i)) j + a.dla) ∧
    NoRound a.n a.X (fun i => a.mu b 0 i * (1 - a.mu b 0 i)) a.la a.dla (List.range a.p)
      ⟨b, 0, fun i => a.y i - a.mu b 0 i, fun _ => true, xv⟩ ∧
    (a.cycle b 0 (fun _ => true) xv).b = b ∧ (a.cycle b 0 (fun _ => true) xv).b0 = 0 := by
  let a : BArgs := ⟨2, 1, fun i _ => if i = 0 then 1 else -1, fun i => if i = 0 then 1 else 0, 1, 0, 0, 0, 20, 1, false⟩
  have hmu : ∀ i, a.mu (fun _ => 0) 0 i = 1 / 2 := by
    intro i
    rw [BArgs.mu]
    simp only [a, linPred, clipEta, invLogit]
    norm_num
  have hb : bNew a.n a.X (fun _ => (1 / 2 : ℝ) * (1 - 1 / 2)) a.la a.dla
      ⟨fun _ => 0, 0, fun i => a.y i - 1 / 2, fun _ => true, fun _ => 0⟩ 0 = 0 := by
    simp only [bNew, curv, a, softThreshold, npSign, Finset.sum_range_succ, Finset.sum_range_zero]
    norm_num
  have hl : List.range a.p = [0] := by simp [a]
  have hf : (List.range a.p).filter (fun _ => true) = [0] := by simp [a]
  have hcy : a.cycle (fun _ => 0) 0 (fun _ => true) (fun _ => 0) = bIntercept a.n (fun _ => (1 / 2 : ℝ) * (1 - 1 / 2))
      (bStep a.n a.X (fun i j => a.X i j ^ 2) (fun _ => (1 / 2 : ℝ) * (1 - 1 / 2)) a.la a.dla
        ⟨fun _ => 0, 0, fun i => a.y i - 1 / 2, fun _ => true, fun _ => 0⟩ 0) := by
    simp only [BArgs.cycle, bCycle, hmu]
    rw [hf, List.foldl_cons, List.foldl_nil]
  refine ⟨a, fun _ => 0, fun _ => 0, by simp [a], by simp [a], by simp [a], rfl, ?_, ?_, ?_, ?_, ?_⟩
  · intro i _
    simp [a, linPred]
  · intro j _
    simp only [hmu]
    simp only [curv, a, Finset.sum_range_succ, Finset.sum_range_zero]
    norm_num
  · simp only [hmu]
    rw [hl]
    exact ⟨fun _ => hb, trivial⟩
  · rw [hcy]
    show (bStep a.n a.X (fun i j => a.X i j ^ 2) (fun _ => (1 / 2 : ℝ) * (1 - 1 / 2)) a.la a.dla
        ⟨fun _ => 0, 0, fun i => a.y i - 1 / 2, fun _ => true, fun _ => 0⟩ 0).b = _
    rw [bstep_b _ _ fun _ => hb, hb]
    exact Function.update_eq_self _ _
  · rw [hcy]
    simp only [bIntercept, bstep_r, hb]
    simp only [bStep, a, Finset.sum_range_succ, Finset.sum_range_zero]
    norm_num

/-- Those of `C108_lambda_max_partial` can be met. -/
example : 0 < mean 2 (fun i : ℕ => if i = 0 then (1 : ℝ) else 0) ∧ mean 2 (fun i : ℕ => if i = 0 then (1 : ℝ) else 0) < 1 ∧
    (∀ j, j < 1 → ∑ i ∈ Finset.range 2, (fun i _ : ℕ => if i = 0 then (1 : ℝ) else -1) i j = 0) ∧
    bLambdaMax 2 1 (fun i _ => if i = 0 then 1 else -1) (fun i : ℕ => if i = 0 then (1 : ℝ) else 0) 1 = some (1 / 2) := by
  have hm : mean 2 (fun i : ℕ => if i = 0 then (1 : ℝ) else 0) = 1 / 2 := by
    simp only [mean, Finset.sum_range_succ, Finset.sum_range_zero]; norm_num
  rw [bLambdaMax, hm]
  norm_num [Finset.sum_range_succ, List.range_succ]

end Verif.Eln
