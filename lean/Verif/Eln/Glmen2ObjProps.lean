import Verif.Eln.Glmen2Props
import Mathlib.Analysis.Calculus.Deriv.Abs
import Mathlib.Analysis.SpecialFunctions.Log.Deriv
/-!
# C226: derivatives of the objective, starting values and path of the elastic net GLM
-/
namespace Verif.Eln
open Verif.Func
variable {n p : ℕ} {X : ℕ → ℕ → ℝ} {y w b : ℕ → ℝ} {al lam b0 : ℝ} {F : CFam}

/-- The mean is the derivative of the cumulant and the variance that of the mean. -/
structure CFam.Ok (F : CFam) : Prop where
  K : ∀ e, HasDerivAt F.K (F.mu e) e
  mu : ∀ e, HasDerivAt F.mu (F.v e) e

theorem gaussCF_ok : gaussCF.Ok where
  K e := by
    have := ((hasDerivAt_id e).pow 2).div_const 2
    refine (this.congr_deriv ?_)
    simp [gaussCF]
  mu e := hasDerivAt_id e

theorem binomCF_ok : binomCF.Ok where
  K e := by
    have h : (1 : ℝ) + Real.exp e ≠ 0 := by positivity
    have := ((Real.hasDerivAt_exp e).const_add 1).log h
    refine this.congr_deriv ?_
    simp only [binomCF, invLogit]
    rw [add_comm]
  mu e := by
    have h : Real.exp e + 1 ≠ 0 := by positivity
    have := (Real.hasDerivAt_exp e).fun_div ((Real.hasDerivAt_exp e).add_const 1) h
    refine this.congr_deriv ?_
    simp only [binomCF, invLogit]
    field_simp

theorem clip_deriv {e : ℝ} (h : |e| < 36) : HasDerivAt (clipEta (-36) 36) 1 e := by
  refine (hasDerivAt_id e).congr_of_eventuallyEq ?_
  have : ∀ᶠ x in nhds e, |x| < 36 := (continuous_abs.isOpen_preimage _ isOpen_Iio).mem_nhds h
  filter_upwards [this] with x hx
  obtain ⟨h1, h2⟩ := abs_lt.1 hx
  unfold clipEta
  simp only [if_neg (not_lt.2 h1.le), gt_iff_lt, if_neg (not_lt.2 h2.le), id]

/-- The linear predictor before clipping. -/
noncomputable def rawEta (p : ℕ) (X : ℕ → ℕ → ℝ) (b : ℕ → ℝ) (b0 : ℝ) (i : ℕ) : ℝ := ∑ j ∈ Finset.range p, X i j * b j + b0

theorem eta_deriv {k : ℕ} (hk : k < p) {i : ℕ} (h : |rawEta p X b b0 i| < 36) :
    HasDerivAt (fun t => gEta p X (Function.update b k t) b0 i) (X i k) (b k) := by
  have h1 : HasDerivAt (fun t => rawEta p X (Function.update b k t) b0 i) (X i k) (b k) := by
    have e : (fun t => rawEta p X (Function.update b k t) b0 i) = fun t => rawEta p X b b0 i - X i k * b k + X i k * t := by
      funext t
      unfold rawEta
      rw [sum_update (fun j v => X i j * v) k hk]
      ring
    rw [e]
    exact (((hasDerivAt_id (b k)).const_mul (X i k)).const_add _).congr_deriv (by simp)
  have h2 : HasDerivAt (clipEta (-36) 36) 1 (rawEta p X (Function.update b k (b k)) b0 i) := by
    rw [Function.update_eq_self]
    exact clip_deriv h
  exact (h2.comp (b k) h1).congr_deriv (one_mul _)

theorem eta_deriv0 {i : ℕ} (h : |rawEta p X b b0 i| < 36) :
    HasDerivAt (fun t => gEta p X b t i) 1 b0 := by
  have h1 : HasDerivAt (fun t => rawEta p X b t i) 1 b0 := (hasDerivAt_id b0).const_add _
  exact ((clip_deriv h).comp b0 h1).congr_deriv (one_mul _)

theorem dev_term (hF : F.Ok) {g : ℝ → ℝ} {g' t0 : ℝ} (hg : HasDerivAt g g' t0) (yi wi : ℝ) :
    HasDerivAt (fun t => 2 * wi * (F.K (g t) - yi * g t + F.c yi)) (-(2 * (g' * wi * (yi - F.mu (g t0))))) t0 := by
  have h1 := (hF.K (g t0)).comp t0 hg
  have h2 := ((h1.fun_sub (hg.const_mul yi)).add_const (F.c yi)).const_mul (2 * wi)
  exact h2.congr_deriv (by ring)

theorem npSign_abs {t : ℝ} (h : t ≠ 0) : HasDerivAt (fun t : ℝ => |t|) (npSign t) t := by
  unfold npSign
  rcases lt_or_gt_of_ne h with h1 | h1
  · rw [if_pos h1]
    exact hasDerivAt_abs_neg h1
  · rw [if_neg (not_lt.2 h1.le), if_neg h]
    exact hasDerivAt_abs_pos h1

theorem dev_deriv (hF : F.Ok) {k : ℕ} (hk : k < p) (h : ∀ i, i < n → |rawEta p X b b0 i| < 36) :
    HasDerivAt (fun t => gDev F n p X y w (Function.update b k t) b0 / 2) (gDevGrad F n p X y w b b0 k) (b k) := by
  have hs := HasDerivAt.fun_sum (u := Finset.range n) (fun i hi =>
    dev_term hF (eta_deriv hk (h i (Finset.mem_range.1 hi))) (y i) (w i))
  refine (hs.div_const 2).congr_deriv ?_
  unfold gDevGrad
  rw [Finset.sum_div, ← Finset.sum_neg_distrib]
  refine Finset.sum_congr rfl fun i _ => ?_
  rw [Function.update_eq_self]
  ring

/-- **C226.** `obj_grad` is the gradient of the objective at non-zero coefficients, where no linear predictor is
clipped. -/
theorem C226_grad_partial (hF : F.Ok) {k : ℕ} (hk : k < p) (hb : b k ≠ 0) (h : ∀ i, i < n → |rawEta p X b b0 i| < 36) :
    HasDerivAt (fun t => gObj F n p X y w al lam (Function.update b k t) b0) (gObjGrad F n p X y w al lam b b0 k) (b k) := by
  have h1 := dev_deriv (y := y) (w := w) hF hk h
  have h2 : HasDerivAt (fun t => gPen p al lam (Function.update b k t)) (lam * (1 - al) * b k + npSign (b k) * lam * al)
      (b k) := by
    have e : (fun t => gPen p al lam (Function.update b k t)) = fun t =>
        lam * (al * (∑ j ∈ Finset.range p, |b j| - |b k| + |t|) +
          (1 - al) / 2 * (∑ j ∈ Finset.range p, b j * b j - b k * b k + t * t)) := by
      funext t
      unfold gPen
      rw [sum_update (fun _ v => |v|) k hk, sum_update (fun _ v => v * v) k hk]
    rw [e]
    have ha := ((npSign_abs hb).const_add (∑ j ∈ Finset.range p, |b j| - |b k|)).const_mul al
    have hq := (((hasDerivAt_id (b k)).fun_mul (hasDerivAt_id (b k))).const_add
      (∑ j ∈ Finset.range p, b j * b j - b k * b k)).const_mul ((1 - al) / 2)
    exact ((ha.fun_add hq).const_mul lam).congr_deriv (by simp only [id]; ring)
  exact h1.fun_add h2

/-- **C226.** The first entry is the derivative in the intercept. -/
theorem C226_grad0_partial (hF : F.Ok) (h : ∀ i, i < n → |rawEta p X b b0 i| < 36) :
    HasDerivAt (fun t => gObj F n p X y w al lam b t) (gGrad0 F n p X y w b b0) b0 := by
  have hs := HasDerivAt.fun_sum (u := Finset.range n) (fun i hi =>
    dev_term hF (eta_deriv0 (h i (Finset.mem_range.1 hi))) (y i) (w i))
  refine ((hs.div_const 2).add_const (gPen p al lam b)).congr_deriv ?_
  unfold gGrad0
  rw [Finset.sum_div, ← Finset.sum_neg_distrib]
  refine Finset.sum_congr rfl fun i _ => ?_
  ring

theorem grad_term (hF : F.Ok) {g : ℝ → ℝ} {g' t0 : ℝ} (hg : HasDerivAt g g' t0) (xi yi wi : ℝ) :
    HasDerivAt (fun t => xi * wi * (yi - F.mu (g t))) (-(xi * (wi * F.v (g t0)) * g')) t0 := by
  have h1 := (hF.mu (g t0)).comp t0 hg
  exact ((h1.const_sub yi).const_mul (xi * wi)).congr_deriv (by ring)

theorem devGrad_deriv (hF : F.Ok) (j : ℕ) {k : ℕ} (hk : k < p) (h : ∀ i, i < n → |rawEta p X b b0 i| < 36) :
    HasDerivAt (fun t => gDevGrad F n p X y w (Function.update b k t) b0 j) (gDevHess F n p X w b b0 j k / 2) (b k) := by
  have hs := HasDerivAt.fun_sum (u := Finset.range n) (fun i hi =>
    grad_term hF (eta_deriv hk (h i (Finset.mem_range.1 hi))) (X i j) (y i) (w i))
  refine hs.neg.congr_deriv ?_
  unfold gDevHess
  rw [mul_div_cancel_right₀ _ (two_ne_zero), ← Finset.sum_neg_distrib]
  refine Finset.sum_congr rfl fun i _ => ?_
  rw [Function.update_eq_self]
  ring

theorem npSign_deriv {t : ℝ} (h : t ≠ 0) : HasDerivAt (npSign (α := ℝ)) 0 t := by
  rcases lt_or_gt_of_ne h with h1 | h1
  · refine (hasDerivAt_const t (-1 : ℝ)).congr_of_eventuallyEq ?_
    filter_upwards [isOpen_Iio.mem_nhds h1] with x hx
    unfold npSign
    exact if_pos hx
  · refine (hasDerivAt_const t (1 : ℝ)).congr_of_eventuallyEq ?_
    filter_upwards [isOpen_Ioi.mem_nhds h1] with x hx
    unfold npSign
    rw [if_neg (not_lt.2 (le_of_lt hx)), if_neg (ne_of_gt hx)]

/-- **C226.** `obj_hess` is the Jacobian of `obj_grad`, under the same conditions. -/
theorem C226_hess_partial (hF : F.Ok) {j k : ℕ} (hk : k < p) (hb : b k ≠ 0) (h : ∀ i, i < n → |rawEta p X b b0 i| < 36) :
    HasDerivAt (fun t => gObjGrad F n p X y w al lam (Function.update b k t) b0 j) (gObjHess F n p X w al lam b b0 j k)
      (b k) := by
  refine (devGrad_deriv hF j hk h).fun_add ?_
  by_cases hjk : j = k
  · subst hjk
    rw [if_pos rfl]
    simp only [Function.update_self]
    exact (((hasDerivAt_id (b j)).const_mul (lam * (1 - al))).fun_add
      (((npSign_deriv hb).mul_const lam).mul_const al)).congr_deriv (by ring)
  · rw [if_neg hjk]
    simp only [Function.update_of_ne hjk]
    exact hasDerivAt_const _ _

/-- **C226.** The row and column of the intercept: derivatives in the intercept, and the mixed ones both ways. -/
theorem C226_hess0_partial (hF : F.Ok) (h : ∀ i, i < n → |rawEta p X b b0 i| < 36) :
    HasDerivAt (fun t => gGrad0 F n p X y w b t) (gDevHess00 F n p X w b b0 / 2) b0 ∧
    (∀ j, HasDerivAt (fun t => gDevGrad F n p X y w b t j) (gDevHess0 F n p X w b b0 j / 2) b0) ∧
    ∀ k, k < p → HasDerivAt (fun t => gGrad0 F n p X y w (Function.update b k t) b0) (gDevHess0 F n p X w b b0 k / 2) (b k) := by
  refine ⟨?_, fun j => ?_, fun k hk => ?_⟩
  · have hs := HasDerivAt.fun_sum (u := Finset.range n) (fun i hi =>
      grad_term hF (eta_deriv0 (h i (Finset.mem_range.1 hi))) 1 (y i) (w i))
    simp only [one_mul, mul_one] at hs
    refine hs.neg.congr_deriv ?_
    unfold gDevHess00
    rw [mul_div_cancel_right₀ _ (two_ne_zero), ← Finset.sum_neg_distrib]
    exact Finset.sum_congr rfl fun i _ => by ring
  · have hs := HasDerivAt.fun_sum (u := Finset.range n) (fun i hi =>
      grad_term hF (eta_deriv0 (h i (Finset.mem_range.1 hi))) (X i j) (y i) (w i))
    refine hs.neg.congr_deriv ?_
    unfold gDevHess0
    rw [mul_div_cancel_right₀ _ (two_ne_zero), ← Finset.sum_neg_distrib]
    exact Finset.sum_congr rfl fun i _ => by ring
  · have hs := HasDerivAt.fun_sum (u := Finset.range n) (fun i hi =>
      grad_term hF (eta_deriv hk (h i (Finset.mem_range.1 hi))) 1 (y i) (w i))
    simp only [one_mul] at hs
    refine hs.neg.congr_deriv ?_
    unfold gDevHess0
    rw [mul_div_cancel_right₀ _ (two_ne_zero), ← Finset.sum_neg_distrib]
    refine Finset.sum_congr rfl fun i _ => ?_
    rw [Function.update_eq_self]
    ring

/-- `dev_grad` is the gradient of half the deviance, `dev_hess` the Hessian of the whole deviance: the derivative of
the one is half the other. -/
theorem C226_scale_violated (hF : F.Ok) (j : ℕ) {k : ℕ} (hk : k < p) (h : ∀ i, i < n → |rawEta p X b b0 i| < 36)
    (h0 : gDevHess F n p X w b b0 j k ≠ 0) :
    ¬ HasDerivAt (fun t => gDevGrad F n p X y w (Function.update b k t) b0 j) (gDevHess F n p X w b b0 j k) (b k) := by
  intro hc
  have := hc.unique (devGrad_deriv hF j hk h)
  exact h0 (by linarith)

/-- Such a point. -/
example : gDevHess gaussCF 1 1 (fun _ _ => 1) (fun _ => 1) (fun _ => 1) 0 0 0 ≠ 0 ∧
    ∀ i, i < 1 → |rawEta 1 (fun _ _ => 1) (fun _ => 1) 0 i| < 36 := by
  constructor
  · simp [gDevHess, gaussCF]
  · intro i _
    simp [rawEta]

theorem clip_above {e : ℝ} (h : 36 < e) : clipEta (-36) 36 e = 36 := by
  unfold clipEta
  have h1 : ¬ e < -36 := not_lt.2 (by linarith)
  simp only [if_neg h1, gt_iff_lt, if_pos h]

/-- Where the linear predictor is clipped the deviance is flat, but its gradient is not zero. -/
theorem C226_clip_violated :
    HasDerivAt (fun t => gObj gaussCF 1 1 (fun _ _ => 1) (fun _ => 0) (fun _ => 1) 1 0 (Function.update (fun _ => 37) 0 t) 0)
      0 37 ∧ gObjGrad gaussCF 1 1 (fun _ _ => 1) (fun _ => 0) (fun _ => 1) 1 0 (fun _ => 37) 0 0 = 36 := by
  constructor
  · have hc : HasDerivAt (fun _ : ℝ => ((36 : ℝ) ^ 2 / 2)) 0 (37 : ℝ) := hasDerivAt_const _ _
    refine hc.congr_of_eventuallyEq ?_
    filter_upwards [isOpen_Ioi.mem_nhds (show (36 : ℝ) < 37 by norm_num)] with t ht
    have e : gEta 1 (fun _ _ => 1) (Function.update (fun _ => 37) 0 t) 0 0 = 36 := by
      unfold gEta
      simp only [Finset.sum_range_one, Function.update_self, one_mul, add_zero]
      exact clip_above ht
    simp only [gObj, gDev, gPen, Finset.sum_range_one, e, gaussCF]
    norm_num
  · have e : gEta 1 (fun _ _ => 1) (fun _ => 37) 0 0 = 36 := by
      unfold gEta
      simp only [Finset.sum_range_one, one_mul, add_zero]
      exact clip_above (by norm_num)
    simp only [gObjGrad, gDevGrad, Finset.sum_range_one, e, gaussCF]
    norm_num

/-! ## Folds -/

/-- **C226.** With weights summing to one the starting mean solves the score equation of the intercept. -/
theorem C226_start_partial (hw : ∑ i ∈ Finset.range n, w i = 1) :
    ∑ i ∈ Finset.range n, w i * (y i - gStartMean n y w) = 0 := by
  unfold gStartMean
  simp only [mul_sub, Finset.sum_sub_distrib, ← Finset.sum_mul, hw, one_mul, sub_self]

/-- The weights of a fold are not normalised again: the start is not the mean of the fold. -/
theorem C226_start_violated : ∃ y w : ℕ → ℝ, (∀ i, y i = 1) ∧ gStartMean 1 y w = 1 / 2 :=
  ⟨fun _ => 1, fun _ => 1 / 2, fun _ => rfl, by simp [gStartMean]⟩

/-- **C226.** The objective of a fold with total weight `s` is that of normalised weights with the penalty
divided by `s`. -/
theorem C226_fold (s : ℝ) (hs : s ≠ 0) :
    gObj F n p X y w al lam b b0 = s * gObj F n p X y (fun i => w i / s) al (lam / s) b b0 := by
  unfold gObj gDev gPen
  have e : ∑ i ∈ Finset.range n, 2 * w i * (F.K (gEta p X b b0 i) - y i * gEta p X b b0 i + F.c (y i)) =
      s * ∑ i ∈ Finset.range n, 2 * (w i / s) * (F.K (gEta p X b b0 i) - y i * gEta p X b b0 i + F.c (y i)) := by
    rw [Finset.mul_sum]
    refine Finset.sum_congr rfl fun i _ => ?_
    field_simp
  rw [e]
  field_simp

/-! ## The path -/

/-- **C226.** The number of rows. -/
theorem gPath_length {W : Type*} (fit : ℝ → W → W) (zero start : W) (lams : List ℝ) (m : ℕ) :
    (gPathRows fit zero start lams m).length = lams.length + 1 := by
  unfold gPathRows
  generalize ((List.range lams.length).zip lams).take m = L
  have : ∀ (L : List (ℕ × ℝ)) (rows : List W), (L.foldl (gPathStep fit zero) rows).length = rows.length := by
    intro L
    induction L with
    | nil => intro rows; rfl
    | cons x L ih => intro rows; rw [List.foldl_cons, ih]; simp [gPathStep]
  rw [this]
  simp

theorem gPath_succ {W : Type*} (fit : ℝ → W → W) (zero start : W) (lams : List ℝ) (m : ℕ) (hm : m < lams.length) :
    gPathRows fit zero start lams (m + 1) = gPathStep fit zero (gPathRows fit zero start lams m) (m, lams[m]) := by
  unfold gPathRows
  have hz : m < ((List.range lams.length).zip lams).length := by simpa using hm
  rw [List.take_succ_eq_append_getElem hz, List.foldl_append]
  simp

/-- **C226.** Each row is a fit for its own penalty, and later passes leave it alone. -/
theorem C226_rows {W : Type*} (fit : ℝ → W → W) (zero start : W) (lams : List ℝ) (i : ℕ) (hi : i < lams.length) :
    ∀ m, i < m → m ≤ lams.length → ∃ b, (gPathRows fit zero start lams m)[i + 1]? = some (fit lams[i] b) := by
  intro m him hm
  induction m with
  | zero => omega
  | succ m ih =>
    rw [gPath_succ fit zero start lams m hm]
    unfold gPathStep
    dsimp only
    by_cases h : i = m
    · subst h
      refine ⟨_, List.getElem?_set_self ?_⟩
      rw [gPath_length]
      omega
    · rw [List.getElem?_set_ne (by omega)]
      exact ih (by omega) (by omega)

/-- **C226.** So with a solver whose result does not depend on the start the path is right. -/
theorem C226_path {W : Type*} (fit : ℝ → W → W) (sol : ℝ → W) (hfit : ∀ l b, fit l b = sol l) (zero start : W)
    (lams : List ℝ) (i : ℕ) (hi : i < lams.length) :
    ((gPathRows fit zero start lams lams.length).tail)[i]? = some (sol lams[i]) := by
  obtain ⟨b, hb⟩ := C226_rows fit zero start lams i hi lams.length hi le_rfl
  rw [List.getElem?_tail, hb, hfit]

/-- The warm start lags behind: the second fit starts where the first did, not from its solution. -/
theorem C226_warm_violated {W : Type*} (fit : ℝ → W → W) (zero start : W) (l0 l1 : ℝ) :
    (gPathRows fit zero start [l0, l1] 2).tail = [fit l0 start, fit l1 start] := by
  simp [gPathRows, gPathStep, List.range_succ]

end Verif.Eln
