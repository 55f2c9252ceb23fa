import Verif.Robust.Model
import Mathlib.Analysis.Calculus.Deriv.Pow
import Mathlib.Analysis.Calculus.Deriv.Add
import Mathlib.Analysis.Calculus.Deriv.Mul
import Mathlib.Analysis.Calculus.Deriv.Inv
import Mathlib.Tactic.Linarith
import Mathlib.Tactic.FieldSimp
import Mathlib.Tactic.Ring
import Mathlib.Tactic.LinearCombination
/-!
# Robust loss, score and weight functions (C38, C72)
-/
namespace Verif.Robust
open Real Set Filter Topology

/-- Two branches that agree with a common derivative glue at the seam. -/
theorem glue {f g h : ℝ → ℝ} {a d : ℝ} (hg : ∀ x ≤ a, f x = g x) (hh : ∀ x, a ≤ x → f x = h x)
    (dg : HasDerivAt g d a) (dh : HasDerivAt h d a) : HasDerivAt f d a := by
  have h1 : HasDerivWithinAt f d (Iic a) a :=
    dg.hasDerivWithinAt.congr (fun x hx => hg x hx) (hg a le_rfl)
  have h2 : HasDerivWithinAt f d (Ici a) a :=
    dh.hasDerivWithinAt.congr (fun x hx => hh x hx) (hh a le_rfl)
  have := h1.union h2
  rwa [Iic_union_Ici, hasDerivWithinAt_univ] at this

/-- `max 0 u ^ (n+2)` is continuously differentiable. -/
theorem hasDerivAt_pos_pow (n : ℕ) (u : ℝ) :
    HasDerivAt (fun u : ℝ => max 0 u ^ (n + 2)) ((n + 2) * max 0 u ^ (n + 1)) u := by
  rcases lt_trichotomy u 0 with h | h | h
  · have e : (fun u : ℝ => max 0 u ^ (n + 2)) =ᶠ[𝓝 u] fun _ => 0 := by
      filter_upwards [gt_mem_nhds h] with x hx
      rw [max_eq_left (le_of_lt hx), zero_pow (by omega)]
    rw [max_eq_left h.le, zero_pow (by omega), mul_zero]
    exact (hasDerivAt_const u (0 : ℝ)).congr_of_eventuallyEq e
  · subst h
    apply glue (g := fun _ => 0) (h := fun x => x ^ (n + 2))
    · intro x hx; rw [max_eq_left hx, zero_pow (by omega)]
    · intro x hx; rw [max_eq_right hx]
    · simpa using hasDerivAt_const (0 : ℝ) (0 : ℝ)
    · have := hasDerivAt_pow (n + 2) (0 : ℝ)
      simpa using this
  · have e : (fun u : ℝ => max 0 u ^ (n + 2)) =ᶠ[𝓝 u] fun x => x ^ (n + 2) := by
      filter_upwards [lt_mem_nhds h] with x hx
      rw [max_eq_right (le_of_lt hx)]
    rw [max_eq_right h.le]
    have := hasDerivAt_pow (n + 2) u
    simp only [Nat.add_one_sub_one, Nat.cast_add, Nat.cast_ofNat] at this
    exact this.congr_of_eventuallyEq e

/-! ## Huber -/

variable {s : ℝ} {c : Option ℝ}

theorem npSign_pos {x : ℝ} (h : 0 < x) : npSign x = 1 := by
  rw [npSign, if_neg (by linarith), if_neg (by linarith)]

theorem npSign_neg {x : ℝ} (h : x < 0) : npSign x = -1 := by
  rw [npSign, if_pos h]

theorem huberPsi_clip (hc : 0 < tuning s c) (x : ℝ) :
    huberPsi s x c = max (-tuning s c) (min x (tuning s c)) := by
  simp only [huberPsi]
  generalize tuning s c = k at *
  split_ifs with h
  · obtain ⟨h1, h2⟩ := abs_le.1 h
    rw [min_eq_left h2, max_eq_right h1]
  · rcases lt_or_ge x 0 with hx | hx
    · rw [abs_of_neg hx] at h
      rw [npSign_neg hx, min_eq_left (by linarith), max_eq_left (by linarith)]; ring
    · rw [abs_of_nonneg hx] at h
      rw [npSign_pos (by linarith), min_eq_right (by linarith), max_eq_right (by linarith)]; ring

/-- C38 (Huber): psi is the derivative of rho everywhere, also at the kinks `±c`. -/
theorem C38_huber_psi (hc : 0 < tuning s c) (x : ℝ) :
    HasDerivAt (fun x => huberRho s x c) (huberPsi s x c) x := by
  rw [huberPsi_clip hc]
  simp only [huberRho]
  generalize tuning s c = k at *
  have dq : ∀ x : ℝ, HasDerivAt (fun x : ℝ => x ^ 2 / 2) x x := fun x =>
    ((hasDerivAt_pow 2 x).div_const 2).congr_deriv (by norm_num)
  have du : ∀ x : ℝ, HasDerivAt (fun x : ℝ => k * (x - k / 2)) k x := fun x =>
    (((hasDerivAt_id' x).sub_const (k / 2)).const_mul k).congr_deriv (by ring)
  have dl : ∀ x : ℝ, HasDerivAt (fun x : ℝ => k * (-x - k / 2)) (-k) x := fun x =>
    (((hasDerivAt_id' x).fun_neg.sub_const (k / 2)).const_mul k).congr_deriv (by ring)
  have eq : ∀ y, -k ≤ y → y ≤ k → (if |y| ≤ k then y ^ 2 / 2 else k * (|y| - k / 2)) = y ^ 2 / 2 :=
    fun y h1 h2 => if_pos (abs_le.2 ⟨h1, h2⟩)
  have eu : ∀ y, k ≤ y →
      (if |y| ≤ k then y ^ 2 / 2 else k * (|y| - k / 2)) = k * (y - k / 2) := by
    intro y hy
    rw [abs_of_nonneg (by linarith)]
    split_ifs with h
    · rw [le_antisymm h hy]; ring
    · rfl
  have el : ∀ y, y ≤ -k →
      (if |y| ≤ k then y ^ 2 / 2 else k * (|y| - k / 2)) = k * (-y - k / 2) := by
    intro y hy
    rw [abs_of_nonpos (by linarith)]
    split_ifs with h
    · have : y = -k := by linarith
      subst this; ring
    · rfl
  rcases lt_trichotomy x (-k) with h | h | h
  · rw [min_eq_left (by linarith), max_eq_left (by linarith)]
    apply (dl x).congr_of_eventuallyEq
    filter_upwards [gt_mem_nhds h] with y hy
    exact el y (le_of_lt hy)
  · subst h
    rw [min_eq_left (by linarith), max_eq_left le_rfl]
    have dq' := dq (-k)
    have e2 : (fun y : ℝ => if |y| ≤ k then y ^ 2 / 2 else k * (|y| - k / 2)) =ᶠ[𝓝 (-k)]
        fun y => if y ≤ -k then k * (-y - k / 2) else y ^ 2 / 2 := by
      filter_upwards [gt_mem_nhds (show -k < k by linarith)] with y hy
      split_ifs with h1 h2 h2
      · rw [← el y h2, if_pos h1]
      · rfl
      · rw [← el y h2, if_neg h1]
      · exact absurd (abs_le.2 ⟨(not_le.1 h2).le, le_of_lt hy⟩) h1
    refine HasDerivAt.congr_of_eventuallyEq ?_ e2
    apply glue _ _ (dl _) dq'
    · intro y hy; exact if_pos hy
    · intro y hy
      rcases eq_or_lt_of_le hy with e | e
      · rw [← e, if_pos le_rfl]; ring
      · exact if_neg (not_le.2 e)
  · rcases lt_trichotomy x k with h' | h' | h'
    · rw [min_eq_left h'.le, max_eq_right h.le]
      apply (dq x).congr_of_eventuallyEq
      filter_upwards [gt_mem_nhds h', lt_mem_nhds h] with y hy hy'
      exact eq y (le_of_lt hy') (le_of_lt hy)
    · subst h'
      rw [min_eq_left le_rfl, max_eq_right h.le]
      have e2 : (fun y : ℝ => if |y| ≤ x then y ^ 2 / 2 else x * (|y| - x / 2)) =ᶠ[𝓝 x]
          fun y => if y ≤ x then y ^ 2 / 2 else x * (y - x / 2) := by
        filter_upwards [lt_mem_nhds h] with y hy
        by_cases h1 : y ≤ x
        · rw [eq y (le_of_lt hy) h1, if_pos h1]
        · rw [eu y (not_le.1 h1).le, if_neg h1]
      refine HasDerivAt.congr_of_eventuallyEq ?_ e2
      apply glue _ _ (dq x) (du x)
      · intro y hy; exact if_pos hy
      · intro y hy
        rcases eq_or_lt_of_le hy with e | e
        · rw [← e, if_pos le_rfl]; ring
        · exact if_neg (not_le.2 e)
    · rw [min_eq_right h'.le, max_eq_right (by linarith)]
      apply (du x).congr_of_eventuallyEq
      filter_upwards [lt_mem_nhds h'] with y hy
      exact eu y (le_of_lt hy)

/-- C38 (Huber): phi is the derivative of psi off the kinks. -/
theorem C38_huber_phi (hc : 0 < tuning s c) {x : ℝ} (hx : |x| ≠ tuning s c) :
    HasDerivAt (fun x => huberPsi s x c) (huberPhi s x c) x := by
  have e : (fun x => huberPsi s x c) = fun x => max (-tuning s c) (min x (tuning s c)) :=
    funext fun x => huberPsi_clip hc x
  rw [e]
  simp only [huberPhi]
  generalize tuning s c = k at *
  split_ifs with h
  · have h' := abs_lt.1 (lt_of_le_of_ne h hx)
    apply (hasDerivAt_id' x).congr_of_eventuallyEq
    filter_upwards [gt_mem_nhds h'.2, lt_mem_nhds h'.1] with y hy hy'
    rw [min_eq_left (le_of_lt hy), max_eq_right (le_of_lt hy')]
  · rcases lt_or_ge x 0 with h0 | h0
    · rw [abs_of_neg h0, not_le] at h
      apply (hasDerivAt_const x (-k)).congr_of_eventuallyEq
      filter_upwards [gt_mem_nhds (show x < -k by linarith)] with y hy
      have hy : y < -k := hy
      rw [min_eq_left (by linarith), max_eq_left (by linarith)]
    · rw [abs_of_nonneg h0, not_le] at h
      apply (hasDerivAt_const x k).congr_of_eventuallyEq
      filter_upwards [lt_mem_nhds h] with y hy
      have hy : k < y := hy
      rw [min_eq_right (by linarith), max_eq_right (by linarith)]

/-- C38 (Huber): at a kink psi has no derivative, so the exclusion cannot be dropped. -/
theorem C38_huber_kink (hc : 0 < tuning s c) :
    ¬ DifferentiableAt ℝ (fun x => huberPsi s x c) (tuning s c) := by
  have e : (fun x => huberPsi s x c) = fun x => max (-tuning s c) (min x (tuning s c)) :=
    funext fun x => huberPsi_clip hc x
  rw [e]
  generalize tuning s c = k at *
  intro hd
  obtain ⟨d, hd⟩ : ∃ d, HasDerivAt (fun x => max (-k) (min x k)) d k := ⟨_, hd.hasDerivAt⟩
  have h1 : HasDerivWithinAt (fun x => max (-k) (min x k)) 0 (Ici k) k := by
    refine (hasDerivWithinAt_const k (Ici k) k).congr ?_ ?_
    · intro y (hy : k ≤ y); rw [min_eq_right hy, max_eq_right (by linarith)]
    · rw [min_self, max_eq_right (by linarith)]
  have h2 : HasDerivWithinAt (fun x => max (-k) (min x k)) 1 (Icc (-k) k) k := by
    refine (hasDerivAt_id' k).hasDerivWithinAt.congr ?_ ?_
    · intro y hy; rw [min_eq_left hy.2, max_eq_right hy.1]
    · rw [min_self, max_eq_right (by linarith)]
  have u1 := (uniqueDiffOn_Ici k k self_mem_Ici).eq_deriv (Ici k) hd.hasDerivWithinAt h1
  have u2 := (uniqueDiffOn_Icc (show -k < k by linarith) k ⟨by linarith, le_rfl⟩).eq_deriv
    (Icc (-k) k) hd.hasDerivWithinAt h2
  linarith

/-- C38 (Huber): `weights(x) * x = psi(x)`. -/
theorem C38_huber_weights (hc : 0 < tuning s c) (x : ℝ) :
    huberWeights s x c * x = huberPsi s x c := by
  simp only [huberWeights, huberPsi]
  generalize tuning s c = k at *
  split_ifs with h
  · ring
  · rcases lt_or_ge x 0 with h0 | h0
    · rw [npSign_neg h0, abs_of_neg h0]; field_simp [h0.ne]
    · rw [abs_of_nonneg h0] at h ⊢
      have : 0 < x := by linarith
      rw [npSign_pos this]; field_simp

theorem C38_huber_range (hc : 0 < tuning s c) (x : ℝ) :
    huberWeights s x c ∈ Ioc (0 : ℝ) 1 := by
  simp only [huberWeights]
  generalize tuning s c = k at *
  split_ifs with h
  · exact ⟨one_pos, le_rfl⟩
  · have : 0 < |x| := by linarith
    exact ⟨by positivity, (div_le_one this).2 (by linarith)⟩

theorem C38_huber_even (x : ℝ) : huberRho s (-x) c = huberRho s x c := by
  simp only [huberRho, abs_neg, neg_sq]

theorem C38_huber_nonneg (hc : 0 < tuning s c) (x : ℝ) : 0 ≤ huberRho s x c := by
  simp only [huberRho]
  generalize tuning s c = k at *
  split_ifs with h
  · positivity
  · exact mul_nonneg hc.le (by linarith)

theorem C38_huber_mono (hc : 0 < tuning s c) {x y : ℝ} (h : |x| ≤ |y|) :
    huberRho s x c ≤ huberRho s y c := by
  simp only [huberRho]
  generalize tuning s c = k at *
  have ex : x ^ 2 = |x| ^ 2 := (sq_abs x).symm
  have ey : y ^ 2 = |y| ^ 2 := (sq_abs y).symm
  rw [ex, ey]
  have h0 := abs_nonneg x
  generalize |x| = a at *
  generalize |y| = b at *
  split_ifs with h1 h2 h2
  · nlinarith
  · nlinarith
  · linarith
  · nlinarith

/-- C38: the constructor argument of `Huber` has no effect: `Huber(c)` behaves as `Huber(1.345)`. -/
theorem C38_init_violated : ¬ ∀ c x : ℝ, 0 < c →
    huberPsi (huberInit c) x none = max (-c) (min x c) := by
  intro h
  have := h 2 2 (by norm_num)
  rw [huberPsi_clip (by simp only [tuning, huberInit, Option.getD_none]; norm_num)] at this
  simp only [tuning, huberInit, Option.getD_none] at this
  norm_num at this

/-- C38: on integer arrays the weight of an outlying residual is truncated to `0`, so that
`weights(x) * x = psi(x)` fails. -/
theorem C38_integer_violated :
    huberWeightsInt 1.345 3 none = 0 ∧ huberWeights 1.345 3 none = 1.345 / 3 := by
  have e : tuning 1.345 none = 1.345 := rfl
  simp only [huberWeightsInt, huberWeights]
  generalize tuning 1.345 none = k at *
  subst e
  constructor
  · rw [if_neg (by norm_num)]
    rw [Int.floor_eq_iff]
    norm_num
  · rw [if_neg (by norm_num)]; norm_num

/-! ## Bisquare -/

theorem bisq_in {k x : ℝ} (hk : 0 < k) : |x| ≤ k ↔ 0 ≤ 1 - (x / k) ^ 2 := by
  rw [sub_nonneg, sq_le_one_iff_abs_le_one, abs_div, abs_of_pos hk, div_le_one hk]

theorem bisqRho_eq (hc : 0 < tuning s c) (x : ℝ) :
    bisqRho s x c = 1 - max 0 (1 - (x / tuning s c) ^ 2) ^ 3 := by
  simp only [bisqRho, bisq_in hc]
  split_ifs with h
  · rw [max_eq_right h]; ring
  · rw [max_eq_left (not_le.1 h).le]; norm_num

theorem bisqPsi_eq (hc : 0 < tuning s c) (x : ℝ) :
    bisqPsi s x c = x * max 0 (1 - (x / tuning s c) ^ 2) ^ 2 := by
  simp only [bisqPsi, bisq_in hc]
  split_ifs with h
  · rw [max_eq_right h]
  · rw [max_eq_left (not_le.1 h).le]; norm_num

theorem bisqWeights_eq (hc : 0 < tuning s c) (x : ℝ) :
    bisqWeights s x c = max 0 (1 - (x / tuning s c) ^ 2) ^ 2 := by
  simp only [bisqWeights, bisq_in hc]
  split_ifs with h
  · rw [max_eq_right h]; ring
  · rw [max_eq_left (not_le.1 h).le]; norm_num

theorem inner_deriv (k x : ℝ) :
    HasDerivAt (fun x : ℝ => 1 - (x / k) ^ 2) (-(2 * x / k ^ 2)) x := by
  refine ((((hasDerivAt_id' x).div_const k).fun_pow 2).const_sub 1).congr_deriv ?_
  simp only [Nat.reduceSub, pow_one, Nat.cast_ofNat]
  ring

/-- C38 (bisquare): psi over `rho_norm` is the derivative of rho everywhere. -/
theorem C38_bisq_psi (hc : 0 < tuning s c) (x : ℝ) :
    HasDerivAt (fun x => bisqRho s x c) (bisqPsi s x c / bisqNorm s c) x := by
  have e : (fun x => bisqRho s x c) = fun x => 1 - max 0 (1 - (x / tuning s c) ^ 2) ^ 3 :=
    funext fun x => bisqRho_eq hc x
  rw [e, bisqPsi_eq hc]
  simp only [bisqNorm]
  generalize tuning s c = k at *
  have := ((hasDerivAt_pos_pow 1 _).comp x (inner_deriv k x)).const_sub 1
  refine this.congr_deriv ?_
  generalize max 0 (1 - (x / k) ^ 2) = u
  norm_num
  field_simp
  ring

/-- C38 (bisquare): phi is the derivative of psi everywhere (there is no kink). -/
theorem C38_bisq_phi (hc : 0 < tuning s c) (x : ℝ) :
    HasDerivAt (fun x => bisqPsi s x c) (bisqPhi s x c) x := by
  have e : (fun x => bisqPsi s x c) = fun x => x * max 0 (1 - (x / tuning s c) ^ 2) ^ 2 :=
    funext fun x => bisqPsi_eq hc x
  have e2 : bisqPhi s x c = max 0 (1 - (x / tuning s c) ^ 2) * (1 - 5 * (x / tuning s c) ^ 2) := by
    simp only [bisqPhi, bisq_in hc]
    split_ifs with h
    · rw [max_eq_right h]; ring
    · rw [max_eq_left (not_le.1 h).le]; norm_num
  rw [e, e2]
  generalize tuning s c = k at *
  have := (hasDerivAt_id' x).fun_mul ((hasDerivAt_pos_pow 0 _).comp x (inner_deriv k x))
  refine this.congr_deriv ?_
  simp only [Function.comp]
  by_cases h : 0 ≤ 1 - (x / k) ^ 2
  · rw [max_eq_right h]
    norm_num
    field_simp
    ring
  · rw [max_eq_left (not_le.1 h).le]; norm_num

theorem C38_bisq_weights (hc : 0 < tuning s c) (x : ℝ) :
    bisqWeights s x c * x = bisqPsi s x c := by
  rw [bisqWeights_eq hc, bisqPsi_eq hc]; ring

theorem bisq_u (k x : ℝ) : 0 ≤ max 0 (1 - (x / k) ^ 2) ∧ max 0 (1 - (x / k) ^ 2) ≤ 1 :=
  ⟨le_max_left _ _, max_le zero_le_one (by nlinarith [sq_nonneg (x / k)])⟩

theorem C38_bisq_range (hc : 0 < tuning s c) (x : ℝ) :
    bisqWeights s x c ∈ Icc (0 : ℝ) 1 := by
  rw [bisqWeights_eq hc]
  obtain ⟨h0, h1⟩ := bisq_u (tuning s c) x
  exact ⟨by positivity, pow_le_one₀ h0 h1⟩

theorem C38_bisq_even (x : ℝ) : bisqRho s (-x) c = bisqRho s x c := by
  simp only [bisqRho, abs_neg, neg_div, neg_sq]

/-- C38 (bisquare): rho lies in `[0,1]`. -/
theorem C38_bisq_nonneg (hc : 0 < tuning s c) (x : ℝ) : bisqRho s x c ∈ Icc (0 : ℝ) 1 := by
  rw [bisqRho_eq hc]
  obtain ⟨h0, h1⟩ := bisq_u (tuning s c) x
  exact ⟨sub_nonneg.2 (pow_le_one₀ h0 h1), by linarith [pow_nonneg h0 3]⟩

theorem C38_bisq_mono (hc : 0 < tuning s c) {x y : ℝ} (h : |x| ≤ |y|) :
    bisqRho s x c ≤ bisqRho s y c := by
  rw [bisqRho_eq hc, bisqRho_eq hc]
  have h2 : (x / tuning s c) ^ 2 ≤ (y / tuning s c) ^ 2 := by
    rw [div_pow, div_pow]
    exact div_le_div_of_nonneg_right (sq_le_sq.2 h) (by positivity)
  have := pow_le_pow_left₀ (bisq_u (tuning s c) y).1
    (max_le_max_left 0 (sub_le_sub_left h2 1)) 3
  linarith

/-- The tuning constants used in practice meet the hypothesis. -/
example : 0 < tuning 1.345 none ∧ 0 < tuning 4.685 none ∧ 0 < tuning 4.685 (some 1.548) := by
  simp only [tuning, Option.getD_none, Option.getD_some]; norm_num

/-! ## `chi` -/

/-- C38: the derivatives returned by `chi` are those of `chi(., 0)`. -/
theorem C38_chi_huber (hc : 0 < tuning s c) (x : ℝ) :
    ∃ f0 f1 f2 : ℝ → ℝ, (∀ x, chi (huber s) x 0 c = some (f0 x)) ∧
      (∀ x, chi (huber s) x 1 c = some (f1 x)) ∧ (∀ x, chi (huber s) x 2 c = some (f2 x)) ∧
      HasDerivAt f0 (f1 x) x ∧ (|x| ≠ tuning s c → HasDerivAt f1 (f2 x) x) := by
  refine ⟨fun x => huberRho s x c, fun x => huberPsi s x c, fun x => huberPhi s x c,
    fun _ => rfl, fun x => ?_, fun x => ?_, C38_huber_psi hc x, fun h => C38_huber_phi hc h⟩
  · simp [chi, huber, huberNorm]
  · simp [chi, huber, huberNorm]

theorem C38_chi_bisq (hc : 0 < tuning s c) (x : ℝ) :
    ∃ f0 f1 f2 : ℝ → ℝ, (∀ x, chi (bisquare s) x 0 c = some (f0 x)) ∧
      (∀ x, chi (bisquare s) x 1 c = some (f1 x)) ∧ (∀ x, chi (bisquare s) x 2 c = some (f2 x)) ∧
      HasDerivAt f0 (f1 x) x ∧ HasDerivAt f1 (f2 x) x := by
  refine ⟨fun x => bisqRho s x c, fun x => bisqPsi s x c / bisqNorm s c,
    fun x => bisqPhi s x c / bisqNorm s c, fun _ => rfl, fun x => ?_, fun x => ?_,
    C38_bisq_psi hc x, (C38_bisq_phi hc x).div_const _⟩
  · simp [chi, bisquare]
  · simp [chi, bisquare]

/-! ## Majorisation: reweighted least squares does not increase the objective (C72) -/

theorem huber_majorise (hc : 0 < tuning s c) (a b : ℝ) :
    huberRho s b c ≤ huberRho s a c + huberWeights s a c / 2 * (b ^ 2 - a ^ 2) := by
  simp only [huberRho, huberWeights]
  generalize tuning s c = k at *
  have ea : a ^ 2 = |a| ^ 2 := (sq_abs a).symm
  have eb : b ^ 2 = |b| ^ 2 := (sq_abs b).symm
  rw [ea, eb]
  have ha := abs_nonneg a
  have hb := abs_nonneg b
  generalize |a| = u at *
  generalize |b| = v at *
  split_ifs with h1 h2 h2
  · linarith
  · have hu : 0 < u := by linarith
    have : k * (u - k / 2) + k / u / 2 * (v ^ 2 - u ^ 2) - v ^ 2 / 2 =
        (u - k) * (k * u - v ^ 2) / (2 * u) := by field_simp; ring
    have : 0 ≤ (u - k) * (k * u - v ^ 2) / (2 * u) :=
      div_nonneg (mul_nonneg (by linarith) (by nlinarith)) (by linarith)
    linarith
  · nlinarith [sq_nonneg (v - k)]
  · have hu : 0 < u := by linarith
    have : k * (u - k / 2) + k / u / 2 * (v ^ 2 - u ^ 2) - k * (v - k / 2) =
        k * (v - u) ^ 2 / (2 * u) := by field_simp; ring
    have : 0 ≤ k * (v - u) ^ 2 / (2 * u) := by positivity
    linarith

theorem bisq_majorise (hc : 0 < tuning s c) (a b : ℝ) :
    bisqNorm s c * bisqRho s b c ≤
      bisqNorm s c * bisqRho s a c + bisqWeights s a c / 2 * (b ^ 2 - a ^ 2) := by
  rw [bisqRho_eq hc, bisqRho_eq hc, bisqWeights_eq hc]
  simp only [bisqNorm]
  generalize tuning s c = k at *
  have key : ∀ u : ℝ, u ≤ 1 → ∀ v : ℝ,
      3 * max 0 u ^ 2 * (v - u) ≤ max 0 v ^ 3 - max 0 u ^ 3 := by
    intro u _ v
    rcases le_total u 0 with hu | hu
    · rw [max_eq_left hu]
      have := pow_nonneg (le_max_left 0 v) 3
      norm_num
    · rw [max_eq_right hu]
      rcases le_total v 0 with hv | hv
      · rw [max_eq_left hv]
        nlinarith [mul_nonneg (sq_nonneg u) hu, mul_nonneg (sq_nonneg u) (neg_nonneg.2 hv)]
      · rw [max_eq_right hv]
        nlinarith [mul_nonneg (add_nonneg hv (mul_nonneg zero_le_two hu)) (sq_nonneg (v - u))]
  have := key (1 - (a / k) ^ 2) (by nlinarith [sq_nonneg (a / k)]) (1 - (b / k) ^ 2)
  generalize max 0 (1 - (a / k) ^ 2) = p at *
  generalize max 0 (1 - (b / k) ^ 2) = q at *
  have e : (1 - (b / k) ^ 2 - (1 - (a / k) ^ 2)) * k ^ 2 = a ^ 2 - b ^ 2 := by field_simp; ring
  have h2 := mul_le_mul_of_nonneg_right this (sq_nonneg k)
  rw [mul_assoc, e] at h2
  nlinarith

/-- Sum of weighted squared residuals with the weights of `irls_step` at the current residuals. -/
noncomputable def wss (w : ℝ → ℝ) (sc : ℝ) (r r' : List ℝ) : ℝ :=
  (List.zipWith (fun a b => w (a / sc) * b ^ 2) r r').sum

theorem irls_descent (ρ w : ℝ → ℝ) (N : ℝ) (hN : 0 < N)
    (hm : ∀ a b, N * ρ b ≤ N * ρ a + w a / 2 * (b ^ 2 - a ^ 2))
    (sc : ℝ) (hs : 0 < sc) : ∀ r r' : List ℝ, r.length = r'.length →
    (r'.map fun x => ρ (x / sc)).sum ≤ (r.map fun x => ρ (x / sc)).sum +
      (wss w sc r r' - wss w sc r r) / (2 * N * sc ^ 2)
  | [], [], _ => by simp [wss]
  | a :: r, b :: r', h => by
    have ih := irls_descent ρ w N hN hm sc hs r r' (by simpa using h)
    have h1 := hm (a / sc) (b / sc)
    simp only [wss, List.map_cons, List.sum_cons, List.zipWith_cons_cons] at ih ⊢
    have e : w (a / sc) / 2 * ((b / sc) ^ 2 - (a / sc) ^ 2) =
        N * ((w (a / sc) * b ^ 2 - w (a / sc) * a ^ 2) / (2 * N * sc ^ 2)) := by
      field_simp
    rw [e, ← mul_add] at h1
    have h2 := le_of_mul_le_mul_left h1 hN
    have e2 : ∀ x y z t : ℝ, (x + y - (z + t)) / (2 * N * sc ^ 2) =
        (x - z) / (2 * N * sc ^ 2) + (y - t) / (2 * N * sc ^ 2) := fun x y z t => by ring
    rw [e2]
    linarith

/-- C72: with the scale held fixed, new residuals that do not increase the weighted sum of
squares (such as those of the weighted least-squares fit `nwls(X, y, w)`) do not increase the
robust objective (Huber). -/
theorem C72_huber (hc : 0 < tuning s c) {sc : ℝ} (hs : 0 < sc) (r r' : List ℝ)
    (hl : r.length = r'.length)
    (h : wss (fun x => huberWeights s x c) sc r r' ≤ wss (fun x => huberWeights s x c) sc r r) :
    (r'.map fun x => huberRho s (x / sc) c).sum ≤ (r.map fun x => huberRho s (x / sc) c).sum := by
  have := irls_descent (fun x => huberRho s x c) (fun x => huberWeights s x c) 1 one_pos
    (fun a b => by simpa using huber_majorise hc a b) sc hs r r' hl
  have h2 : (wss (fun x => huberWeights s x c) sc r r' - wss (fun x => huberWeights s x c) sc r r)
      / (2 * 1 * sc ^ 2) ≤ 0 := div_nonpos_of_nonpos_of_nonneg (by linarith) (by positivity)
  linarith

/-- C72 (bisquare). -/
theorem C72_bisq (hc : 0 < tuning s c) {sc : ℝ} (hs : 0 < sc) (r r' : List ℝ)
    (hl : r.length = r'.length)
    (h : wss (fun x => bisqWeights s x c) sc r r' ≤ wss (fun x => bisqWeights s x c) sc r r) :
    (r'.map fun x => bisqRho s (x / sc) c).sum ≤ (r.map fun x => bisqRho s (x / sc) c).sum := by
  have hN : 0 < bisqNorm s c := by simp only [bisqNorm]; positivity
  have := irls_descent (fun x => bisqRho s x c) (fun x => bisqWeights s x c) (bisqNorm s c) hN
    (fun a b => bisq_majorise hc a b) sc hs r r' hl
  have h2 : (wss (fun x => bisqWeights s x c) sc r r' - wss (fun x => bisqWeights s x c) sc r r)
      / (2 * bisqNorm s c * sc ^ 2) ≤ 0 :=
    div_nonpos_of_nonpos_of_nonneg (by linarith) (by positivity)
  linarith

example : wss (fun x => huberWeights 1.345 x none) 1 [1] [0] ≤
    wss (fun x => huberWeights 1.345 x none) 1 [1] [1] := by
  simp only [wss, List.zipWith_cons_cons, List.zipWith_nil_left, List.sum_cons, List.sum_nil]
  have := (C38_huber_range (s := 1.345) (c := none)
    (by simp only [tuning, Option.getD_none]; norm_num) (1 / 1)).1
  norm_num at this ⊢
  exact this.le

end Verif.Robust
