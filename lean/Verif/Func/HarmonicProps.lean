import Verif.Func.Harmonic
import Verif.Func.Props
import Mathlib.NumberTheory.Harmonic.EulerMascheroni
import Mathlib.Analysis.Calculus.Deriv.MeanValue
import Mathlib.Analysis.SpecialFunctions.Log.Deriv
import Mathlib.Analysis.Complex.ExponentialBounds
import Mathlib.Tactic.NormNum.BigOperators

namespace Verif.Func
open Filter Topology Real Set

/-- **C254** `harmonic_exact` is the harmonic number, for all numbers within reach of the recursion. -/
theorem C254_exact (n : ℕ) (h1 : 1 ≤ n) (hn : (n : ℤ) ≤ 2 ^ 200) : harmonicExact 1000 n = some ((_root_.harmonic n : ℚ) : ℝ) := by
  obtain ⟨p, q, h, hq, hs⟩ := C22_harmonic_fraction n (by exact_mod_cast h1) hn
  rw [harmonicExact, h]
  show some ((p : ℝ) / q) = _
  congr 1
  have e : (p : ℚ) / q = _root_.harmonic n := by
    rw [hs, _root_.harmonic]
    symm
    refine Finset.sum_bij (fun i _ => (i : ℤ) + 1) ?_ ?_ ?_ ?_
    · intro i hi
      rw [Finset.mem_range] at hi
      simp only [Finset.mem_Ico, Finset.mem_Icc]
      omega
    · intro i _ j _ h
      omega
    · intro z hz
      simp only [Finset.mem_Ico, Finset.mem_Icc] at hz
      exact ⟨(z - 1).toNat, by rw [Finset.mem_range]; omega, by omega⟩
    · intro i _
      push_cast
      rw [one_div]
  rw [← e]
  push_cast
  rfl

/-! ### The expansion -/

/-- The first terms of the expansion, with the coefficient of the last as an argument. -/
noncomputable def gExp (a b t : ℝ) : ℝ := 1 / (2 * t) - 1 / (12 * t ^ 2) + a / t ^ 4 - b / t ^ 6

theorem gExp_deriv (a b : ℝ) {t : ℝ} (ht : 0 < t) : HasDerivAt (gExp a b) (-1 / (2 * t ^ 2) + 1 / (6 * t ^ 3) - 4 * a / t ^ 5 + 6 * b / t ^ 7) t := by
  have h0 := ht.ne'
  have e : gExp a b = fun t => 1 / 2 * t⁻¹ - 1 / 12 * (t ^ 2)⁻¹ + a * (t ^ 4)⁻¹ - b * (t ^ 6)⁻¹ := by
    funext s
    simp only [gExp, div_eq_mul_inv, mul_inv]
    ring
  rw [e]
  have d1 := (hasDerivAt_inv h0).const_mul (1 / 2 : ℝ)
  have d2 := ((hasDerivAt_pow 2 t).inv (pow_ne_zero 2 h0)).const_mul (1 / 12 : ℝ)
  have d4 := ((hasDerivAt_pow 4 t).inv (pow_ne_zero 4 h0)).const_mul a
  have d6 := ((hasDerivAt_pow 6 t).inv (pow_ne_zero 6 h0)).const_mul b
  refine (((d1.sub d2).add d4).sub d6).congr_deriv ?_
  push_cast
  field_simp
  ring

theorem gExp_lim (a b : ℝ) : Tendsto (gExp a b) atTop (𝓝 0) := by
  have e : gExp a b = fun t => 1 / 2 * t⁻¹ - 1 / 12 * (t ^ 2)⁻¹ + a * (t ^ 4)⁻¹ - b * (t ^ 6)⁻¹ := by
    funext s
    simp only [gExp, div_eq_mul_inv, mul_inv]
    ring
  rw [e]
  have p : ∀ k : ℕ, k ≠ 0 → Tendsto (fun t : ℝ => (t ^ k)⁻¹) atTop (𝓝 0) := fun k hk => (tendsto_pow_atTop hk).inv_tendsto_atTop
  have := (((tendsto_inv_atTop_zero.const_mul (1 / 2 : ℝ)).sub ((p 2 (by norm_num)).const_mul (1 / 12 : ℝ))).add ((p 4 (by norm_num)).const_mul a)).sub
    ((p 6 (by norm_num)).const_mul b)
  simpa using this

/-- The step of the expansion less the step of the harmonic numbers. -/
noncomputable def fStep (a b t : ℝ) : ℝ := gExp a b t - gExp a b (t + 1) - (log (t + 1) - log t) + 1 / (t + 1)

theorem fStep_deriv (a b : ℝ) {t : ℝ} (ht : 0 < t) : HasDerivAt (fStep a b)
    ((-1 / (2 * t ^ 2) + 1 / (6 * t ^ 3) - 4 * a / t ^ 5 + 6 * b / t ^ 7) -
      (-1 / (2 * (t + 1) ^ 2) + 1 / (6 * (t + 1) ^ 3) - 4 * a / (t + 1) ^ 5 + 6 * b / (t + 1) ^ 7) - (1 / (t + 1) - 1 / t) - 1 / (t + 1) ^ 2) t := by
  have h0 := ht.ne'
  have h1 : t + 1 ≠ 0 := by positivity
  have da : HasDerivAt (fun t : ℝ => t + 1) 1 t := (hasDerivAt_id t).add_const 1
  have d1 := gExp_deriv a b ht
  have d2 := (gExp_deriv a b (by positivity : 0 < t + 1)).comp_add_const t 1
  have d3 := da.log h1
  have d4 := Real.hasDerivAt_log h0
  have d5 := da.inv h1
  have e : fStep a b = fun t => gExp a b t - gExp a b (t + 1) - (log (t + 1) - log t) + (t + 1)⁻¹ := by
    funext s
    simp only [fStep, one_div]
  rw [e]
  refine ((((d1.sub d2).sub (d3.sub d4))).add d5).congr_deriv ?_
  simp only [mul_one, one_div, neg_div, sub_eq_add_neg]

theorem fStep_lim (a b : ℝ) : Tendsto (fStep a b) atTop (𝓝 0) := by
  have s : Tendsto (fun t : ℝ => t + 1) atTop atTop := tendsto_atTop_add_const_right _ _ tendsto_id
  have := (((gExp_lim a b).sub ((gExp_lim a b).comp s)).sub (tendsto_log_comp_add_sub_log 1)).add (tendsto_inv_atTop_zero.comp s)
  simp only [sub_zero, add_zero] at this
  refine this.congr fun t => ?_
  simp only [fStep, Function.comp, one_div]

/-- With one term more than the code has, the step of the expansion is too large. -/
theorem fStep_upper {t : ℝ} (ht : 0 < t) : 0 ≤ fStep (1 / 120) 0 t := by
  have hd : AntitoneOn (fStep (1 / 120) 0) (Ioi 0) := by
    apply antitoneOn_of_deriv_nonpos (convex_Ioi 0)
    · exact fun s hs => (fStep_deriv _ _ hs).continuousAt.continuousWithinAt
    · rw [interior_Ioi]
      exact fun s hs => (fStep_deriv _ _ hs).differentiableAt.differentiableWithinAt
    · rw [interior_Ioi]
      intro s hs
      have hs' : 0 < s := hs
      rw [(fStep_deriv _ _ hs').deriv]
      have e : ((-1 / (2 * s ^ 2) + 1 / (6 * s ^ 3) - 4 * (1 / 120) / s ^ 5 + 6 * 0 / s ^ 7) -
          (-1 / (2 * (s + 1) ^ 2) + 1 / (6 * (s + 1) ^ 3) - 4 * (1 / 120) / (s + 1) ^ 5 + 6 * 0 / (s + 1) ^ 7) - (1 / (s + 1) - 1 / s) - 1 / (s + 1) ^ 2) =
          -((5 * s ^ 2 + 5 * s + 1) / (30 * s ^ 5 * (s + 1) ^ 5)) := by
        field_simp
        ring
      rw [e, neg_nonpos]
      positivity
  refine le_of_tendsto (fStep_lim (1 / 120) 0) ?_
  filter_upwards [eventually_ge_atTop t] with s hs
  exact hd ht (lt_of_lt_of_le ht hs) hs

theorem fStep_lower {t : ℝ} (ht : 0 < t) : fStep (1 / 120) (1 / 252) t ≤ 0 := by
  have hd : MonotoneOn (fStep (1 / 120) (1 / 252)) (Ioi 0) := by
    apply monotoneOn_of_deriv_nonneg (convex_Ioi 0)
    · exact fun s hs => (fStep_deriv _ _ hs).continuousAt.continuousWithinAt
    · rw [interior_Ioi]
      exact fun s hs => (fStep_deriv _ _ hs).differentiableAt.differentiableWithinAt
    · rw [interior_Ioi]
      intro s hs
      have hs' : 0 < s := hs
      rw [(fStep_deriv _ _ hs').deriv]
      have e : ((-1 / (2 * s ^ 2) + 1 / (6 * s ^ 3) - 4 * (1 / 120) / s ^ 5 + 6 * (1 / 252) / s ^ 7) -
          (-1 / (2 * (s + 1) ^ 2) + 1 / (6 * (s + 1) ^ 3) - 4 * (1 / 120) / (s + 1) ^ 5 + 6 * (1 / 252) / (s + 1) ^ 7) - (1 / (s + 1) - 1 / s) - 1 / (s + 1) ^ 2) =
          (63 * s ^ 4 + 126 * s ^ 3 + 98 * s ^ 2 + 35 * s + 5) / (210 * s ^ 7 * (s + 1) ^ 7) := by
        field_simp
        ring
      rw [e]
      positivity
  refine ge_of_tendsto (fStep_lim (1 / 120) (1 / 252)) ?_
  filter_upwards [eventually_ge_atTop t] with s hs
  exact hd ht (lt_of_lt_of_le ht hs) hs

/-- The error of the expansion. -/
noncomputable def eSeq (a b : ℝ) (m : ℕ) : ℝ := eulerMascheroniConstant + log ((m + 1 : ℕ) : ℝ) + gExp a b ((m + 1 : ℕ) : ℝ) - ((_root_.harmonic (m + 1) : ℚ) : ℝ)

theorem eSeq_step (a b : ℝ) (m : ℕ) : eSeq a b m - eSeq a b (m + 1) = fStep a b ((m + 1 : ℕ) : ℝ) := by
  simp only [eSeq, fStep]
  rw [_root_.harmonic_succ (m + 1)]
  push_cast
  ring

theorem eSeq_lim (a b : ℝ) : Tendsto (eSeq a b) atTop (𝓝 0) := by
  have s : Tendsto (fun m : ℕ => m + 1) atTop atTop := tendsto_add_atTop_nat 1
  have h1 := tendsto_harmonic_sub_log.comp s
  have h2 := ((gExp_lim a b).comp tendsto_natCast_atTop_atTop).comp s
  have := ((tendsto_const_nhds (x := eulerMascheroniConstant)).add h2).sub h1
  simp only [add_zero, sub_self] at this
  refine this.congr fun m => ?_
  simp only [eSeq, Function.comp]
  ring

/-- **C254** The expansion with the coefficient 1/120 is above the harmonic number, by at most the next term. -/
theorem C254_expansion (n : ℕ) (hn : 1 ≤ n) :
    0 ≤ eulerMascheroniConstant + log n + 1 / (2 * n) - 1 / (12 * (n : ℝ) ^ 2) + 1 / (120 * (n : ℝ) ^ 4) - ((_root_.harmonic n : ℚ) : ℝ) ∧
    eulerMascheroniConstant + log n + 1 / (2 * n) - 1 / (12 * (n : ℝ) ^ 2) + 1 / (120 * (n : ℝ) ^ 4) - ((_root_.harmonic n : ℚ) : ℝ) ≤ 1 / (252 * (n : ℝ) ^ 6) := by
  obtain ⟨m, rfl⟩ : ∃ m, n = m + 1 := ⟨n - 1, by omega⟩
  have hp : ∀ k : ℕ, (0 : ℝ) < ((k + 1 : ℕ) : ℝ) := fun k => by positivity
  have a1 : Antitone (eSeq (1 / 120) 0) := antitone_nat_of_succ_le fun k => by
    have := eSeq_step (1 / 120) 0 k
    linarith [fStep_upper (hp k)]
  have a2 : Monotone (eSeq (1 / 120) (1 / 252)) := monotone_nat_of_le_succ fun k => by
    have := eSeq_step (1 / 120) (1 / 252) k
    linarith [fStep_lower (hp k)]
  have b1 := a1.le_of_tendsto (eSeq_lim _ _) m
  have b2 := a2.ge_of_tendsto (eSeq_lim _ _) m
  simp only [eSeq, gExp] at b1 b2
  have e1 : (1 : ℝ) / 120 / ((m + 1 : ℕ) : ℝ) ^ 4 = 1 / (120 * ((m + 1 : ℕ) : ℝ) ^ 4) := by rw [div_div]
  have e2 : (1 : ℝ) / 252 / ((m + 1 : ℕ) : ℝ) ^ 6 = 1 / (252 * ((m + 1 : ℕ) : ℝ) ^ 6) := by rw [div_div]
  rw [e1, zero_div] at b1
  rw [e1, e2] at b2
  constructor <;> linarith

theorem asym_gap (gam : ℝ) (n : ℕ) (hn : 1 ≤ n) : harmonicAsym gam n =
    eulerMascheroniConstant + log n + 1 / (2 * n) - 1 / (12 * (n : ℝ) ^ 2) + 1 / (120 * (n : ℝ) ^ 4) + (gam - eulerMascheroniConstant) - 1 / (18120 * (n : ℝ) ^ 4) := by
  have h : (0 : ℝ) < n := by exact_mod_cast hn
  rw [harmonicAsym]
  have : 1 / (120.8 * (n : ℝ) ^ 4) = 1 / (120 * (n : ℝ) ^ 4) - 1 / (18120 * (n : ℝ) ^ 4) := by
    field_simp
    norm_num
  rw [this]
  ring

/-- **C254** The accuracy of the code, in terms of that of its constant. -/
theorem C254_accuracy_partial (gam : ℝ) (n : ℕ) (hn : 1 ≤ n) :
    |((_root_.harmonic n : ℚ) : ℝ) - harmonicAsym gam n| ≤ |gam - eulerMascheroniConstant| + 1 / (18120 * (n : ℝ) ^ 4) + 1 / (252 * (n : ℝ) ^ 6) := by
  obtain ⟨h1, h2⟩ := C254_expansion n hn
  have h : (0 : ℝ) < n := by exact_mod_cast hn
  have p1 : 0 < 1 / (18120 * (n : ℝ) ^ 4) := by positivity
  have p2 : 0 < 1 / (252 * (n : ℝ) ^ 6) := by positivity
  rw [asym_gap gam n hn]
  have g1 := neg_abs_le (gam - eulerMascheroniConstant)
  have g2 := le_abs_self (gam - eulerMascheroniConstant)
  rw [abs_le]
  constructor <;> linarith

/-- **C254** The last coefficient is wrong: with the exact constant the error exceeds the bound of the expansion for every number from twelve on. -/
theorem C254_coefficient_violated (n : ℕ) (hn : 12 ≤ n) :
    1 / (252 * (n : ℝ) ^ 6) < ((_root_.harmonic n : ℚ) : ℝ) - harmonicAsym eulerMascheroniConstant n := by
  obtain ⟨h1, h2⟩ := C254_expansion n (by omega)
  rw [asym_gap _ n (by omega)]
  have h : (12 : ℝ) ≤ n := by exact_mod_cast hn
  have hpos : (0 : ℝ) < n := by linarith
  have key : 2 * (1 / (252 * (n : ℝ) ^ 6)) < 1 / (18120 * (n : ℝ) ^ 4) := by
    rw [mul_one_div, div_lt_div_iff₀ (by positivity) (by positivity)]
    have h2 : (144 : ℝ) ≤ n ^ 2 := by nlinarith
    have h4 : (0 : ℝ) < (n : ℝ) ^ 4 := by positivity
    have : (n : ℝ) ^ 6 = n ^ 4 * n ^ 2 := by ring
    rw [this]
    nlinarith
  linarith

/-- **C254** The constant of the code is Euler's to a part in a thousand million. -/
theorem C254_constant : |gammaLit - eulerMascheroniConstant| ≤ 1 / 10 ^ 9 := by
  obtain ⟨h1, h2⟩ := C254_expansion 16 (by norm_num)
  have hl : log ((16 : ℕ) : ℝ) = 4 * log 2 := by
    rw [show ((16 : ℕ) : ℝ) = 2 ^ 4 by norm_num, Real.log_pow]
    norm_num
  have hh : _root_.harmonic 16 = 2436559 / 720720 := by
    norm_num [_root_.harmonic, Finset.sum_range_succ]
  have l := abs_le.1 Real.log_two_near_10
  rw [hl, hh] at h1 h2
  push_cast at h1 h2
  norm_num at h1 h2
  obtain ⟨l1, l2⟩ := l
  rw [gammaLit, abs_le]
  norm_num at l1 l2 ⊢
  constructor <;> linarith

end Verif.Func
