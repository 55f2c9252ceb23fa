import Verif.Mcmc.Model
import Verif.Rand.TruncProps
import Mathlib.MeasureTheory.Measure.Lebesgue.Basic
import Mathlib.Analysis.SpecialFunctions.Pow.Real
/-!
# C195: the updates of latent variables and thresholds
-/
namespace Verif.Mcmc
open Verif.Rand MeasureTheory

/-- The probability of accepting a proposal whose log density is larger by `d`. -/
noncomputable def accProb (d : ℝ) : ℝ := min 1 (Real.exp d)

/-- The probability, over the uniform draw, that the step moves. -/
theorem C195_mh_accept (f : ℝ → ℝ) (z x C : ℝ) :
    volume {u | u ∈ Set.Ioo (0:ℝ) 1 ∧ (mhStep f z x (Real.log u) C).2 = true} = ENNReal.ofReal (accProb (f (x * C + z) - f z)) := by
  set d := f (x * C + z) - f z with hd
  have e : {u | u ∈ Set.Ioo (0:ℝ) 1 ∧ (mhStep f z x (Real.log u) C).2 = true} = Set.Ioo 0 (min 1 (Real.exp d)) := by
    ext u
    simp only [Set.mem_setOf_eq, Set.mem_Ioo, lt_min_iff, mhStep]
    constructor
    · rintro ⟨⟨h1, h2⟩, h3⟩
      refine ⟨h1, h2, ?_⟩
      split at h3
      · rename_i h; exact (Real.log_lt_iff_lt_exp h1).1 h
      · cases h3
    · rintro ⟨h1, h2, h3⟩
      refine ⟨⟨h1, h2⟩, ?_⟩
      rw [if_pos ((Real.log_lt_iff_lt_exp h1).2 h3)]
  rw [e, Real.volume_Ioo, sub_zero]
  rfl

/-- A step that does not move keeps the old value, one that moves takes the proposal. -/
theorem C195_mh_step (f : ℝ → ℝ) (z x u C : ℝ) :
    (mhStep f z x u C).1 = if (mhStep f z x u C).2 then x * C + z else z := by
  unfold mhStep
  dsimp only
  split <;> simp

/-- Detailed balance: with the density `exp f` and the normal proposal of scale `C` the flow from `z` to `z'` is that from `z'` to
`z`. -/
theorem C195_mh_balance (f : ℝ → ℝ) (z z' C : ℝ) :
    Real.exp (f z) * (Real.exp (-((z' - z) / C) ^ 2 / 2) * accProb (f z' - f z)) =
      Real.exp (f z') * (Real.exp (-((z - z') / C) ^ 2 / 2) * accProb (f z - f z')) := by
  have h : Real.exp (f z) * accProb (f z' - f z) = Real.exp (f z') * accProb (f z - f z') := by
    unfold accProb
    rw [mul_min_of_nonneg _ _ (Real.exp_pos _).le, mul_min_of_nonneg _ _ (Real.exp_pos _).le, ← Real.exp_add, ← Real.exp_add, mul_one, mul_one,
      min_comm]
    congr 2 <;> ring
  rw [show ((z - z') / C) ^ 2 = ((z' - z) / C) ^ 2 by ring]
  linear_combination Real.exp (-((z' - z) / C) ^ 2 / 2) * h

/-- The normal density. -/
noncomputable def normDens (m s z : ℝ) : ℝ := Real.exp (-((z - m) / s) ^ 2 / 2) / (Real.sqrt (2 * Real.pi) * s)

theorem exp_normLogpdf (m z : ℝ) {s : ℝ} (hs : 0 < s) : Real.exp (normLogpdf m s z) = normDens m s z := by
  have h2 : 0 < Real.sqrt (2 * Real.pi) := Real.sqrt_pos.2 (by have := Real.pi_pos; linarith)
  unfold normLogpdf normDens
  rw [Real.exp_sub, Real.exp_sub, Real.exp_log h2, Real.exp_log hs, div_div]

/-- The logistic function. -/
noncomputable def expit (z : ℝ) : ℝ := 1 / (1 + Real.exp (-z))

theorem expit_eq (z : ℝ) : expit z = Real.exp z / (1 + Real.exp z) := by
  unfold expit
  rw [Real.exp_neg]
  have := Real.exp_pos z
  field_simp
  ring

theorem one_sub_expit (z : ℝ) : 1 - expit z = 1 / (1 + Real.exp z) := by
  rw [expit_eq]
  have := Real.exp_pos z
  field_simp
  ring

theorem expit_pos (z : ℝ) : 0 < expit z := by
  have := Real.exp_pos (-z)
  unfold expit; positivity

theorem expit_lt_one (z : ℝ) : expit z < 1 := by
  have h := one_sub_expit z
  have : 0 < 1 / (1 + Real.exp z) := by have := Real.exp_pos z; positivity
  linarith

theorem expit_mono : StrictMono expit := fun a b h => by
  have := Real.exp_pos (-a)
  have h1 := Real.exp_lt_exp.2 (neg_lt_neg h)
  have h2 := Real.exp_pos (-b)
  unfold expit
  exact one_div_lt_one_div_of_lt (by positivity) (by linarith)

/-- The target of `mh_lvar_binomial`: the binomial likelihood with logistic link of the proportion `y` out of `w` times the normal
density of the latent variable. -/
theorem C195_binomial (y w m z : ℝ) {s : ℝ} (hs : 0 < s) :
    Real.exp (binomLd y w m s z) = expit z ^ (y * w) * (1 - expit z) ^ ((1 - y) * w) * normDens m s z := by
  have h1 := Real.exp_pos z
  have h2 : 0 < 1 + Real.exp z := by positivity
  unfold binomLd
  rw [Real.exp_add, exp_normLogpdf m z hs, one_sub_expit, expit_eq, Real.div_rpow h1.le h2.le, Real.div_rpow zero_le_one h2.le, Real.one_rpow,
    ← Real.exp_mul, Real.rpow_def_of_pos h2, Real.rpow_def_of_pos h2, div_mul_div_comm, mul_one, ← Real.exp_add, ← Real.exp_sub]
  congr 2
  rw [add_comm (Real.exp z) 1]
  ring

/-- The target of `mh_lvar_poisson`: the Poisson probability of `y` with mean `exp z` times the normal density. -/
theorem C195_poisson (y : ℕ) (m z : ℝ) {s : ℝ} (hs : 0 < s) :
    Real.exp (poisLd y m s z) = Real.exp z ^ y * Real.exp (-Real.exp z) / (Nat.factorial y) * normDens m s z := by
  have hf : (0:ℝ) < Nat.factorial y := by exact_mod_cast Nat.factorial_pos y
  unfold poisLd
  rw [Real.exp_add, exp_normLogpdf m z hs, Real.Gamma_nat_eq_factorial, Real.exp_sub, Real.exp_sub, Real.exp_log hf]
  have : Real.exp (xlogy y (Real.exp z)) = Real.exp z ^ y := by
    unfold xlogy
    split
    · rename_i h
      have : y = 0 := by exact_mod_cast h
      subst this; simp
    · rw [Real.log_exp, ← Real.exp_nat_mul]
  rw [this, Real.exp_neg]
  field_simp

/-- The probability of the response given the latent variable. -/
noncomputable def bernP (pos : Bool) (z : ℝ) : ℝ := if pos then expit z else 1 - expit z

/-- `slice_sample_lvar`: the bound is that of the slice at height `p(y | z)` times the exponential of minus the exponential draw. -/
theorem C195_slice (e z x : ℝ) (he : 0 < e) :
    (sliceV true e z ≤ x ↔ bernP true z * Real.exp (-e) ≤ bernP true x) ∧
      (x ≤ sliceV false e z ↔ bernP false z * Real.exp (-e) ≤ bernP false x) := by
  have key : ∀ a : ℝ, 0 < a → a < 1 → ∀ x, (Real.log a - Real.log (1 - a) ≤ x ↔ a ≤ expit x) := fun a ha h1 x => by
    rw [expit_eq, ← Real.log_div ha.ne' (by linarith), Real.log_le_iff_le_exp (div_pos ha (by linarith)), div_le_iff₀ (by linarith),
      le_div_iff₀ (by have := Real.exp_pos x; positivity)]
    constructor <;> intro h <;> nlinarith
  have he1 : Real.exp (-e) < 1 := (Real.exp_lt_exp.2 (by linarith)).trans_eq Real.exp_zero
  have he0 := Real.exp_pos (-e)
  have hz := Real.exp_pos z
  constructor
  · have e1 : Real.exp (z - Real.log (1 + Real.exp z) - e) = expit z * Real.exp (-e) := by
      rw [sub_eq_add_neg _ e, Real.exp_add, Real.exp_sub, Real.exp_log (by positivity), expit_eq]
    have h0 := expit_pos z
    have h1 := expit_lt_one z
    have := key (expit z * Real.exp (-e)) (by positivity) (by nlinarith) x
    simp only [sliceV, bernP, if_true]
    rw [e1, ← this, Real.log_mul h0.ne' he0.ne', Real.log_exp, expit_eq, Real.log_div hz.ne' (by positivity), Real.log_exp,
      ← sub_eq_add_neg, ← sub_eq_add_neg]
  · have e1 : Real.exp (-Real.log (1 + Real.exp z) - e) = (1 - expit z) * Real.exp (-e) := by
      rw [sub_eq_add_neg _ e, Real.exp_add, Real.exp_neg, Real.exp_log (by positivity), one_sub_expit, one_div]
    have h0 : 0 < 1 - expit z := by linarith [expit_lt_one z]
    have h1 := expit_pos z
    have := key ((1 - expit z) * Real.exp (-e)) (by positivity) (by nlinarith) (-x)
    have ex : expit (-x) = 1 - expit x := by rw [one_sub_expit, expit, neg_neg]
    rw [ex, Real.log_mul h0.ne' he0.ne', Real.log_exp, one_sub_expit, one_div, Real.log_inv] at this
    simp only [sliceV, bernP, Bool.false_eq_true, if_false]
    rw [e1, one_sub_expit z, one_div, ← this]
    constructor <;> intro h <;> simp only [sub_eq_add_neg] at h ⊢ <;> linarith

/-- The old value lies in the slice. -/
theorem C195_slice_old (e z : ℝ) (he : 0 < e) : sliceV true e z ≤ z ∧ z ≤ sliceV false e z := by
  have h1 : Real.exp (-e) ≤ 1 := Real.exp_le_one_iff.2 (by linarith)
  refine ⟨(C195_slice e z z he).1.2 ?_, (C195_slice e z z he).2.2 ?_⟩
  · simp only [bernP, if_true]
    exact mul_le_of_le_one_right (expit_pos z).le h1
  · simp only [bernP, Bool.false_eq_true, if_false]
    exact mul_le_of_le_one_right (by linarith [expit_lt_one z]) h1

/-- The draw lies in the slice and stays between -200 and 200 if the old value does: the limits ±200, which replace the infinite ends
of the slice, are kept. -/
theorem C195_slice_draw (cdf : ℝ → ℝ) (pos : Bool) {e z pred s2 v : ℝ} (he : 0 < e) (hs : 0 < s2) (hz : |z| ≤ 200)
    (draws : List (ℝ × ℝ)) (hl : -1e16 ≤ sliceV pos e z) (hu : sliceV pos e z ≤ 1e16)
    (hd : if pos then DrawsOk cdf pred (Real.sqrt s2 * 1) (sliceV pos e z) (200 * 1) draws
      else DrawsOk cdf pred (Real.sqrt s2 * 1) (-200 * 1) (sliceV pos e z) draws)
    (h : sliceStep cdf pos e z pred s2 draws = some v) :
    bernP pos z * Real.exp (-e) ≤ bernP pos v ∧ (if pos then v ≤ 200 else -200 ≤ v) := by
  have hsd : 0 < Real.sqrt s2 * 1 := by rw [mul_one]; exact Real.sqrt_pos.2 hs
  obtain ⟨a1, a2⟩ := abs_le.1 hz
  obtain ⟨o1, o2⟩ := C195_slice_old e z he
  unfold sliceStep at h
  cases pos with
  | true =>
    simp only [if_true] at h hd ⊢
    have := C170_bounds_partial cdf pred _ _ _ hsd (by linarith) (fun hh => absurd hh.1 (not_lt.2 hl)) draws hd h
    have b1 := this.1 (not_lt.2 hl)
    have b2 := this.2 (by norm_num)
    exact ⟨(C195_slice e z v he).1.1 b1, by linarith⟩
  | false =>
    simp only [Bool.false_eq_true, if_false] at h hd ⊢
    have := C170_bounds_partial cdf pred _ _ _ hsd (by linarith) (fun hh => absurd hh.1 (by norm_num)) draws hd h
    have b1 := this.1 (by norm_num)
    have b2 := this.2 (not_lt.2 hu)
    exact ⟨(C195_slice e z v he).2.1 b2, by linarith⟩

/-- `mh_lvar_ordinal_probit`: the draw of an observation of an inner category lies between the two thresholds. -/
theorem C195_ordinal_bounds (cdf : ℝ → ℝ) {K c : ℕ} {t : ℕ → ℝ} (hc : 0 < c) (hK : c < K) (ht : t (c - 1) ≤ t c) {pred s2 v : ℝ} (hs : 0 < s2)
    (draws : List (ℝ × ℝ)) (hl : -1e16 ≤ t (c - 1)) (hu : t c ≤ 1e16)
    (hd : DrawsOk cdf pred (1 * Real.sqrt s2) (1 * tauPad K t c) (1 * tauPad K t (c + 1)) draws)
    (h : ordStep cdf K t c pred s2 draws = some v) : t (c - 1) ≤ v ∧ v ≤ t c := by
  have hsd : 0 < 1 * Real.sqrt s2 := by rw [one_mul]; exact Real.sqrt_pos.2 hs
  have e1 : tauPad K t c = t (c - 1) := by simp [tauPad, hc.ne', hK.le]
  have e2 : tauPad K t (c + 1) = t c := by
    have : c + 1 ≤ K := hK
    simp [tauPad, this]
  unfold ordStep at h
  rw [e1, e2] at h hd
  have := C170_bounds_partial cdf pred _ _ _ hsd (by linarith) (fun hh => absurd hh.1 (not_lt.2 (by linarith))) draws hd h
  have b1 := this.1 (not_lt.2 (by linarith))
  have b2 := this.2 (not_lt.2 (by linarith))
  constructor <;> linarith

/-- The draws of the lowest and the highest category lie below the first and above the last threshold. -/
theorem C195_ordinal_ends (cdf : ℝ → ℝ) {K : ℕ} {t : ℕ → ℝ} (hK : 0 < K) (hl : ∀ i, -1e16 ≤ t i) (hu : ∀ i, t i ≤ 1e16) {pred s2 v : ℝ}
    (hs : 0 < s2) (draws : List (ℝ × ℝ)) :
    (DrawsOk cdf pred (1 * Real.sqrt s2) (1 * tauPad K t 0) (1 * tauPad K t 1) draws → ordStep cdf K t 0 pred s2 draws = some v → v ≤ t 0) ∧
      (DrawsOk cdf pred (1 * Real.sqrt s2) (1 * tauPad K t K) (1 * tauPad K t (K + 1)) draws → ordStep cdf K t K pred s2 draws = some v →
        t (K - 1) ≤ v) := by
  have hsd : 0 < 1 * Real.sqrt s2 := by rw [one_mul]; exact Real.sqrt_pos.2 hs
  refine ⟨fun hd h => ?_, fun hd h => ?_⟩
  · have e1 : tauPad K t 0 = -1e17 := by simp [tauPad]
    have e2 : tauPad K t 1 = t 0 := by
      have : 1 ≤ K := hK
      simp [tauPad, this]
    unfold ordStep at h
    rw [e1] at h hd
    rw [zero_add, e2] at h
    rw [e2] at hd
    have u0 := hu 0
    have l0 := hl 0
    have := C170_bounds_partial cdf pred _ _ _ hsd (by norm_num at l0 ⊢; linarith) (fun hh => absurd hh.2 (not_lt.2 (by linarith))) draws hd h
    have := this.2 (not_lt.2 (by linarith))
    linarith
  · have e1 : tauPad K t K = t (K - 1) := by simp [tauPad, hK.ne']
    have e2 : tauPad K t (K + 1) = 1e17 := by simp [tauPad]
    unfold ordStep at h
    rw [e1, e2] at h hd
    have u0 := hu (K - 1)
    have l0 := hl (K - 1)
    have := C170_bounds_partial cdf pred _ _ _ hsd (by norm_num at u0 ⊢; linarith) (fun hh => absurd hh.1 (not_lt.2 (by linarith))) draws hd h
    have := this.1 (not_lt.2 (by linarith))
    linarith

theorem exp_alpha {t x : ℕ → ℝ} {C : ℝ} (h0 : 0 < t 0) : Real.exp (alphaProp t x C 0) = t 0 := by
  simp [alphaProp, Real.exp_log h0]

/-- Proposed thresholds keep the first one and are increasing. -/
theorem C195_tau_proposal (t x : ℕ → ℝ) (C : ℝ) (h0 : 0 < t 0) : tProp t x C 0 = t 0 ∧ StrictMono (tProp t x C) := by
  refine ⟨by simp [tProp, exp_alpha h0], strictMono_nat_of_lt_succ fun i => ?_⟩
  unfold tProp
  rw [Finset.sum_range_succ _ (i + 1)]
  linarith [Real.exp_pos (alphaProp t x C (i + 1))]

/-- With no step the proposal is the old thresholds. -/
theorem C195_tau_fixed (t x : ℕ → ℝ) (h0 : 0 < t 0) (ht : StrictMono t) (i : ℕ) : tProp t x 0 i = t i := by
  induction i with
  | zero => simp [tProp, exp_alpha h0]
  | succ i ih =>
    unfold tProp at ih ⊢
    rw [Finset.sum_range_succ, ih]
    have h : 0 < t (i + 1) - t i := sub_pos.2 (ht (Nat.lt_succ_self i))
    simp [alphaProp, Real.exp_log h]

/-- The log likelihood of thresholds, given the linear predictor: category `c` of `0, …, K` has probability
`cdf ((t c - m)/s) - cdf ((t (c-1) - m)/s)`, with `t (-1) = -∞`, `t K = ∞`. -/
noncomputable def ordLl {n : ℕ} (cdf : ℝ → ℝ) (K : ℕ) (y : Fin n → ℕ) (pred : Fin n → ℝ) (s : ℝ) (t : ℕ → ℝ) : ℝ :=
  ∑ j, Real.log ((if y j = K then 1 else cdf ((t (y j) - pred j) / s)) - (if y j = 0 then 0 else cdf ((t (y j - 1) - pred j) / s)))

theorem catSum_split {n : ℕ} (K : ℕ) (y : Fin n → ℕ) (hy : ∀ j, y j ≤ K) (f : ℕ → Fin n → ℝ) :
    ∑ j, f (y j) j = ∑ c ∈ Finset.range (K + 1), catSum y c (f c) := by
  unfold catSum
  rw [Finset.sum_comm]
  refine Finset.sum_congr rfl fun j _ => ?_
  rw [Finset.sum_ite_eq (Finset.range (K + 1)) (y j) (fun c => f c j)]
  simp [Nat.lt_succ_of_le (hy j)]

/-- `sample_tau`: from three categories on, the statistic is the difference of the log likelihoods of the proposed and the old
thresholds: `m` is the linear predictor, the latent variables are integrated out. -/
theorem C195_tau_ratio {n : ℕ} (cdf : ℝ → ℝ) {K : ℕ} (hK : 1 < K) (y : Fin n → ℕ) (hy : ∀ j, y j ≤ K) (pred : Fin n → ℝ) (s : ℝ)
    (t t' : ℕ → ℝ) (h0 : t' 0 = t 0) :
    tauLl cdf K y pred s t t' = some (ordLl cdf K y pred s t' - ordLl cdf K y pred s t) := by
  unfold tauLl
  rw [if_neg (by omega)]
  dsimp only
  congr 1
  have hsp : ∀ r : ℕ → ℝ, ordLl cdf K y pred s r =
      catSum y 0 (fun j => Real.log (cdf ((r 0 - pred j) / s))) +
      ∑ i ∈ Finset.Ico 1 K, catSum y i (fun j => Real.log (cdf ((r i - pred j) / s) - cdf ((r (i - 1) - pred j) / s))) +
      catSum y K (fun j => Real.log (1 - cdf ((r (K - 1) - pred j) / s))) := fun r => by
    unfold ordLl
    rw [catSum_split K y hy (fun c j => Real.log ((if c = K then 1 else cdf ((r c - pred j) / s)) -
      (if c = 0 then 0 else cdf ((r (c - 1) - pred j) / s)))), Finset.sum_range_succ, Finset.range_eq_Ico,
      Finset.sum_eq_sum_Ico_succ_bot (by omega)]
    congr 1
    · congr 1
      · congr 1
        ext j
        rw [if_neg (by omega), if_pos rfl, sub_zero]
      · refine Finset.sum_congr rfl fun i hi => ?_
        rw [Finset.mem_Ico] at hi
        congr 1
        ext j
        rw [if_neg (by omega), if_neg (by omega)]
    · congr 1
      ext j
      rw [if_pos rfl, if_neg (by omega)]
  rw [hsp, hsp, h0, Finset.sum_sub_distrib, show K - 1 + 1 = K by omega]
  ring

/-- The step of the thresholds from three categories on: defined, moves to the proposal or stays, and moves if the logarithm of the
uniform draw is below the log likelihood ratio. -/
theorem C195_tau_step {n : ℕ} (cdf : ℝ → ℝ) {K : ℕ} (hK : 1 < K) (y : Fin n → ℕ) (hy : ∀ j, y j ≤ K) (pred : Fin n → ℝ) (s2 : ℝ)
    (t x : ℕ → ℝ) (C u : ℝ) (h0 : 0 < t 0) :
    sampleTau cdf K y pred s2 t x C u =
      open Classical in
      if Real.log u < ordLl cdf K y pred (Real.sqrt s2) (tProp t x C) - ordLl cdf K y pred (Real.sqrt s2) t
      then some (tProp t x C, true) else some (t, false) := by
  unfold sampleTau
  dsimp only
  rw [C195_tau_ratio cdf hK y hy pred _ t (tProp t x C) (C195_tau_proposal t x C h0).1]
  simp only [Option.bind_eq_bind, Option.bind_some]
  split <;> rfl

/-- With two categories sampling raises. -/
theorem C195_tau_binary_violated {n : ℕ} (cdf : ℝ → ℝ) (y : Fin n → ℕ) (pred : Fin n → ℝ) (s2 : ℝ) (t x : ℕ → ℝ) (C u : ℝ) :
    sampleTau cdf 1 y pred s2 t x C u = none := by
  unfold sampleTau tauLl
  simp

/-- The running acceptance rate stays between zero and one. -/
theorem C195_adapt_rate {d r a0 : ℝ} (hd : 0 ≤ d) (as : List (Bool × ℝ)) (ha : ∀ a ∈ as, 0 ≤ a.2 ∧ a.2 ≤ 1) {st : Adapt}
    (h : 0 ≤ st.waccept ∧ st.waccept ≤ st.wtrace ∧ 1 ≤ st.wtrace) :
    let st' := as.foldl (fun st a => adaptStep d r a0 a.1 st a.2) st
    0 ≤ st'.waccept / st'.wtrace ∧ st'.waccept / st'.wtrace ≤ 1 := by
  have key : ∀ (as : List (Bool × ℝ)), (∀ a ∈ as, 0 ≤ a.2 ∧ a.2 ≤ 1) → ∀ st : Adapt,
      (0 ≤ st.waccept ∧ st.waccept ≤ st.wtrace ∧ 1 ≤ st.wtrace) →
      let st' := as.foldl (fun st a => adaptStep d r a0 a.1 st a.2) st
      0 ≤ st'.waccept ∧ st'.waccept ≤ st'.wtrace ∧ 1 ≤ st'.wtrace := by
    intro as
    induction as with
    | nil => intro _ st h; exact h
    | cons a as ih =>
      intro ha st ⟨h1, h2, h3⟩
      rw [List.foldl_cons]
      refine ih (fun b hb => ha b (List.mem_cons_of_mem _ hb)) _ ?_
      obtain ⟨b1, b2⟩ := ha a (by simp)
      simp only [adaptStep]
      refine ⟨by positivity, ?_, ?_⟩
      · nlinarith
      · nlinarith
  obtain ⟨k1, k2, k3⟩ := key as ha st h
  exact ⟨div_nonneg k1 (by linarith), div_le_one_of_le₀ k2 (by linarith)⟩

/-- The scale of the proposal stays positive; it grows exactly when the running rate exceeds the target. -/
theorem C195_adapt_scale {d r a0 a : ℝ} (hr : 1 < r) {st : Adapt} (h : 0 < st.propC) :
    0 < (adaptStep d r a0 true st a).propC ∧
      (st.propC < (adaptStep d r a0 true st a).propC ↔ a0 < (adaptStep d r a0 true st a).waccept / (adaptStep d r a0 true st a).wtrace) := by
  simp only [adaptStep, if_true]
  have h0 : 0 < r ^ ((st.waccept * d + a) / (st.wtrace * d + 1) - a0) := Real.rpow_pos_of_pos (by linarith) _
  refine ⟨mul_pos h (Real.sqrt_pos.2 h0), ?_⟩
  rw [lt_mul_iff_one_lt_right h, Real.lt_sqrt zero_le_one, one_pow]
  constructor
  · intro hh
    by_contra hc
    have : r ^ ((st.waccept * d + a) / (st.wtrace * d + 1) - a0) ≤ 1 := Real.rpow_le_one_of_one_le_of_nonpos hr.le (by linarith)
    linarith
  · intro hh
    exact Real.one_lt_rpow hr (by linarith)

example : (0:ℝ) ≤ (Adapt.mk 1 1 0.04).waccept ∧ (Adapt.mk 1 1 0.04).waccept ≤ (Adapt.mk 1 1 0.04).wtrace ∧ 1 ≤ (Adapt.mk 1 1 0.04).wtrace := by
  norm_num

end Verif.Mcmc
