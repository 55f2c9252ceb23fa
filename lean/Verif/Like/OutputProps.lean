import Verif.Like.Output
import Mathlib.Tactic.FieldSimp
import Mathlib.Tactic.Linarith
/-!
# C154: parameter tables and BCa intervals of `utilities/output.py`
-/
namespace Verif.Like.Output

/-- A continuous distribution symmetric about zero with full support, with distribution function `F` and quantile function `q`. -/
structure SymDist (F q : ℝ → ℝ) : Prop where
  mono : StrictMono F
  pos : ∀ x, 0 < F x
  symm : ∀ x, F (-x) = 1 - F x
  inv : ∀ u, 0 < u → u < 1 → F (q u) = u

namespace SymDist
variable {F q : ℝ → ℝ}

theorem half (h : SymDist F q) : F 0 = 1 / 2 := by have := h.symm 0; rw [neg_zero] at this; linarith

theorem lt_one (h : SymDist F q) (x : ℝ) : F x < 1 := by have := h.symm x; have := h.pos (-x); linarith

theorem anti (h : SymDist F q) {u : ℝ} (h0 : 0 < u) (h1 : u < 1) : q (1 - u) = -q u := by
  apply h.mono.injective
  rw [h.inv _ (by linarith) (by linarith), h.symm, h.inv u h0 h1]

theorem left (h : SymDist F q) (x : ℝ) : q (F x) = x := h.mono.injective (h.inv _ (h.pos x) (h.lt_one x))

theorem lt_q (h : SymDist F q) {u : ℝ} (h0 : 0 < u) (h1 : u < 1) (x : ℝ) : x < q u ↔ F x < u := by
  rw [← h.mono.lt_iff_lt, h.inv u h0 h1]

theorem q_lt (h : SymDist F q) {u : ℝ} (h0 : 0 < u) (h1 : u < 1) (x : ℝ) : q u < x ↔ u < F x := by
  rw [← h.mono.lt_iff_lt, h.inv u h0 h1]

theorem q_half (h : SymDist F q) : q (1 / 2) = 0 := by rw [← h.half, h.left]

end SymDist

/-- There is such a distribution: the logistic one. -/
theorem symDist_exists : SymDist (fun x => 1 / (1 + Real.exp (-x))) (fun u => Real.log (u / (1 - u))) where
  mono x y hxy := by
    have : Real.exp (-y) < Real.exp (-x) := Real.exp_lt_exp.2 (by linarith)
    exact one_div_lt_one_div_of_lt (by positivity) (by linarith)
  pos x := by positivity
  symm x := by
    have : Real.exp (-x) = (Real.exp x)⁻¹ := Real.exp_neg x
    have hx := Real.exp_pos x
    simp only [neg_neg, this]
    field_simp
    ring
  inv u h0 h1 := by
    have h2 : 0 < 1 - u := by linarith
    simp only [Real.exp_neg]
    rw [Real.exp_log (by positivity)]
    field_simp
    ring

variable {F q : ℝ → ℝ}

/-- The interval of a row is centred at the estimate and not degenerate. -/
theorem C154_center (h : SymDist F q) {alpha : ℝ} (h0 : 0 < alpha) (h1 : alpha < 1) (c : ℝ) {param se : ℝ} (hs : 0 < se) :
    let r := paramRow (fun x => 1 - F x) q c alpha param se
    (r.lower + r.upper) / 2 = param ∧ r.lower < param ∧ param < r.upper := by
  have ha : q (1 - alpha / 2) = -q (alpha / 2) := h.anti (by linarith) (by linarith)
  have hn : q (alpha / 2) < 0 := (h.q_lt (by linarith) (by linarith) 0).2 (by rw [h.half]; linarith)
  simp only [paramRow, ha]
  refine ⟨by ring, ?_, ?_⟩
  · nlinarith
  · nlinarith

/-- A value lies strictly inside the interval exactly when its two-sided `p`-value exceeds the level. -/
theorem inside_iff (h : SymDist F q) {alpha : ℝ} (h0 : 0 < alpha) (h1 : alpha < 1) {param se : ℝ} (hs : 0 < se) (c th : ℝ) :
    (paramRow (fun x => 1 - F x) q c alpha param se).lower < th ∧ th < (paramRow (fun x => 1 - F x) q c alpha param se).upper ↔
      alpha < (1 - F |(param - th) / se|) * 2 := by
  have ha : q (1 - alpha / 2) = -q (alpha / 2) := h.anti (by linarith) (by linarith)
  have e : ∀ x, alpha < (1 - F x) * 2 ↔ x < q (1 - alpha / 2) := fun x => by
    rw [h.lt_q (by linarith) (by linarith)]
    constructor <;> intro <;> linarith
  rw [e, abs_lt, ha, neg_neg, lt_div_iff₀ hs, div_lt_iff₀ hs]
  simp only [paramRow, ha]
  constructor
  · rintro ⟨a, b⟩; constructor <;> linarith
  · rintro ⟨a, b⟩; constructor <;> linarith

/-- Tests and intervals agree: with the default `p_const` a row is significant at the level exactly when zero lies outside the closed
interval; for any other value the same with the statistic of that value. -/
theorem C154_duality (h : SymDist F q) {alpha : ℝ} (h0 : 0 < alpha) (h1 : alpha < 1) {param se : ℝ} (hs : 0 < se) :
    let r := paramRow (fun x => 1 - F x) q 2 alpha param se
    (alpha < r.p ↔ r.lower < 0 ∧ 0 < r.upper) ∧ (0 < r.p ∧ r.p ≤ 1) ∧
      ∀ th, r.lower < th ∧ th < r.upper ↔ alpha < (1 - F |(param - th) / se|) * 2 := by
  refine ⟨?_, ⟨?_, ?_⟩, inside_iff h h0 h1 hs 2⟩
  · rw [inside_iff h h0 h1 hs 2 0, sub_zero]
    rfl
  · have := h.lt_one |param / se|
    change 0 < (1 - F |param / se|) * 2
    linarith
  · have : F 0 ≤ F |param / se| := h.mono.monotone (abs_nonneg _)
    rw [h.half] at this
    change (1 - F |param / se|) * 2 ≤ 1
    linarith

/-- The boundary: the `p`-value equals the level exactly when an end of the interval is zero. -/
theorem C154_boundary (h : SymDist F q) {alpha : ℝ} (h0 : 0 < alpha) (h1 : alpha < 1) {param se : ℝ} (hs : 0 < se) :
    let r := paramRow (fun x => 1 - F x) q 2 alpha param se
    r.p = alpha ↔ r.lower = 0 ∨ r.upper = 0 := by
  have ha : q (1 - alpha / 2) = -q (alpha / 2) := h.anti (by linarith) (by linarith)
  have hn : q (alpha / 2) < 0 := (h.q_lt (by linarith) (by linarith) 0).2 (by rw [h.half]; linarith)
  have e : (1 - F |param / se|) * 2 = alpha ↔ |param / se| = -q (alpha / 2) := by
    constructor
    · intro e
      apply h.mono.injective
      rw [← ha, h.inv _ (by linarith) (by linarith)]
      linarith
    · intro e
      rw [e, ← ha, h.inv _ (by linarith) (by linarith)]
      ring
  simp only [paramRow, ha]
  rw [e, abs_eq (by linarith), div_eq_iff hs.ne', div_eq_iff hs.ne', neg_neg]
  constructor
  · rintro (a | a)
    · left; linarith
    · right; linarith
  · rintro (a | a)
    · left; linarith
    · right; linarith

/-- The row scales with the unit of the parameter. -/
theorem C154_scale (sf ppf : ℝ → ℝ) (c alpha param se : ℝ) {u : ℝ} (hu : 0 < u) :
    let r := paramRow sf ppf c alpha param se
    let r' := paramRow sf ppf c alpha (u * param) (u * se)
    r'.t = r.t ∧ r'.p = r.p ∧ r'.lower = u * r.lower ∧ r'.upper = u * r.upper := by
  have : u * param / (u * se) = param / se := mul_div_mul_left _ _ hu.ne'
  simp only [paramRow, this]
  refine ⟨trivial, trivial, ?_, ?_⟩ <;> ring

/-! ## BCa -/

/-- The share of the resamples below the estimate, which the bias correction is defined from. -/
noncomputable def below (param : ℝ) (boot : List ℝ) : ℝ :=
  open Classical in mean (boot.map fun b => if b < param then 1 else 0)

theorem mean_compl (param : ℝ) (boot : List ℝ) (hb : boot ≠ []) (ht : param ∉ boot) :
    open Classical in
    mean (boot.map fun b => if param < b then 1 else 0) = 1 - below param boot := by
  classical
  have hl : (boot.length : ℝ) ≠ 0 := by simpa using hb
  have key : ∀ l : List ℝ, param ∉ l → (l.map fun b => if param < b then (1:ℝ) else 0).sum = l.length - (l.map fun b => if b < param then (1:ℝ) else 0).sum := by
    intro l
    induction l with
    | nil => simp
    | cons x l ih =>
      intro hx
      rw [List.mem_cons, not_or] at hx
      simp only [List.map_cons, List.sum_cons, ih hx.2, List.length_cons, Nat.cast_add, Nat.cast_one]
      rcases lt_or_gt_of_ne hx.1 with h | h
      · rw [if_pos h, if_neg (not_lt.2 h.le)]; ring
      · rw [if_neg (not_lt.2 (le_of_lt h)), if_pos h]; ring
  unfold below mean
  rw [key boot ht]
  simp only [List.length_map]
  field_simp

/-- Without ties the bias correction is minus the one BCa is defined with. -/
theorem C154_bias_partial (h : SymDist F q) {param : ℝ} {boot : List ℝ} (hb : boot ≠ []) (ht : param ∉ boot) :
    bias q param boot = if 0 < below param boot ∧ below param boot < 1 then some (-q (below param boot)) else none := by
  unfold bias
  simp only [mean_compl param boot hb ht]
  by_cases hc : 0 < below param boot ∧ below param boot < 1
  · rw [if_pos hc, if_pos ⟨by linarith [hc.2], by linarith [hc.1]⟩, h.anti hc.1 hc.2]
  · rw [if_neg hc, if_neg fun hd => hc ⟨by linarith [hd.2], by linarith [hd.1]⟩]

/-- With no bias — half of the resamples below — the levels are the ones BCa is defined with. -/
theorem C154_unbiased_partial (h : SymDist F q) {param : ℝ} {boot : List ℝ} (hb : boot ≠ []) (ht : param ∉ boot)
    (hh : below param boot = 1 / 2) : bias q param boot = some (q (below param boot)) ∧ q (below param boot) = 0 := by
  have e : q (below param boot) = 0 := by rw [hh, h.q_half]
  refine ⟨?_, e⟩
  rw [C154_bias_partial h hb ht, if_pos (by rw [hh]; norm_num), e, neg_zero]

/-- The levels increase as long as the denominators are positive. -/
theorem C154_order (h : SymDist F q) {z0 a z1 z2 : ℝ} (hz : z1 < z2) (h1 : 0 < 1 - a * (z0 + z1)) (h2 : 0 < 1 - a * (z0 + z2)) :
    ∃ l r, level F z0 a z1 = some l ∧ level F z0 a z2 = some r ∧ 0 < l ∧ l < r ∧ r < 1 := by
  refine ⟨_, _, if_pos h1.ne', if_pos h2.ne', h.pos _, h.mono ?_, h.lt_one _⟩
  have : (z0 + z1) / (1 - a * (z0 + z1)) < (z0 + z2) / (1 - a * (z0 + z2)) := by
    rw [div_lt_div_iff₀ h1 h2]
    nlinarith
  linarith

/-- Reversing the sign of the parameter exchanges and complements the levels. -/
theorem C154_reflect (h : SymDist F q) (z0 a z : ℝ) :
    level F (-z0) (-a) (-z) = (level F z0 a z).map fun l => 1 - l := by
  unfold level
  have e : 1 - -a * (-z0 + -z) = 1 - a * (z0 + z) := by ring
  simp only [e]
  by_cases hd : 1 - a * (z0 + z) = 0
  · rw [if_neg (not_not.2 hd), if_neg (not_not.2 hd)]; rfl
  · rw [if_pos hd, if_pos hd, Option.map_some, ← h.symm]
    congr 2
    rw [neg_add, ← neg_div, neg_add]

theorem mean_map_affine (s t : ℝ) (l : List ℝ) (hl : l ≠ []) : mean (l.map fun x => s * x + t) = s * mean l + t := by
  have hn : (l.length : ℝ) ≠ 0 := by simpa using hl
  have : ∀ l : List ℝ, (l.map fun x => s * x + t).sum = s * l.sum + l.length * t := by
    intro l
    induction l with
    | nil => simp
    | cons x l ih => simp only [List.map_cons, List.sum_cons, ih, List.length_cons]; push_cast; ring
  unfold mean
  rw [this, List.length_map]
  field_simp

/-- The acceleration does not depend on the origin and the unit of the parameter. -/
theorem C154_accel {s : ℝ} (hs : 0 < s) (t : ℝ) {jack : List ℝ} (hj : jack ≠ []) :
    accel (jack.map fun x => s * x + t) = accel jack := by
  unfold accel
  simp only [mean_map_affine s t jack hj, List.map_map]
  have e1 : (jack.map ((fun x => x * x * x) ∘ (fun x => s * mean jack + t - x) ∘ fun x => s * x + t)).sum =
      s ^ 3 * (jack.map ((fun x => x * x * x) ∘ fun x => mean jack - x)).sum := by
    rw [← List.sum_map_mul_left]
    congr 1
    refine List.map_congr_left fun x _ => ?_
    simp only [Function.comp]; ring
  have e2 : (jack.map ((fun x => x * x) ∘ (fun x => s * mean jack + t - x) ∘ fun x => s * x + t)).sum =
      s ^ 2 * (jack.map ((fun x => x * x) ∘ fun x => mean jack - x)).sum := by
    rw [← List.sum_map_mul_left]
    congr 1
    refine List.map_congr_left fun x _ => ?_
    simp only [Function.comp]; ring
  rw [e1, e2]
  have hp : 0 ≤ (jack.map ((fun x => x * x) ∘ fun x => mean jack - x)).sum := by
    refine List.sum_nonneg fun y hy => ?_
    obtain ⟨x, -, rfl⟩ := List.mem_map.1 hy
    exact mul_self_nonneg _
  rw [Real.mul_rpow (by positivity) hp]
  have e3 : (s ^ 2 : ℝ) ^ (3 / 2 : ℝ) = s ^ 3 := by
    rw [← Real.rpow_natCast, ← Real.rpow_mul hs.le, ← Real.rpow_natCast]; norm_num
  rw [e3]
  have hs3 : s ^ 3 ≠ 0 := by positivity
  generalize (jack.map ((fun x => x * x) ∘ fun x => mean jack - x)).sum ^ (3 / 2 : ℝ) = D
  by_cases hD : D = 0
  · simp [hD]
  · have n1 : 6 * (s ^ 3 * D) ≠ 0 := by positivity
    have n2 : 6 * D ≠ 0 := by positivity
    rw [if_pos n1, if_pos n2]
    field_simp

/-- The acceleration is a sixth of the skewness of the deleted estimates, and zero when they do not differ. -/
theorem C154_accel_eq (jack : List ℝ) :
    accel jack = (jack.map fun x => (mean jack - x) ^ 3).sum / (6 * √(jack.map fun x => (mean jack - x) ^ 2).sum ^ 3) := by
  unfold accel
  simp only [List.map_map]
  have e1 : ((fun x : ℝ => x * x * x) ∘ fun x => mean jack - x) = fun x => (mean jack - x) ^ 3 := by funext x; simp only [Function.comp]; ring
  have e2 : ((fun x : ℝ => x * x) ∘ fun x => mean jack - x) = fun x => (mean jack - x) ^ 2 := by funext x; simp only [Function.comp]; ring
  rw [e1, e2]
  have hp : 0 ≤ (jack.map fun x => (mean jack - x) ^ 2).sum := by
    refine List.sum_nonneg fun y hy => ?_
    obtain ⟨x, -, rfl⟩ := List.mem_map.1 hy
    exact sq_nonneg _
  have e3 : (jack.map fun x => (mean jack - x) ^ 2).sum ^ (3 / 2 : ℝ) = √(jack.map fun x => (mean jack - x) ^ 2).sum ^ 3 := by
    rw [Real.sqrt_eq_rpow, ← Real.rpow_natCast, ← Real.rpow_mul hp]; norm_num
  rw [e3]
  by_cases hd : 6 * √(jack.map fun x => (mean jack - x) ^ 2).sum ^ 3 = 0
  · rw [if_neg (not_not.2 hd), hd, div_zero]
  · rw [if_pos hd]

theorem accel_neg (jack : List ℝ) : accel (jack.map fun x => -x) = -accel jack := by
  have hm : mean (jack.map fun x => -x) = -mean jack := by
    unfold mean
    have e : ∀ l : List ℝ, (l.map fun x => -x).sum = -l.sum := fun l => by
      induction l with
      | nil => simp
      | cons x l ih => rw [List.map_cons, List.sum_cons, ih, List.sum_cons]; ring
    rw [List.length_map, e, neg_div]
  rw [C154_accel_eq, C154_accel_eq]
  simp only [hm, List.map_map]
  have e1 : ((fun x => (-mean jack - x) ^ 3) ∘ fun x => -x) = fun x => (-1) * (mean jack - x) ^ 3 := by funext x; simp only [Function.comp]; ring
  have e2 : ((fun x => (-mean jack - x) ^ 2) ∘ fun x => -x) = fun x => (mean jack - x) ^ 2 := by funext x; simp only [Function.comp]; ring
  rw [e1, e2, List.sum_map_mul_left, neg_one_mul, neg_div]

/-- The two levels. -/
theorem C154_bca (ndtr ndtri : ℝ → ℝ) (param : ℝ) (jack boot : List ℝ) (alpha : ℝ) (lr : ℝ × ℝ) :
    bca ndtr ndtri param jack boot alpha = some lr ↔ ∃ z0, bias ndtri param boot = some z0 ∧
      level ndtr z0 (accel jack) (ndtri (alpha / 2)) = some lr.1 ∧ level ndtr z0 (accel jack) (ndtri (1 - alpha / 2)) = some lr.2 := by
  unfold bca
  simp only [Option.bind_eq_bind, Option.bind_eq_some_iff]
  constructor
  · rintro ⟨z0, h1, l, h2, r, h3, h4⟩
    obtain rfl := Option.some.inj h4
    exact ⟨z0, h1, h2, h3⟩
  · rintro ⟨z0, h1, h2, h3⟩
    exact ⟨z0, h1, _, h2, _, h3, rfl⟩

/-- Estimating the negative parameter reflects the levels. -/
theorem C154_bca_reflect (h : SymDist F q) {param : ℝ} {boot : List ℝ} (jack : List ℝ) {alpha : ℝ} (h0 : 0 < alpha) (h1 : alpha < 1)
    (hb : boot ≠ []) (ht : param ∉ boot) :
    bca F q (-param) (jack.map fun x => -x) (boot.map fun x => -x) alpha =
      (bca F q param jack boot alpha).map fun lr => (1 - lr.2, 1 - lr.1) := by
  have ha : q (1 - alpha / 2) = -q (alpha / 2) := h.anti (by linarith) (by linarith)
  have hm : bias q (-param) (boot.map fun x => -x) = (bias q param boot).map fun z => -z := by
    have e : below (-param) (boot.map fun x => -x) = 1 - below param boot := by
      rw [← mean_compl param boot hb ht]
      unfold below
      rw [List.map_map]
      congr 2
      funext x
      simp
    rw [C154_bias_partial h (by simpa using hb) (by simpa using ht), C154_bias_partial h hb ht, e]
    by_cases hc : 0 < below param boot ∧ below param boot < 1
    · rw [if_pos hc, if_pos ⟨by linarith [hc.2], by linarith [hc.1]⟩, h.anti hc.1 hc.2]; rfl
    · rw [if_neg hc, if_neg fun hd => hc ⟨by linarith [hd.2], by linarith [hd.1]⟩]; rfl
  unfold bca
  rw [hm, accel_neg]
  rcases bias q param boot with _ | z0
  · rfl
  · simp only [Option.map_some, Option.bind_eq_bind, Option.bind_some]
    have e1 := C154_reflect h z0 (accel jack) (q (alpha / 2))
    have e2 := C154_reflect h z0 (accel jack) (q (1 - alpha / 2))
    rw [← ha] at e1
    rw [ha, neg_neg, ← ha] at e2
    rw [e1, e2]
    rcases level F z0 (accel jack) (q (alpha / 2)) with _ | l <;> rcases level F z0 (accel jack) (q (1 - alpha / 2)) with _ | r <;> rfl

/-- The bias correction has the wrong sign.  Three of four resamples lie above the estimate: BCa moves both levels down; the code
moves them up. -/
theorem C154_bca_violated (h : SymDist F q) {alpha : ℝ} (h0 : 0 < alpha) (h1 : alpha < 1) :
    ∃ (param : ℝ) (jack boot : List ℝ) (l r l' r' : ℝ), bca F q param jack boot alpha = some (l, r) ∧
      level F (q (below param boot)) (accel jack) (q (alpha / 2)) = some l' ∧
      level F (q (below param boot)) (accel jack) (q (1 - alpha / 2)) = some r' ∧
      l' < alpha / 2 ∧ alpha / 2 < l ∧ r' < 1 - alpha / 2 ∧ 1 - alpha / 2 < r := by
  have hbel : below 1 [0, 2, 3, 4] = 1 / 4 := by unfold below mean; norm_num
  have hac : accel [1, 1] = 0 := by unfold accel mean; norm_num
  have hb : bias q 1 [0, 2, 3, 4] = some (-q (1 / 4)) := by
    rw [C154_bias_partial h (by simp) (by norm_num), hbel, if_pos (by norm_num)]
  have hq : q (1 / 4) < 0 := (h.q_lt (by norm_num) (by norm_num) 0).2 (by rw [h.half]; norm_num)
  have hl : ∀ z0 z : ℝ, level F z0 0 z = some (F (z0 + (z0 + z))) := fun z0 z => by
    unfold level; simp
  have hb2 : bca F q 1 [1, 1] [0, 2, 3, 4] alpha =
      some (F (-q (1 / 4) + (-q (1 / 4) + q (alpha / 2))), F (-q (1 / 4) + (-q (1 / 4) + q (1 - alpha / 2)))) := by
    unfold bca
    rw [hb, hac]
    simp only [Option.bind_eq_bind, Option.bind_some, hl]
    rfl
  refine ⟨1, [1, 1], [0, 2, 3, 4], _, _, F (q (1 / 4) + (q (1 / 4) + q (alpha / 2))), F (q (1 / 4) + (q (1 / 4) + q (1 - alpha / 2))),
    hb2, ?_, ?_, ?_, ?_, ?_, ?_⟩
  · rw [hac, hl, hbel]
  · rw [hac, hl, hbel]
  · rw [← h.lt_q (by linarith) (by linarith)]; linarith
  · rw [← h.q_lt (by linarith) (by linarith)]; linarith
  · rw [← h.lt_q (by linarith) (by linarith)]; linarith
  · rw [← h.q_lt (by linarith) (by linarith)]; linarith

/-- The model BCa is exact for: an estimate with a constant bias `-z0` on a scale where its error is `F`.  There the limit of one-sided
coverage is `est + z0 + z`; the quantile of the resamples at the defined level is this limit, the one at the level of the code is
`est - 3 z0 + z`. -/
theorem C154_translation_violated (h : SymDist F q) (est z0 z : ℝ) :
    (∃ l, level F (q (F z0)) 0 z = some l ∧ ∀ x, F (x - (est - z0)) = l ↔ x = est + z0 + z) ∧
    (∃ l, level F (q (1 - F z0)) 0 z = some l ∧ ∀ x, F (x - (est - z0)) = l ↔ x = est - 3 * z0 + z) := by
  have hl : ∀ z0 z : ℝ, level F z0 0 z = some (F (z0 + (z0 + z))) := fun z0 z => by
    unfold level; simp
  have hq : q (1 - F z0) = -z0 := by rw [h.anti (h.pos _) (h.lt_one _), h.left]
  refine ⟨⟨_, hl _ _, fun x => ?_⟩, ⟨_, hl _ _, fun x => ?_⟩⟩
  · rw [h.left, h.mono.injective.eq_iff]
    constructor <;> intro <;> linarith
  · rw [hq, h.mono.injective.eq_iff]
    constructor <;> intro <;> linarith

/-- When every resample, or none, exceeds the estimate there is no interval. -/
theorem C154_raises (ndtr ndtri : ℝ → ℝ) (quantile : List ℝ → ℝ → ℝ) {param : ℝ} {boot : List ℝ} (jack : List ℝ) (alpha : ℝ)
    (hb : boot ≠ []) (h : (∀ b ∈ boot, param < b) ∨ ∀ b ∈ boot, b ≤ param) :
    bcaInterval ndtr ndtri quantile param jack boot alpha = none := by
  classical
  have hn : (boot.length : ℝ) ≠ 0 := by simpa using hb
  have e : bias ndtri param boot = none := by
    unfold bias
    refine if_neg fun hc => ?_
    rcases h with h | h
    · have : mean (boot.map fun b => if param < b then (1:ℝ) else 0) = 1 := by
        rw [List.map_congr_left fun b hb => if_pos (h b hb)]
        simp [mean, hn]
      have h2 := hc.2
      rw [show (mean (boot.map fun b => if param < b then (1:ℝ) else 0)) = 1 from this] at h2
      exact lt_irrefl _ h2
    · have : mean (boot.map fun b => if param < b then (1:ℝ) else 0) = 0 := by
        rw [List.map_congr_left fun b hb => if_neg (not_lt.2 (h b hb))]
        simp [mean]
      have h2 := hc.1
      rw [show (mean (boot.map fun b => if param < b then (1:ℝ) else 0)) = 0 from this] at h2
      exact lt_irrefl _ h2
  unfold bcaInterval bca
  rw [e]
  rfl

/-- The hypotheses are satisfiable. -/
example : ∃ F q : ℝ → ℝ, SymDist F q ∧ (0:ℝ) < 1 / 20 := ⟨_, _, symDist_exists, by norm_num⟩

end Verif.Like.Output
