import Verif.Like.ClmProps
/-!
# C100: predictions of the cumulative link model
-/
namespace Verif.Like
open Real Verif.Transf
variable {q p : ℕ}

/-- Spec: the probability of category `c` under thresholds `th` and predictor `x`, the outer thresholds infinite. -/
noncomputable def ordP (F : ℝ → ℝ) (q : ℕ) (th : ℕ → ℝ) (x : ℝ) (c : ℕ) : ℝ :=
  cumP F q th x c - if c = 0 then 0 else cumP F q th x (c - 1)

theorem diffCum_eq (F : ℝ → ℝ) (th : ℕ → ℝ) (x : ℝ) (cmu : ℕ → ℕ → ℝ) (i : ℕ) (hc : ∀ c, c < q → cmu i c = F (th c - x))
    {c : ℕ} (h : c ≤ q) : diffCum q cmu i c = ordP F q th x c := by
  simp only [diffCum, ordP, cumP, Nat.add_sub_cancel, Nat.succ_ne_zero, if_false]
  by_cases hq : c < q
  · rw [if_pos hq, if_pos (by omega), hc c hq]
    by_cases h0 : c = 0
    · rw [if_pos h0, if_pos h0]
    · rw [if_neg h0, if_neg h0, if_pos h, hc _ (by omega), if_pos (by omega)]
  · rw [if_neg hq, if_neg (by omega)]
    by_cases h0 : c = 0
    · rw [if_pos h0, if_pos h0]
    · rw [if_neg h0, if_neg h0, if_pos h, hc _ (by omega), if_pos (by omega)]

theorem predEta_eq (X : ℕ → ℕ → ℝ) (th : ℕ → ℝ) (i c : ℕ) : predEta q p X th i c = th c - lin q p X th i := rfl

/-- The predicted probabilities are those of the model. -/
theorem C100_mu (F : ℝ → ℝ) (X : ℕ → ℕ → ℝ) (th : ℕ → ℝ) (cov : ℕ → ℕ → ℝ) (z : ℝ) (i : ℕ) {c : ℕ} (h : c ≤ q) :
    (predict F q p X th cov z).2.1 i c = ordP F q th (lin q p X th i) c :=
  diffCum_eq F th (lin q p X th i) (fun i c => F (predEta q p X th i c)) i (fun c _ => by rw [predEta_eq]) h

/-- They agree with the probabilities in the likelihood's derivatives but for the finite lowest threshold of the latter. -/
theorem C100_likelihood (l : CLink) (cat : ℕ → ℕ) (X : ℕ → ℕ → ℝ) (w th : ℕ → ℝ) (cov : ℕ → ℕ → ℝ) (z : ℝ) (i : ℕ)
    (hc : cat i ≤ q) : (predict l.F q p X th cov z).2.1 i (cat i) - clmProb l (ordinalData q cat X w) (q + p) th i =
      if cat i = 0 then l.F (-1000000 - lin q p X th i) else 0 := by
  rw [C100_mu _ _ _ _ _ _ hc, C99_prob cat X w th i hc, ordP, catP]
  by_cases h : cat i = 0
  · simp only [if_pos h]; ring
  · simp only [if_neg h]; ring

theorem diffCum_sum (cmu : ℕ → ℕ → ℝ) (i : ℕ) : ∑ c ∈ Finset.range (q + 1), diffCum q cmu i c = 1 := by
  simp only [diffCum]
  rw [Finset.sum_range_sub (fun c => if c = 0 then (0 : ℝ) else if c ≤ q then cmu i (c - 1) else 1)]
  simp

/-- Every one of the three tables of "probabilities" has rows adding up to one. -/
theorem C100_total (F : ℝ → ℝ) (X : ℕ → ℕ → ℝ) (th : ℕ → ℝ) (cov : ℕ → ℕ → ℝ) (z : ℝ) (i : ℕ) :
    ∑ c ∈ Finset.range (q + 1), (predict F q p X th cov z).2.1 i c = 1 ∧
      ∑ c ∈ Finset.range (q + 1), (predict F q p X th cov z).2.2.1 i c = 1 ∧
      ∑ c ∈ Finset.range (q + 1), (predict F q p X th cov z).2.2.2 i c = 1 :=
  ⟨diffCum_sum (predict F q p X th cov z).1.1 i, diffCum_sum (predict F q p X th cov z).1.2.1 i,
    diffCum_sum (predict F q p X th cov z).1.2.2 i⟩

/-- For ordered thresholds and a monotone link into the unit interval the predicted probabilities are probabilities. -/
theorem C100_nonneg {F : ℝ → ℝ} (hF : Monotone F) (h0 : ∀ x, 0 ≤ F x) (h1 : ∀ x, F x ≤ 1) (X : ℕ → ℕ → ℝ) {th : ℕ → ℝ}
    (hth : ∀ c, c + 1 < q → th c ≤ th (c + 1)) (cov : ℕ → ℕ → ℝ) (z : ℝ) (i : ℕ) {c : ℕ} (h : c ≤ q) :
    0 ≤ (predict F q p X th cov z).2.1 i c ∧ (predict F q p X th cov z).2.1 i c ≤ 1 := by
  have key : ∀ c, c ≤ q → 0 ≤ (predict F q p X th cov z).2.1 i c := by
    intro c h
    rw [C100_mu _ _ _ _ _ _ h, ordP]
    simp only [cumP]
    by_cases hz : c = 0
    · rw [if_pos hz, sub_zero]; split_ifs <;> simp [h0]
    · rw [if_neg hz, if_pos (show c - 1 < q by omega), sub_nonneg]
      split_ifs with hq
      · refine hF (sub_le_sub_right ?_ _)
        have := hth (c - 1) (by omega)
        rwa [show c - 1 + 1 = c by omega] at this
      · exact h1 _
  refine ⟨key c h, ?_⟩
  rw [← (C100_total (q := q) (p := p) F X th cov z i).1]
  exact Finset.single_le_sum (f := fun c => (predict F q p X th cov z).2.1 i c)
    (fun b hb => key b (by have := Finset.mem_range.1 hb; omega)) (Finset.mem_range.2 (by omega))

/-- Spec: the derivative of `tau_c - x'beta` in the parameters. -/
def predCon (q : ℕ) (X : ℕ → ℕ → ℝ) (r c a : ℕ) : ℝ :=
  if a < q then (if a = c then 1 else 0) else -X r (a - q)

theorem predEta_con (X : ℕ → ℕ → ℝ) (th : ℕ → ℝ) (r : ℕ) {c : ℕ} (hc : c < q) :
    predEta q p X th r c = dotN (q + p) (predCon q X r c) th := by
  rw [predEta, dot_split]
  have e1 : dotN q (predCon q X r c) th = th c := by
    rw [dotN, Finset.sum_eq_single c]
    · simp [predCon, hc]
    · intro b hb hne
      have := Finset.mem_range.1 hb
      simp [predCon, this, hne]
    · intro h; exact absurd (Finset.mem_range.2 hc) h
  rw [e1, sub_eq_add_neg, dotN, ← Finset.sum_neg_distrib]
  congr 1
  exact Finset.sum_congr rfl fun j _ => by simp [predCon]

/-- The standard error of a linear predictor: `predVar` is `c' Σ c` for the vector `c` with `tau_c - x'beta = c'params`. -/
theorem C100_variance (X : ℕ → ℕ → ℝ) (cov : ℕ → ℕ → ℝ) (th : ℕ → ℝ) (r : ℕ) {c : ℕ} (hc : c < q) :
    predEta q p X th r c = dotN (q + p) (predCon q X r c) th ∧
      predVar q p X cov r c = ∑ a ∈ Finset.range (q + p), ∑ b ∈ Finset.range (q + p),
        predCon q X r c a * cov a b * predCon q X r c b := by
  refine ⟨predEta_con X th r hc, ?_⟩
  have one : ∀ g : ℕ → ℝ, ∑ a ∈ Finset.range (q + p), predCon q X r c a * g a =
      ∑ a ∈ Finset.range (p + 1), (if a = 0 then 1 else -X r (a - 1)) * g ((predInd q p c).getD a 0) := by
    intro g
    rw [Finset.sum_range_add, Finset.sum_range_succ', add_comm]
    congr 1
    · refine Finset.sum_congr rfl fun j hj => ?_
      have := Finset.mem_range.1 hj
      simp [predCon, predInd, this]
    · rw [Finset.sum_eq_single c]
      · simp [predCon, predInd, hc]
      · intro b hb hne
        have := Finset.mem_range.1 hb
        simp [predCon, this, hne]
      · intro h; exact absurd (Finset.mem_range.2 hc) h
  have e : ∀ a, ∑ b ∈ Finset.range (q + p), predCon q X r c a * cov a b * predCon q X r c b =
      predCon q X r c a * ∑ b ∈ Finset.range (p + 1),
        (if b = 0 then 1 else -X r (b - 1)) * cov a ((predInd q p c).getD b 0) := by
    intro a
    rw [← one fun b => cov a b, Finset.mul_sum]
    exact Finset.sum_congr rfl fun b _ => by ring
  simp only [e]
  rw [one fun a => ∑ b ∈ Finset.range (p + 1), (if b = 0 then 1 else -X r (b - 1)) * cov a ((predInd q p c).getD b 0)]
  simp only [predVar, Finset.mul_sum]
  exact Finset.sum_congr rfl fun a _ => Finset.sum_congr rfl fun b _ => by ring

/-- The limits of the cumulative probabilities enclose them. -/
theorem C100_cumulative {F : ℝ → ℝ} (hF : Monotone F) (X : ℕ → ℕ → ℝ) (th : ℕ → ℝ) (cov : ℕ → ℕ → ℝ) {z : ℝ}
    (hz : 0 ≤ z) (i c : ℕ) :
    let r := (predict F q p X th cov z).1
    r.2.1 i c ≤ r.1 i c ∧ r.1 i c ≤ r.2.2 i c := by
  have h : 0 ≤ sqrt (predVar q p X cov i c) * z := mul_nonneg (sqrt_nonneg _) hz
  exact ⟨hF (by simp only [predLim]; linarith), hF (by simp only [predLim]; linarith)⟩

/-- So do those of the first category's probability … -/
theorem C100_limits_partial {F : ℝ → ℝ} (hF : Monotone F) (X : ℕ → ℕ → ℝ) (th : ℕ → ℝ) (cov : ℕ → ℕ → ℝ) {z : ℝ}
    (hz : 0 ≤ z) (hq : 0 < q) (i : ℕ) :
    let r := (predict F q p X th cov z).2
    r.2.1 i 0 ≤ r.1 i 0 ∧ r.1 i 0 ≤ r.2.2 i 0 := by
  have h := C100_cumulative (q := q) (p := p) hF X th cov hz i 0
  have e : ∀ m : ℕ → ℕ → ℝ, diffCum q m i 0 = m i 0 := fun m => by
    simp only [diffCum]
    simp [show 0 + 1 ≤ q by omega]
  simp only [predict, e]
  exact h

/-- … but not of all: the limits of the probabilities enclose every category only when all three tables coincide … -/
theorem C100_limits_rigid (F : ℝ → ℝ) (X : ℕ → ℕ → ℝ) (th : ℕ → ℝ) (cov : ℕ → ℕ → ℝ) (z : ℝ) (i : ℕ)
    (h : ∀ c, c ≤ q → (predict F q p X th cov z).2.2.1 i c ≤ (predict F q p X th cov z).2.2.2 i c) {c : ℕ} (hc : c ≤ q) :
    (predict F q p X th cov z).2.2.1 i c = (predict F q p X th cov z).2.2.2 i c := by
  obtain ⟨-, h2, h3⟩ := C100_total (q := q) (p := p) F X th cov z i
  exact (Finset.sum_eq_sum_iff_of_le fun c hc => h c (by have := Finset.mem_range.1 hc; omega)).1 (h2.trans h3.symm) c
    (Finset.mem_range.2 (by omega))

/-- … the last category's are always the wrong way round. -/
theorem C100_limits_reversed {F : ℝ → ℝ} (hF : Monotone F) (X : ℕ → ℕ → ℝ) (th : ℕ → ℝ) (cov : ℕ → ℕ → ℝ) {z : ℝ}
    (hz : 0 ≤ z) (hq : 0 < q) (i : ℕ) :
    let r := (predict F q p X th cov z).2
    r.2.2 i q ≤ r.1 i q ∧ r.1 i q ≤ r.2.1 i q := by
  have h := C100_cumulative (q := q) (p := p) hF X th cov hz i (q - 1)
  have e : ∀ m : ℕ → ℕ → ℝ, diffCum q m i q = 1 - m i (q - 1) := fun m => by
    simp only [diffCum]
    simp [hq.ne']
  simp only [predict, e]
  exact ⟨sub_le_sub_left h.2 _, sub_le_sub_left h.1 _⟩

theorem logit_strictMono : StrictMono logitC.F := by
  refine strictMono_of_deriv_pos fun x => ?_
  rw [(good_logit.d1 x).deriv]
  simp only [logitC]
  have := exp_pos x
  positivity

/-- A concrete failure: a binary logit with unit variance. -/
theorem C100_limits_violated : ∃ (X : ℕ → ℕ → ℝ) (th : ℕ → ℝ) (cov : ℕ → ℕ → ℝ) (z : ℝ),
    (predict logitC.F 1 0 X th cov z).2.2.2 0 1 < (predict logitC.F 1 0 X th cov z).2.1 0 1 ∧
      (predict logitC.F 1 0 X th cov z).2.1 0 1 < (predict logitC.F 1 0 X th cov z).2.2.1 0 1 := by
  refine ⟨fun _ _ => 0, fun _ => 0, fun _ _ => 1, 1, ?_⟩
  have e : ∀ m : ℕ → ℕ → ℝ, diffCum 1 m 0 1 = 1 - m 0 0 := fun m => by simp [diffCum]
  have hv : predVar 1 0 (fun _ _ => 0) (fun _ _ => 1) 0 0 = 1 := by simp [predVar]
  simp only [predict, e, predLim, hv, sqrt_one]
  have h0 : predEta 1 0 (fun _ _ => 0) (fun _ => 0) 0 0 = 0 := by simp [predEta, dotN]
  rw [h0]
  have h1 := logit_strictMono (show (0 : ℝ) < 0 + 1 * 1 by norm_num)
  have h2 := logit_strictMono (show (0 : ℝ) - 1 * 1 < 0 by norm_num)
  exact ⟨sub_lt_sub_left h1 _, sub_lt_sub_left h2 _⟩

/-- `fit(method, opt_kws)` never passes the options on; a method becomes the starting value, and the options the data. -/
theorem C100_fit_options_violated : (∀ m o : Option ℕ, (fitCall m o).opt_kws = none) ∧
    (∀ m o : Option ℕ, (fitCall m o).params = m) ∧ ∀ m o : Option ℕ, (fitCall m o).data = o :=
  ⟨fun _ _ => rfl, fun _ _ => rfl, fun _ _ => rfl⟩

/-- The null model has a redundant parameter: shifting its intercept with the thresholds leaves the probability of every
inner category alone, so the objective does not determine the parameters. -/
theorem C100_null_redundant (l : CLink) (cat : ℕ → ℕ) (w th : ℕ → ℝ) (δ : ℝ) (i : ℕ) (h0 : cat i ≠ 0) (hc : cat i ≤ q) :
    clmProb l (nullData q cat w) (q + 1) (fun j => th j + δ) i = clmProb l (nullData q cat w) (q + 1) th i := by
  have e : ∀ th : ℕ → ℝ, clmProb l (nullData q cat w) (q + 1) th i = _ := fun th =>
    C99_prob (l := l) (q := q) (p := 1) cat (fun _ _ => 1) w th i hc
  rw [e, e]
  have hl : lin q 1 (fun _ _ => 1) (fun j => th j + δ) i = lin q 1 (fun _ _ => 1) th i + δ := by simp [lin, dotN]
  simp only [catP, if_neg h0, cumP, hl]
  have : ∀ c, th c + δ - (lin q 1 (fun _ _ => 1) th i + δ) = th c - lin q 1 (fun _ _ => 1) th i := fun c => by ring
  simp only [this]

example : Monotone logitC.F ∧ (∀ x, 0 ≤ logitC.F x) ∧ ∀ x, logitC.F x ≤ 1 := by
  refine ⟨logit_strictMono.monotone, fun x => ?_, fun x => ?_⟩ <;> simp only [logitC, Glm.logitLink] <;>
    have := exp_pos x
  · positivity
  · rw [div_le_one (by positivity)]; linarith

end Verif.Like
