import Verif.Like.OldClmProps
/-!
# C228: summary statistics and predictions of the older cumulative link model
-/
namespace Verif.Like
open Real Verif.Transf
variable {q p n : ℕ}

/-- Spec: twice the difference of the log-likelihoods (`l1` of the model, `l0` of the null model). -/
def oLrStat (l1 l0 : ℝ) : ℝ := 2 * (l1 - l0)
/-- Spec: Cox and Snell, `1 - (L0 / L1)^(2/n)`. -/
noncomputable def oCoxSnell (n : ℕ) (l1 l0 : ℝ) : ℝ := 1 - (exp l0 / exp l1) ^ (2 / (n : ℝ))
/-- Spec: Nagelkerke, Cox and Snell over its largest value `1 - L0^(2/n)`. -/
noncomputable def oNagel (n : ℕ) (l1 l0 : ℝ) : ℝ := oCoxSnell n l1 l0 / (1 - exp l0 ^ (2 / (n : ℝ)))
/-- Spec: McFadden. -/
noncomputable def oMcFadden (l1 l0 : ℝ) : ℝ := 1 - l1 / l0
/-- Spec: McFadden adjusted for `p` predictors. -/
noncomputable def oMcFaddenAdj (p : ℕ) (l1 l0 : ℝ) : ℝ := 1 - (l1 - p) / l0

/-- The three unadjusted measures are the usual ones (`loglike` returns minus the log-likelihood). -/
theorem C228_rsquared (sf : ℕ → ℝ → ℝ) (l1 l0 : ℝ) : let s := oclmSummary sf q p n (-l1) (-l0)
    s.coxsnell = oCoxSnell n l1 l0 ∧ s.nagelkerke = oNagel n l1 l0 ∧ s.mcfadden = oMcFadden l1 l0 := by
  have e1 : 1 - exp (2.0 / (n : ℝ) * (-l1 - -l0)) = oCoxSnell n l1 l0 := by
    rw [oCoxSnell, ← exp_sub, ← exp_mul]
    congr 2
    norm_num
    ring
  have e2 : 1 - exp (-2.0 / (n : ℝ) * -l0) = 1 - exp l0 ^ (2 / (n : ℝ)) := by
    rw [← exp_mul]
    congr 2
    norm_num
    ring
  refine ⟨e1, ?_, ?_⟩
  · simp only [oclmSummary, oNagel, e1, e2]
  · simp only [oclmSummary, oMcFadden, neg_div_neg_eq]

/-- The statistic is half the likelihood ratio statistic, and its p-value that of half the statistic, which is too large
whenever the survival function decreases. -/
theorem C228_llr (sf : ℕ → ℝ → ℝ) (l1 l0 : ℝ) : let s := oclmSummary sf q p n (-l1) (-l0)
    2 * s.llr = oLrStat l1 l0 ∧ s.pvalue = sf (p - 1) (oLrStat l1 l0 / 2) := by
  have e : -l0 - -l1 = oLrStat l1 l0 / 2 := by rw [oLrStat]; ring
  refine ⟨by simp only [oclmSummary, oLrStat]; ring, ?_⟩
  simp only [oclmSummary, e]
  congr 1
  omega

theorem C228_llr_violated : ∃ l1 l0 : ℝ, l0 < l1 ∧ l1 < 0 ∧ ∀ (sf : ℕ → ℝ → ℝ),
    (oclmSummary sf 2 2 10 (-l1) (-l0)).llr ≠ oLrStat l1 l0 ∧
      ((∀ d, StrictAntiOn (sf d) (Set.Ici 0)) →
        sf 1 (oLrStat l1 l0) < (oclmSummary sf 2 2 10 (-l1) (-l0)).pvalue) := by
  refine ⟨-5, -9, by norm_num, by norm_num, fun sf => ⟨?_, fun h => ?_⟩⟩
  · simp only [oclmSummary, oLrStat]; norm_num
  · rw [(C228_llr sf (-5) (-9)).2]
    refine h 1 ?_ ?_ ?_ <;> norm_num [oLrStat]

/-- The degrees of freedom are right when one predictor is the constant: `p - 1`.  The thresholds make the constant
redundant, so a formula without one has `p` predictors to test and is one short. -/
theorem C228_df (sf : ℕ → ℝ → ℝ) (LLf LL0 : ℝ) : (oclmSummary sf q p n LLf LL0).df = p - 1 := by
  simp only [oclmSummary]; omega

theorem C228_df_violated (sf : ℕ → ℝ → ℝ) (LLf LL0 : ℝ) :
    (0 < p → (oclmSummary sf q p n LLf LL0).df ≠ p) ∧ (oclmSummary sf q 1 n LLf LL0).df = 0 := by
  refine ⟨fun h => ?_, ?_⟩ <;> rw [C228_df] <;> omega

/-- The adjustment for the number of predictors has the wrong sign: it raises McFadden's measure where the adjusted
measure lowers it, by the same amount. -/
theorem C228_adjusted_violated (sf : ℕ → ℝ → ℝ) {l1 l0 : ℝ} (h0 : l0 < 0) (hp : 0 < p) :
    let s := oclmSummary sf q p n (-l1) (-l0)
    s.mcfaddenAdj - s.mcfadden = s.mcfadden - oMcFaddenAdj p l1 l0 ∧
      oMcFaddenAdj p l1 l0 < s.mcfadden ∧ s.mcfadden < s.mcfaddenAdj := by
  have hp' : (0 : ℝ) < p := by exact_mod_cast hp
  have h1 : (p : ℝ) / l0 < 0 := div_neg_of_pos_of_neg hp' h0
  have e1 : (oclmSummary sf q p n (-l1) (-l0)).mcfaddenAdj = 1 - l1 / l0 - p / l0 := by
    simp only [oclmSummary]
    field_simp
    ring
  have e2 : (oclmSummary sf q p n (-l1) (-l0)).mcfadden = 1 - l1 / l0 := (C228_rsquared sf l1 l0).2.2
  have e3 : oMcFaddenAdj p l1 l0 = 1 - l1 / l0 + p / l0 := by
    simp only [oMcFaddenAdj]; ring
  intro s
  rw [e1, e2, e3]
  refine ⟨by ring, by linarith, by linarith⟩

/-! ## Predictions -/

/-- Spec: the category of the median of the response: `c` when at most half the mass lies below `c` and at least half at or
below it, strictly in the first case. -/
def IsMedianCat (F : ℝ → ℝ) (q : ℕ) (th : ℕ → ℝ) (eta : ℝ) (c : ℕ) : Prop :=
  c ≤ q ∧ 1 / 2 ≤ cumP F q th eta c ∧ ∀ b, b < c → cumP F q th eta b < 1 / 2

/-- For ordered thresholds and predictors inside `(-10⁶, 10⁶]` the code is the number of thresholds below. -/
theorem C228_code (theta : List ℝ) (ht : theta.Pairwise (· < ·)) (hb : ∀ t ∈ theta, -1000000 < t ∧ t < 1000000) {eta : ℝ}
    (h1 : -1000000 < eta) (h2 : eta ≤ 1000000) :
    oclmPredict theta eta = some ((theta.filter (· < eta)).length : ℤ) := by
  have hs : ([-1e6] ++ theta ++ [1e6] : List ℝ).Pairwise (· < ·) := by
    rw [List.pairwise_append, List.pairwise_append]
    refine ⟨⟨by simp, ht, ?_⟩, by simp, ?_⟩
    · intro a ha b hb'
      simp only [List.mem_singleton] at ha
      subst ha
      have := (hb b hb').1
      norm_num; exact this
    · intro a ha b hb'
      simp only [List.mem_singleton] at hb'
      subst hb'
      simp only [List.mem_append, List.mem_singleton] at ha
      rcases ha with rfl | ha
      · norm_num
      · have := (hb a ha).2
        norm_num; exact this
  have hf : (([-1e6] ++ theta ++ [1e6] : List ℝ).filter (· < eta)).length = (theta.filter (· < eta)).length + 1 := by
    rw [List.filter_append, List.filter_append]
    have e1 : ([-1e6] : List ℝ).filter (· < eta) = [-1e6] := by
      rw [List.filter_eq_self]
      intro a ha
      simp only [List.mem_singleton] at ha
      subst ha
      simp only [decide_eq_true_eq]
      norm_num; exact h1
    have e2 : ([1e6] : List ℝ).filter (· < eta) = [] := by
      rw [List.filter_eq_nil_iff]
      intro a ha
      simp only [List.mem_singleton] at ha
      subst ha
      simp only [decide_eq_true_eq, not_lt]
      norm_num; exact h2
    rw [e1, e2]; simp
  have hle := List.length_filter_le (fun t => decide (t < eta)) theta
  simp only [oclmPredict, pdCut]
  rw [if_pos hs, hf, if_neg]
  · congr 1; push_cast; ring
  · simp only [List.length_append, List.length_singleton]
    omega

/-- Outside that range, and for thresholds out of order, there is no category: the code is `-1` or `pd.cut` raises. -/
theorem C228_outside (theta : List ℝ) (eta : ℝ) :
    (¬ theta.Pairwise (· < ·) → oclmPredict theta eta = none) ∧
      (eta ≤ -1000000 → oclmPredict theta eta = none ∨ oclmPredict theta eta = some (-1)) := by
  refine ⟨fun h => ?_, fun h => ?_⟩
  · simp only [oclmPredict, pdCut]
    rw [if_neg]
    intro hs
    exact h (List.pairwise_append.1 (List.pairwise_append.1 hs).1).2.1
  · simp only [oclmPredict, pdCut]
    by_cases hs : ([-1e6] ++ theta ++ [1e6] : List ℝ).Pairwise (· < ·)
    · rw [if_pos hs]
      right
      have : ([-1e6] ++ theta ++ [1e6] : List ℝ).filter (· < eta) = [] := by
        rw [List.filter_eq_nil_iff]
        intro a ha
        have hx : (-1e6 : ℝ) ≤ a := by
          have hs' : (-1e6 :: (theta ++ [1e6]) : List ℝ).Pairwise (· < ·) := hs
          have ha' : a ∈ (-1e6 :: (theta ++ [1e6]) : List ℝ) := ha
          rcases List.mem_cons.1 ha' with h' | h'
          · exact h'.ge
          · exact ((List.pairwise_cons.1 hs').1 a h').le
        norm_num at hx
        simp only [decide_eq_true_eq, not_lt]
        linarith
      rw [this, List.length_nil, if_pos (Or.inl rfl)]
    · rw [if_neg hs]; exact Or.inl rfl

theorem filter_count {q : ℕ} (th : ℕ → ℝ) (hm : ∀ a b, a < b → b < q → th a < th b) (eta : ℝ) :
    (∀ b, b < (((List.range q).map th).filter (· < eta)).length → th b < eta) ∧
      (∀ b, (((List.range q).map th).filter (· < eta)).length ≤ b → b < q → eta ≤ th b) := by
  induction q with
  | zero => simp
  | succ q ih =>
    obtain ⟨i1, i2⟩ := ih fun a b h1 h2 => hm a b h1 (by omega)
    have hle : (((List.range q).map th).filter (· < eta)).length ≤ q :=
      (List.length_filter_le _ _).trans (by simp)
    rw [List.range_succ, List.map_append, List.filter_append, List.length_append]
    by_cases h : th q < eta
    · have e : ((([q] : List ℕ).map th).filter (· < eta)).length = 1 := by simp [h]
      rw [e]
      have hall : (((List.range q).map th).filter (· < eta)).length = q := by
        by_contra hne
        have := i2 _ le_rfl (lt_of_le_of_ne hle hne)
        have := hm _ q (lt_of_le_of_ne hle hne) (Nat.lt_succ_self q)
        linarith
      rw [hall]
      refine ⟨fun b hb => ?_, fun b h1 h2 => by omega⟩
      rcases Nat.lt_succ_iff_lt_or_eq.1 hb with hb | rfl
      · exact i1 b (by rw [hall]; exact hb)
      · exact h
    · have e : ((([q] : List ℕ).map th).filter (· < eta)).length = 0 := by simp [h, not_lt.1 h]
      rw [e, add_zero]
      refine ⟨i1, fun b h1 h2 => ?_⟩
      rcases Nat.lt_succ_iff_lt_or_eq.1 h2 with hb | rfl
      · exact i2 b h1 hb
      · exact not_lt.1 h

/-- For a link that is one half at zero the prediction is the median category. -/
theorem C228_median {F : ℝ → ℝ} (hF : StrictMono F) (h0 : F 0 = 1 / 2) (th : ℕ → ℝ)
    (hm : ∀ a b, a < b → b < q → th a < th b) (hb : ∀ a, a < q → -1000000 < th a ∧ th a < 1000000) {eta : ℝ}
    (h1 : -1000000 < eta) (h2 : eta ≤ 1000000) :
    ∃ c : ℕ, oclmPredict ((List.range q).map th) eta = some (c : ℤ) ∧ IsMedianCat F q th eta c := by
  have hp : ((List.range q).map th).Pairwise (· < ·) := by
    rw [List.pairwise_map]
    exact List.pairwise_lt_range.imp_of_mem fun {a b} _ hb' hab => hm a b hab (List.mem_range.1 hb')
  refine ⟨_, C228_code _ hp (fun t ht => ?_) h1 h2, ?_, ?_, ?_⟩
  · obtain ⟨a, ha, rfl⟩ := List.mem_map.1 ht
    exact hb a (List.mem_range.1 ha)
  · exact (List.length_filter_le _ _).trans (by simp)
  · obtain ⟨_, i2⟩ := filter_count th hm eta
    rw [cumP]
    split_ifs with h
    · rw [← h0]; exact hF.monotone (by linarith [i2 _ le_rfl h])
    · norm_num
  · intro b hb'
    obtain ⟨i1, _⟩ := filter_count th hm eta
    have hbq : b < q := lt_of_lt_of_le hb' ((List.length_filter_le _ _).trans (by simp))
    rw [cumP, if_pos hbq, ← h0]
    exact hF (by linarith [i1 b hb'])

/-- It need not be the most probable one: with thresholds `-1/4, 1/4` and predictor zero the middle category is predicted,
yet it is less probable than the lowest. -/
theorem C228_mode_violated : ∃ (th : ℕ → ℝ), oclmPredict ((List.range 2).map th) 0 = some 1 ∧
    catP logitC.F 2 th 0 1 < catP logitC.F 2 th 0 0 := by
  refine ⟨fun c => if c = 0 then -1 / 4 else 1 / 4, ?_, ?_⟩
  · rw [C228_code _ (by simp [List.range_succ]; norm_num) _ (by norm_num) (by norm_num)]
    · simp [List.range_succ]
      norm_num
    · intro t ht
      simp [List.range_succ] at ht
      rcases ht with rfl | rfl <;> norm_num
  · simp only [catP, cumP]
    norm_num
    have hlo : logitC.F (-1000000) ≤ exp (-1) / 8 := by
      simp only [logitC, Glm.logitLink]
      have h1 : exp (-1000000) ≤ exp (-1) / 8 := by
        have : exp (-1000000) ≤ exp (-4) := exp_le_exp.2 (by norm_num)
        have h3 : exp (-4) = exp (-1) * (exp (-1) * exp (-1) * exp (-1)) := by
          rw [← exp_add, ← exp_add, ← exp_add]; norm_num
        have h4 : exp (-1) < 1 / 2 := by
          have := exp_neg_one_lt_d9
          norm_num at this ⊢
          linarith
        have h5 := exp_pos (-1)
        have h6 : exp (-1) * exp (-1) * exp (-1) ≤ 1 / 8 := by
          have : exp (-1) * exp (-1) ≤ 1 / 4 := by nlinarith
          nlinarith
        rw [h3] at this
        nlinarith
      have h2 := exp_pos (-1000000)
      refine le_trans ?_ h1
      rw [div_le_iff₀ (by positivity)]
      nlinarith
    have hsym : logitC.F (1 / 4) = 1 - logitC.F (-(1 / 4)) := by
      simp only [logitC, Glm.logitLink, exp_neg]
      have := exp_pos (1 / 4)
      field_simp
      ring
    have hhi : 3 / 7 ≤ logitC.F (-(1 / 4)) := by
      simp only [logitC, Glm.logitLink]
      have h1 : (3 : ℝ) / 4 ≤ exp (-(1 / 4)) := by
        have := add_one_le_exp (-(1 / 4) : ℝ)
        linarith
      rw [div_le_div_iff₀ (by norm_num) (by positivity)]
      linarith
    have h4 : exp (-1) < 1 / 2 := by
      have := exp_neg_one_lt_d9
      norm_num at this ⊢
      linarith
    have : logitC.F (1 / 4) - logitC.F (-(1 / 4)) < logitC.F (-(1 / 4)) - logitC.F (-1000000) := by
      rw [hsym]; linarith
    exact this

/-- The prediction is a position, not a response: with responses `1, …, q + 1` the median category's response is never
returned. -/
theorem C228_labels_violated {F : ℝ → ℝ} (hF : StrictMono F) (h0 : F 0 = 1 / 2) (th : ℕ → ℝ)
    (hm : ∀ a b, a < b → b < q → th a < th b) (hb : ∀ a, a < q → -1000000 < th a ∧ th a < 1000000) {eta : ℝ}
    (h1 : -1000000 < eta) (h2 : eta ≤ 1000000) (resps : ℕ → ℤ) (hr : ∀ c, resps c = c + 1) :
    ∃ c, IsMedianCat F q th eta c ∧ oclmPredict ((List.range q).map th) eta ≠ some (resps c) := by
  obtain ⟨c, hc, hmed⟩ := C228_median hF h0 th hm hb h1 h2
  refine ⟨c, hmed, ?_⟩
  rw [hc, hr]
  intro h
  have := Option.some.inj h
  omega

example : StrictMono logitC.F ∧ logitC.F 0 = 1 / 2 := ⟨logit_strictMono, logit_half⟩

end Verif.Like
