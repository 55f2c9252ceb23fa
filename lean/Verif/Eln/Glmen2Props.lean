import Verif.Eln.Glmen2
/-!
# C225: coordinate descent and screening of the elastic net GLM
-/
namespace Verif.Eln
open Verif.Func
variable {n p : ℕ} {X : ℕ → ℕ → ℝ} {v z : ℕ → ℝ} {la dla dtol : ℝ}

/-- Spec: the penalised weighted least squares objective. -/
noncomputable def gQ (n p : ℕ) (X : ℕ → ℕ → ℝ) (v z : ℕ → ℝ) (la dla : ℝ) (b : ℕ → ℝ) (b0 : ℝ) : ℝ :=
  (∑ i ∈ Finset.range n, v i * (z i - b0 - ∑ j ∈ Finset.range p, X i j * b j) ^ 2) / 2 +
    (la * ∑ j ∈ Finset.range p, |b j| + dla / 2 * ∑ j ∈ Finset.range p, b j ^ 2)

/-- The coefficient before rounding. -/
noncomputable def gNew (n : ℕ) (X : ℕ → ℕ → ℝ) (v : ℕ → ℝ) (la dla : ℝ) (s : BSt) (j : ℕ) : ℝ :=
  softThreshold (∑ i ∈ Finset.range n, X i j * s.r i + (∑ i ∈ Finset.range n, X i j ^ 2 * v i) * s.b j) la /
    (∑ i ∈ Finset.range n, X i j ^ 2 * v i + dla)

/-- The state with residuals times `n`. -/
def up (n : ℕ) (s : BSt) : BSt := { s with r := fun i => n * s.r i }

theorem curv_up (hn : 0 < n) (j : ℕ) : curv n X (fun i => n * v i) j = ∑ i ∈ Finset.range n, X i j ^ 2 * v i := by
  have hn' : (n : ℝ) ≠ 0 := by exact_mod_cast hn.ne'
  unfold curv
  rw [Finset.sum_div]
  refine Finset.sum_congr rfl fun i _ => ?_
  field_simp

theorem gNew_eq (hn : 0 < n) (s : BSt) (j : ℕ) :
    gNew n X v la dla s j = bNew n X (fun i => n * v i) la dla (up n s) j := by
  have hn' : (n : ℝ) ≠ 0 := by exact_mod_cast hn.ne'
  unfold gNew bNew
  rw [curv_up hn]
  have : (∑ i ∈ Finset.range n, (up n s).r i * X i j) / n = ∑ i ∈ Finset.range n, X i j * s.r i := by
    rw [Finset.sum_div]
    refine Finset.sum_congr rfl fun i _ => ?_
    show n * s.r i * X i j / n = _
    field_simp
  rw [this]
  rfl

theorem gQ_eq (hn : 0 < n) (b : ℕ → ℝ) (b0 : ℝ) : gQ n p X v z la dla b b0 = qObj n p X (fun i => n * v i) z la dla b b0 := by
  have hn' : (n : ℝ) ≠ 0 := by exact_mod_cast hn.ne'
  unfold gQ qObj
  congr 1
  rw [Finset.sum_div, Finset.sum_div]
  refine Finset.sum_congr rfl fun i _ => ?_
  field_simp

theorem gInv_up (hn : 0 < n) (s : BSt) : BInv n p X (fun i => n * v i) z (up n s) ↔ BInv n p X v z s := by
  have hn' : (n : ℝ) ≠ 0 := by exact_mod_cast hn.ne'
  constructor
  · intro h i hi
    have h1 := h i hi
    simp only [up] at h1
    rw [mul_assoc] at h1
    exact mul_left_cancel₀ hn' h1
  · intro h i hi
    simp only [up]
    rw [h i hi]
    ring

/-- **C225.** A coordinate step minimises the working objective in its coordinate, with quadratic growth. -/
theorem C225_coordinate (hn : 0 < n) (hla : 0 ≤ la) {s : BSt} (h : BInv n p X v z s) {j : ℕ} (hj : j < p)
    (hD : 0 < ∑ i ∈ Finset.range n, X i j ^ 2 * v i + dla) (x : ℝ) :
    gQ n p X v z la dla (Function.update s.b j (gNew n X v la dla s j)) s.b0 +
        (∑ i ∈ Finset.range n, X i j ^ 2 * v i + dla) / 2 * (x - gNew n X v la dla s j) ^ 2 ≤
      gQ n p X v z la dla (Function.update s.b j x) s.b0 := by
  have := C107_coordinate (la := la) (dla := dla) ((gInv_up hn s).2 h) hn hla hj (by rwa [curv_up hn]) x
  rw [curv_up hn, ← gNew_eq hn] at this
  rw [gQ_eq hn, gQ_eq hn]
  exact this

theorem g_b (s : BSt × ℝ) (j : ℕ) : (gStep n X v la dla s j).1.b = Function.update s.1.b j
    (if |gNew n X v la dla s.1 j| < 1 / 10 ^ 12 then 0 else gNew n X v la dla s.1 j) := by
  simp only [gStep]
  change (if |gNew n X v la dla s.1 j - s.1.b j| > 0 then _ else _ : BSt × ℝ).1.b = _
  by_cases h : |gNew n X v la dla s.1 j - s.1.b j| > 0
  · rw [if_pos h]; rfl
  · rw [if_neg h]; rfl

theorem g_b0 (s : BSt × ℝ) (j : ℕ) : (gStep n X v la dla s j).1.b0 = s.1.b0 := by
  simp only [gStep]
  split_ifs <;> rfl

theorem g_r (s : BSt × ℝ) (j i : ℕ) : (gStep n X v la dla s j).1.r i =
    s.1.r i - (gNew n X v la dla s.1 j - s.1.b j) * v i * X i j := by
  simp only [gStep]
  change (if |gNew n X v la dla s.1 j - s.1.b j| > 0 then _ else _ : BSt × ℝ).1.r i = _
  by_cases h : |gNew n X v la dla s.1 j - s.1.b j| > 0
  · rw [if_pos h]; rfl
  · rw [if_neg h, abs_pos.not.1 h |> not_not.1]; simp

theorem g_active (s : BSt × ℝ) (j : ℕ) : (gStep n X v la dla s j).1.active =
    if |gNew n X v la dla s.1 j| < 1 / 10 ^ 12 then Function.update s.1.active j false else s.1.active := by
  simp only [gStep]
  change (if |gNew n X v la dla s.1 j - s.1.b j| > 0 then _ else _ : BSt × ℝ).1.active = _
  by_cases h : |gNew n X v la dla s.1 j - s.1.b j| > 0
  · rw [if_pos h]; rfl
  · rw [if_neg h]; rfl

/-- No coefficient below `1e-12` but zero comes up while visiting `L`. -/
def GNoRound (n : ℕ) (X : ℕ → ℕ → ℝ) (v : ℕ → ℝ) (la dla : ℝ) : List ℕ → BSt × ℝ → Prop
  | [], _ => True
  | j :: L, s => (|gNew n X v la dla s.1 j| < 1 / 10 ^ 12 → gNew n X v la dla s.1 j = 0) ∧
      GNoRound n X v la dla L (gStep n X v la dla s j)

theorem g_b' {s : BSt × ℝ} {j : ℕ} (h : |gNew n X v la dla s.1 j| < 1 / 10 ^ 12 → gNew n X v la dla s.1 j = 0) :
    (gStep n X v la dla s j).1.b = Function.update s.1.b j (gNew n X v la dla s.1 j) := by
  rw [g_b]
  split_ifs with hs
  · rw [h hs]
  · rfl

theorem g_fold (hn : 0 < n) (hla : 0 ≤ la) (hD : ∀ j, j < p → 0 < ∑ i ∈ Finset.range n, X i j ^ 2 * v i + dla) :
    ∀ (L : List ℕ) (s : BSt × ℝ), BInv n p X v z s.1 → (∀ j ∈ L, j < p) → GNoRound n X v la dla L s →
    BInv n p X v z (L.foldl (gStep n X v la dla) s).1 ∧ (L.foldl (gStep n X v la dla) s).1.b0 = s.1.b0 ∧
      gQ n p X v z la dla (L.foldl (gStep n X v la dla) s).1.b s.1.b0 ≤ gQ n p X v z la dla s.1.b s.1.b0
  | [], _, h, _, _ => ⟨h, rfl, le_refl _⟩
  | j :: L, s, h, hL, hr => by
    have hj := hL j (by simp)
    have hinv : BInv n p X v z (gStep n X v la dla s j).1 := by
      intro i hi
      rw [g_r, g_b' hr.1, g_b0, h i hi, sum_update (fun k v => X i k * v) j hj]
      ring
    obtain ⟨h1, h2, h3⟩ := g_fold hn hla hD L _ hinv (fun k hk => hL k (by simp [hk])) hr.2
    rw [g_b0] at h2 h3
    refine ⟨h1, h2, h3.trans ?_⟩
    have hc := C225_coordinate hn hla h hj (hD j hj) (s.1.b j)
    rw [Function.update_eq_self] at hc
    rw [g_b' hr.1]
    have := mul_nonneg (div_nonneg (hD j hj).le (by norm_num : (0 : ℝ) ≤ 2)) (sq_nonneg (s.1.b j - gNew n X v la dla s.1 j))
    linarith

/-- **C225.** A cycle keeps the residuals exact and never increases the working objective, as long as no
coefficient is rounded. -/
theorem C225_cycle_partial (hn : 0 < n) (hla : 0 ≤ la)
    (hD : ∀ j, j < p → 0 < ∑ i ∈ Finset.range n, X i j ^ 2 * v i + dla) (hv : 0 < ∑ i ∈ Finset.range n, v i)
    {s : BSt} (h : BInv n p X v z s) (hr : GNoRound n X v la dla ((List.range p).filter s.active) (s, 0)) :
    BInv n p X v z (gCycle n p X v la dla s).1 ∧
      gQ n p X v z la dla (gCycle n p X v la dla s).1.b (gCycle n p X v la dla s).1.b0 ≤ gQ n p X v z la dla s.b s.b0 := by
  obtain ⟨h1, h2, h3⟩ := g_fold hn hla hD _ (s, 0) h (fun j hj => List.mem_range.1 (List.mem_filter.1 hj).1) hr
  rw [gCycle]
  dsimp only at *
  generalize ((List.range p).filter s.active).foldl (gStep n X v la dla) (s, 0) = t at *
  have hn' : (0 : ℝ) < n := by exact_mod_cast hn
  have e : bIntercept n (fun i => n * v i) (up n t.1) = up n (bIntercept n v t.1) := by
    unfold bIntercept up
    have hd : (∑ i ∈ Finset.range n, (n : ℝ) * t.1.r i) / ∑ i ∈ Finset.range n, (n : ℝ) * v i =
        (∑ i ∈ Finset.range n, t.1.r i) / ∑ i ∈ Finset.range n, v i := by
      rw [← Finset.mul_sum, ← Finset.mul_sum, mul_div_mul_left _ _ hn'.ne']
    dsimp only
    rw [hd]
    congr 1
    funext i
    ring
  have hv' : 0 < ∑ i ∈ Finset.range n, (n : ℝ) * v i := by rw [← Finset.mul_sum]; exact mul_pos hn' hv
  obtain ⟨h4, h5⟩ := C107_intercept (la := la) (dla := dla) ((gInv_up hn t.1).2 h1) hn hv' s.b0
  rw [e] at h4 h5
  refine ⟨(gInv_up hn _).1 h5, ?_⟩
  have h6 : 0 ≤ (∑ i ∈ Finset.range n, (n : ℝ) * v i) / (2 * n) * (s.b0 - (up n (bIntercept n v t.1)).b0) ^ 2 :=
    mul_nonneg (div_nonneg hv'.le (by positivity)) (sq_nonneg _)
  rw [gQ_eq hn] at h3 ⊢
  rw [gQ_eq hn] at h3 ⊢
  have h7 : qObj n p X (fun i => n * v i) z la dla (up n (bIntercept n v t.1)).b (up n (bIntercept n v t.1)).b0 ≤
      qObj n p X (fun i => n * v i) z la dla (up n t.1).b s.b0 := by linarith
  exact h7.trans h3

/-! ## Variables dropped for good -/

theorem g_keep (j : ℕ) : ∀ (L : List ℕ) (s : BSt × ℝ), j ∉ L →
    (L.foldl (gStep n X v la dla) s).1.b j = s.1.b j ∧ (L.foldl (gStep n X v la dla) s).1.active j = s.1.active j
  | [], _, _ => ⟨rfl, rfl⟩
  | k :: L, s, h => by
    have hk : j ≠ k := fun e => h (by simp [e])
    obtain ⟨h1, h2⟩ := g_keep j L (gStep n X v la dla s k) fun hc => h (by simp [hc])
    rw [List.foldl_cons, h1, h2, g_b, g_active]
    refine ⟨Function.update_of_ne hk _ _, ?_⟩
    split_ifs
    · exact Function.update_of_ne hk _ _
    · rfl

/-- **C225.** A variable that is not active keeps its coefficient, and stays inactive. -/
theorem C225_inactive (j : ℕ) : ∀ (k : ℕ) (s : BSt), s.active j = false →
    (gLoop n p X v la dla dtol k s).b j = s.b j ∧ (gLoop n p X v la dla dtol k s).active j = false
  | 0, _, h => ⟨rfl, h⟩
  | k + 1, s, h => by
    have hj : j ∉ (List.range p).filter s.active := by simp [h]
    obtain ⟨h1, h2⟩ := g_keep (n := n) (X := X) (v := v) (la := la) (dla := dla) j _ (s, 0) hj
    have h3 : (gCycle n p X v la dla s).1.b j = s.b j := h1
    have h4 : (gCycle n p X v la dla s).1.active j = false := h2.trans h
    rw [gLoop]
    split_ifs
    · exact ⟨h3, h4⟩
    · obtain ⟨h5, h6⟩ := C225_inactive j k _ h4
      exact ⟨h5.trans h3, h6⟩

/-- A variable set to zero in a cycle is never looked at again: in the example the least squares fit is exact,
but the loop never gets the objective below one. -/
theorem C225_dropped_violated (dtol : ℝ) (iters : ℕ) :
    gQ 4 2 dropX (fun _ => 1) dropR 0 0 (fun j => if j = 0 then -1 else 2) 0 = 0 ∧
    1 ≤ gQ 4 2 dropX (fun _ => 1) dropR 0 0 (gLoop 4 2 dropX (fun _ => 1) 0 0 dtol (iters + 1) dropS).b
      (gLoop 4 2 dropX (fun _ => 1) 0 0 dtol (iters + 1) dropS).b0 := by
  refine ⟨?_, ?_⟩
  · unfold gQ
    simp [Finset.sum_range_succ, dropX, dropR]
    norm_num
  · have h0 : (gLoop 4 2 dropX (fun _ => 1) 0 0 dtol (iters + 1) dropS).b 0 = 0 := by
      have hz : gNew 4 dropX (fun _ => 1) 0 0 dropS 0 = 0 := by
        unfold gNew
        have e : (∑ i ∈ Finset.range 4, dropX i 0 * dropS.r i) = 0 := by
          simp [Finset.sum_range_succ, dropX, dropR, dropS]
        rw [e]
        simp [dropS, softThreshold, npSign]
      have hc : (gCycle 4 2 dropX (fun _ => 1) 0 0 dropS).1.b 0 = 0 ∧
          (gCycle 4 2 dropX (fun _ => 1) 0 0 dropS).1.active 0 = false := by
        have hL : (List.range 2).filter dropS.active = [0, 1] := by decide
        unfold gCycle
        rw [hL, List.foldl_cons]
        obtain ⟨k1, k2⟩ := g_keep (n := 4) (X := dropX) (v := fun _ => 1) (la := 0) (dla := 0) 0 [1]
          (gStep 4 dropX (fun _ => 1) 0 0 (dropS, 0) 0) (by simp)
        rw [g_b, hz, Function.update_self] at k1
        rw [g_active, hz, if_pos (by norm_num), Function.update_self] at k2
        exact ⟨k1.trans (by simp), k2⟩
      rw [gLoop]
      split_ifs
      · exact hc.1
      · rw [(C225_inactive 0 iters _ hc.2).1]
        exact hc.1
    generalize gLoop 4 2 dropX (fun _ => 1) 0 0 dtol (iters + 1) dropS = t at *
    unfold gQ
    simp [Finset.sum_range_succ, dropX, dropR, h0]
    generalize t.b 1 = u
    generalize t.b0 = c
    nlinarith [sq_nonneg (1 - c - u), sq_nonneg (-1 - c + u), sq_nonneg c]

/-! ## Screening -/

/-- The objective of a Gaussian fit with one standardised column. -/
theorem screen_obj (b : ℝ) : gObj gaussCF 2 1 (fun i _ => if i = 0 then -1 else 1) (fun i => if i = 0 then -1 else 1)
    (fun _ => 1 / 2) (1 / 2) (8 / 5) (fun _ => b) 0 =
      ((-1 - clipEta (-36) 36 (-b)) ^ 2 + (1 - clipEta (-36) 36 b) ^ 2) / 4 + 8 / 5 * (1 / 2 * |b| + 1 / 4 * b ^ 2) := by
  simp [gObj, gDev, gPen, gEta, gaussCF, Finset.sum_range_succ]
  ring

/-- The screening leaves `alpha` out: with `alpha = 1/2` it excludes a variable, whose score is above
`alpha * lam`, from a fit it improves.  The largest penalty of the grid is `g/alpha`. -/
theorem C225_screen_violated :
    gScreen (1 / 2) 1 (8 / 5) (1 / (1 / 2)) ∧ (1 / 2 : ℝ) * (8 / 5) < 1 ∧ ¬ ((1 : ℝ) < 1 / 2 * (2 * (8 / 5) - 1 / (1 / 2))) ∧
    gObj gaussCF 2 1 (fun i _ => if i = 0 then -1 else 1) (fun i => if i = 0 then -1 else 1) (fun _ => 1 / 2) (1 / 2)
        (8 / 5) (fun _ => 1 / 10) 0 <
      gObj gaussCF 2 1 (fun i _ => if i = 0 then -1 else 1) (fun i => if i = 0 then -1 else 1) (fun _ => 1 / 2) (1 / 2)
        (8 / 5) (fun _ => 0) 0 := by
  refine ⟨by unfold gScreen; norm_num, by norm_num, by norm_num, ?_⟩
  rw [screen_obj, screen_obj]
  have c : ∀ e : ℝ, |e| ≤ 36 → clipEta (-36) 36 e = e := by
    intro e he
    obtain ⟨h1, h2⟩ := abs_le.1 he
    unfold clipEta
    simp only [if_neg (not_lt.2 h1), gt_iff_lt, if_neg (not_lt.2 h2)]
  rw [c _ (by norm_num [abs_of_pos, abs_of_neg]), c _ (by norm_num [abs_of_pos]), c _ (by norm_num), c _ (by norm_num)]
  norm_num [abs_of_pos]

/-- **C225.** Nothing is left out once the penalty is at most half the largest one. -/
theorem C225_screen_partial (al g lam lam0 : ℝ) (hg : 0 ≤ g) (h : 2 * lam ≤ lam0) : ¬ gScreen al g lam lam0 := by
  unfold gScreen
  linarith

end Verif.Eln
