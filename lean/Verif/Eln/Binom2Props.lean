import Verif.Eln.Binom2
import Verif.Eln.BinomLoopProps
/-!
# C223: coordinate descent and step halving of the second binomial elastic net
-/
namespace Verif.Eln
open Verif.Func
variable {n p : ℕ} {X : ℕ → ℕ → ℝ} {y w z wt : ℕ → ℝ} {la dla dtol : ℝ}

theorem w2_b (s : BSt × ℝ) (j : ℕ) :
    (w2Step n X w la dla s j).1.b = Function.update s.1.b j (bNew n X w la dla s.1 j) := by
  simp only [w2Step, ne_eq, ite_not, bNew, curv]
  split_ifs <;> rfl

theorem w2_b0 (s : BSt × ℝ) (j : ℕ) : (w2Step n X w la dla s j).1.b0 = s.1.b0 := by
  simp only [w2Step, ne_eq, ite_not]
  split_ifs <;> rfl

theorem w2_r (s : BSt × ℝ) (j i : ℕ) : (w2Step n X w la dla s j).1.r i =
    s.1.r i - (bNew n X w la dla s.1 j - s.1.b j) * w i * X i j := by
  simp only [w2Step, ne_eq, ite_not]
  change (if bNew n X w la dla s.1 j = s.1.b j then _ else _ : BSt × ℝ).1.r i = _
  by_cases h : bNew n X w la dla s.1 j = s.1.b j
  · rw [if_pos h, h]; simp
  · rw [if_neg h]; rfl

theorem w2_active (s : BSt × ℝ) (j : ℕ) : (w2Step n X w la dla s j).1.active =
    if bNew n X w la dla s.1 j = 0 then Function.update s.1.active j false else s.1.active := by
  simp only [w2Step, ne_eq, ite_not]
  change (if bNew n X w la dla s.1 j = s.1.b j then _ else _ : BSt × ℝ).1.active = _
  by_cases h : bNew n X w la dla s.1 j = s.1.b j
  · rw [if_pos h]; rfl
  · rw [if_neg h]; rfl

theorem w2_inv {s : BSt × ℝ} (h : BInv n p X w z s.1) {j : ℕ} (hj : j < p) :
    BInv n p X w z (w2Step n X w la dla s j).1 := by
  intro i hi
  rw [w2_r, w2_b, w2_b0, h i hi, sum_update (fun k v => X i k * v) j hj]
  ring

theorem w2_fold (hn : 0 < n) (hla : 0 ≤ la) (hD : ∀ j, j < p → 0 < curv n X w j + dla) :
    ∀ (L : List ℕ) (s : BSt × ℝ), BInv n p X w z s.1 → (∀ j ∈ L, j < p) →
    BInv n p X w z (L.foldl (w2Step n X w la dla) s).1 ∧
      (L.foldl (w2Step n X w la dla) s).1.b0 = s.1.b0 ∧
      qObj n p X w z la dla (L.foldl (w2Step n X w la dla) s).1.b s.1.b0 ≤ qObj n p X w z la dla s.1.b s.1.b0
  | [], _, h, _ => ⟨h, rfl, le_refl _⟩
  | j :: L, s, h, hL => by
    have hj := hL j (by simp)
    obtain ⟨h1, h2, h3⟩ := w2_fold hn hla hD L _ (w2_inv (la := la) (dla := dla) h hj) (fun k hk => hL k (by simp [hk]))
    rw [w2_b0] at h2 h3
    refine ⟨h1, h2, h3.trans ?_⟩
    have hc := C107_coordinate h hn hla hj (hD j hj) (s.1.b j)
    rw [Function.update_eq_self] at hc
    rw [w2_b]
    have := mul_nonneg (div_nonneg (hD j hj).le (by norm_num : (0 : ℝ) ≤ 2)) (sq_nonneg (s.1.b j - bNew n X w la dla s.1 j))
    linarith

theorem w2_loop (hn : 0 < n) (hla : 0 ≤ la) (hD : ∀ j, j < p → 0 < curv n X w j + dla)
    (hw : 0 < ∑ i ∈ Finset.range n, w i) : ∀ (k : ℕ) (L : List ℕ) (first : Bool) (s : BSt),
    BInv n p X w z s → (∀ j ∈ L, j < p) →
    BInv n p X w z (w2Loop n p X w la dla dtol k L first s) ∧
      qObj n p X w z la dla (w2Loop n p X w la dla dtol k L first s).b (w2Loop n p X w la dla dtol k L first s).b0 ≤
        qObj n p X w z la dla s.b s.b0
  | 0, _, _, _, h, _ => ⟨h, le_refl _⟩
  | k + 1, L, first, s, h, hL => by
    obtain ⟨h1, h2, h3⟩ := w2_fold hn hla hD L (s, 0) h hL
    rw [w2Loop]
    generalize L.foldl (w2Step n X w la dla) (s, 0) = t at *
    obtain ⟨h4, h5⟩ := C107_intercept (la := la) (dla := dla) h1 hn hw s.b0
    have h6 : 0 ≤ (∑ i ∈ Finset.range n, w i) / (2 * n) * (s.b0 - (bIntercept n w t.1).b0) ^ 2 :=
      mul_nonneg (div_nonneg hw.le (by positivity)) (sq_nonneg _)
    dsimp only at h3
    have h7 : qObj n p X w z la dla (bIntercept n w t.1).b (bIntercept n w t.1).b0 ≤ qObj n p X w z la dla s.b s.b0 := by
      linarith
    split_ifs with hd hf
    · exact ⟨h5, h7⟩
    · obtain ⟨h8, h9⟩ := w2_loop hn hla hD hw k ((List.range p).filter t.1.active) false (bIntercept n w t.1) h5
        (fun j hj => List.mem_range.1 (List.mem_filter.1 hj).1)
      exact ⟨h8, h9.trans h7⟩
    · obtain ⟨h8, h9⟩ := w2_loop hn hla hD hw k L false (bIntercept n w t.1) h5 hL
      exact ⟨h8, h9.trans h7⟩

/-- **C223.** The inner loop keeps the working residuals exact and never increases the penalised weighted
least squares objective, however many iterations it makes. -/
theorem C223_inner (hn : 0 < n) (hla : 0 ≤ la) (hD : ∀ j, j < p → 0 < curv n X w j + dla)
    (hw : 0 < ∑ i ∈ Finset.range n, w i) (iters : ℕ) {s : BSt} (h : BInv n p X w z s) :
    BInv n p X w z (welnetCd n p X w la dla dtol iters s) ∧
      qObj n p X w z la dla (welnetCd n p X w la dla dtol iters s).b (welnetCd n p X w la dla dtol iters s).b0 ≤
        qObj n p X w z la dla s.b s.b0 :=
  w2_loop hn hla hD hw iters _ true s h fun _ hj => List.mem_range.1 (List.mem_filter.1 hj).1

/-- **C223.** The residuals handed to it are those of the working response. -/
theorem C223_working (b : ℕ → ℝ) (b0 : ℝ) (active : ℕ → Bool) :
    BInv n p X (b2Work p X b b0)
      (fun i => ∑ j ∈ Finset.range p, X i j * b j + b0 +
        (y i - invLogit (∑ j ∈ Finset.range p, X i j * b j + b0)) / b2Work p X b b0 i)
      (b2State p X y b b0 active) := by
  intro i _
  have h : b2Work p X b b0 i ≠ 0 := (mul_pos (invLogit_pos _) (one_sub_invLogit_pos _)).ne'
  show y i - _ = _ * (_ - b0 - ∑ j ∈ Finset.range p, X i j * b j)
  have e : ∀ a c d : ℝ, (a + b0 + c / d) - b0 - a = c / d := fun a c d => by ring
  rw [e, mul_div_cancel₀ _ h]

/-! ## Variables dropped after the first cycle -/

theorem w2_keep (j : ℕ) : ∀ (L : List ℕ) (s : BSt × ℝ), j ∉ L →
    (L.foldl (w2Step n X w la dla) s).1.b j = s.1.b j ∧
    (L.foldl (w2Step n X w la dla) s).1.active j = s.1.active j
  | [], _, _ => ⟨rfl, rfl⟩
  | k :: L, s, h => by
    have hk : j ≠ k := fun e => h (by simp [e])
    obtain ⟨h1, h2⟩ := w2_keep j L (w2Step n X w la dla s k) fun hc => h (by simp [hc])
    rw [List.foldl_cons, h1, h2, w2_b, w2_active]
    refine ⟨Function.update_of_ne hk _ _, ?_⟩
    split_ifs
    · exact Function.update_of_ne hk _ _
    · rfl

theorem w2_loop_keep (j : ℕ) : ∀ (k : ℕ) (L : List ℕ) (s : BSt), j ∉ L →
    (w2Loop n p X w la dla dtol k L false s).b j = s.b j
  | 0, _, _, _ => rfl
  | k + 1, L, s, h => by
    rw [w2Loop]
    have h1 := (w2_keep (n := n) (X := X) (w := w) (la := la) (dla := dla) j L (s, 0) h).1
    split_ifs with hc
    · exact h1
    · rename_i hf
      exact absurd hf (by simp)
    · rw [w2_loop_keep j k L _ h]
      exact h1

/-- **C223.** A variable that the first cycle sets to zero stays at zero. -/
theorem C223_dropped (iters : ℕ) (s : BSt) (j : ℕ) (hj : j < p) (ha : s.active j = true)
    (L1 L2 : List ℕ) (hL : (List.range p).filter s.active = L1 ++ j :: L2)
    (h0 : bNew n X w la dla (L1.foldl (w2Step n X w la dla) (s, 0)).1 j = 0) :
    (welnetCd n p X w la dla dtol (iters + 1) s).b j = 0 := by
  have hnd : (L1 ++ j :: L2).Nodup := hL ▸ List.nodup_range.filter _
  have h2 : j ∉ L2 := by
    have := (List.nodup_append.1 hnd).2.1
    exact (List.nodup_cons.1 this).1
  rw [welnetCd, w2Loop]
  rw [hL, List.foldl_append, List.foldl_cons]
  obtain ⟨k1, k2⟩ := w2_keep (n := n) (X := X) (w := w) (la := la) (dla := dla) j L2
    (w2Step n X w la dla (L1.foldl (w2Step n X w la dla) (s, 0)) j) h2
  rw [w2_b, h0, Function.update_self] at k1
  rw [w2_active, if_pos h0, Function.update_self] at k2
  generalize L2.foldl (w2Step n X w la dla) _ = t at *
  split_ifs with hd hf
  · exact k1
  · rw [w2_loop_keep]
    · exact k1
    · simp [k2]
  · exact absurd rfl hf

/-- Two correlated columns, the first orthogonal to the residuals. -/
def dropX (i j : ℕ) : ℝ := if j = 0 then (if i < 2 then 1 else -1) else (if i = 0 then 1 else if i = 3 then -1 else 0)

/-- The residuals. -/
def dropR (i : ℕ) : ℝ := if i = 0 ∨ i = 2 then 1 else -1

/-- The state of the example. -/
def dropS : BSt := ⟨fun _ => 0, 0, dropR, fun _ => true, fun _ => 0⟩

/-- Without penalty the residuals can be fitted exactly, but the loop, having dropped the first variable
in its first cycle, never gets below a quarter. -/
theorem C223_dropped_violated (dtol : ℝ) (iters : ℕ) :
    BInv 4 2 dropX (fun _ => 1) dropR dropS ∧
    qObj 4 2 dropX (fun _ => 1) dropR 0 0 (fun j => if j = 0 then -1 else 2) 0 = 0 ∧
    1 / 4 ≤ qObj 4 2 dropX (fun _ => 1) dropR 0 0 (welnetCd 4 2 dropX (fun _ => 1) 0 0 dtol (iters + 1) dropS).b
      (welnetCd 4 2 dropX (fun _ => 1) 0 0 dtol (iters + 1) dropS).b0 := by
  refine ⟨?_, ?_, ?_⟩
  · intro i _
    simp [dropS]
  · unfold qObj
    simp [Finset.sum_range_succ, dropX, dropR]
    norm_num
  · have h0 : (welnetCd 4 2 dropX (fun _ => 1) 0 0 dtol (iters + 1) dropS).b 0 = 0 := by
      refine C223_dropped iters dropS 0 (by norm_num) rfl [] [1] (by decide) ?_
      simp only [List.foldl_nil, bNew]
      have e : (∑ i ∈ Finset.range 4, dropS.r i * dropX i 0) = 0 := by
        simp [Finset.sum_range_succ, dropX, dropR, dropS]
      rw [e]
      simp [dropS, softThreshold, npSign]
    generalize welnetCd 4 2 dropX (fun _ => 1) 0 0 dtol (iters + 1) dropS = t at *
    unfold qObj
    simp [Finset.sum_range_succ, dropX, dropR, h0]
    generalize t.b 1 = u
    generalize t.b0 = v
    nlinarith [sq_nonneg (1 - v - u), sq_nonneg (-1 - v + u), sq_nonneg v]

/-! ## The objective and the step halving -/

/-- The part of the deviance that does not depend on the fit. -/
noncomputable def satur (y : ℝ) : ℝ := if y = 0 then 0 else if y = 1 then 0 else y * Real.log y + (1 - y) * Real.log (1 - y)

theorem binDev_eq (y x : ℝ) : binDev y (invLogit x) = Real.log (1 + Real.exp x) - y * x + satur y := by
  have hb := bern_ll y x
  have hm := invLogit_pos x
  have hm1 := one_sub_invLogit_pos x
  unfold binDev satur
  split_ifs with h0 h1
  · subst h0
    linarith
  · subst h1
    linarith
  · have h1' : 1 - y ≠ 0 := fun h => h1 (by linarith)
    rw [Real.log_div h0 hm.ne', Real.log_div h1' hm1.ne']
    linarith

/-- **C223.** The objective function is the penalised weighted Bernoulli likelihood, up to a constant. -/
theorem C223_objective (al lam : ℝ) (b : ℕ → ℝ) (b0 : ℝ) :
    b2Obj n p X y wt al lam b b0 =
      ∑ i ∈ Finset.range n, wt i * (Real.log (1 + Real.exp (∑ j ∈ Finset.range p, X i j * b j + b0)) -
        y i * (∑ j ∈ Finset.range p, X i j * b j + b0)) +
      lam * (al * ∑ j ∈ Finset.range p, |b j| + (1 - al) / 2 * ∑ j ∈ Finset.range p, b j ^ 2) +
      ∑ i ∈ Finset.range n, wt i * satur (y i) := by
  unfold b2Obj
  have e : (∑ i ∈ Finset.range n, 2 * wt i * binDev (y i) (invLogit (∑ j ∈ Finset.range p, X i j * b j + b0))) / 2 =
      ∑ i ∈ Finset.range n, wt i * (Real.log (1 + Real.exp (∑ j ∈ Finset.range p, X i j * b j + b0)) -
        y i * (∑ j ∈ Finset.range p, X i j * b j + b0)) + ∑ i ∈ Finset.range n, wt i * satur (y i) := by
    rw [← Finset.sum_add_distrib, Finset.sum_div]
    refine Finset.sum_congr rfl fun i _ => ?_
    rw [binDev_eq]
    ring
  have e2 : ∑ j ∈ Finset.range p, b j * b j = ∑ j ∈ Finset.range p, b j ^ 2 :=
    Finset.sum_congr rfl fun j _ => by ring
  rw [e, e2]
  ring

theorem logistic_mid (a b : ℝ) : Real.log (1 + Real.exp ((a + b) / 2)) ≤
    (Real.log (1 + Real.exp a) + Real.log (1 + Real.exp b)) / 2 := by
  have h1 := logistic_tangent ((a + b) / 2) a
  have h2 := logistic_tangent ((a + b) / 2) b
  nlinarith

/-- The objective on pairs of coefficients and intercept. -/
noncomputable def pairObj (n p : ℕ) (X : ℕ → ℕ → ℝ) (y wt : ℕ → ℝ) (al lam : ℝ) (x : (ℕ → ℝ) × ℝ) : ℝ :=
  b2Obj n p X y wt al lam x.1 x.2

/-- **C223.** The objective is midpoint convex. -/
theorem C223_convex (hwt : ∀ i, i < n → 0 ≤ wt i) {al lam : ℝ} (hal : 0 ≤ al) (hal1 : al ≤ 1) (hlam : 0 ≤ lam)
    (x x' : (ℕ → ℝ) × ℝ) : pairObj n p X y wt al lam ((1 / 2 : ℝ) • (x + x')) ≤
      (pairObj n p X y wt al lam x + pairObj n p X y wt al lam x') / 2 := by
  unfold pairObj
  rw [C223_objective, C223_objective, C223_objective]
  obtain ⟨b, b0⟩ := x
  obtain ⟨c, c0⟩ := x'
  simp only [Prod.mk_add_mk, Prod.smul_mk, Pi.smul_apply, Pi.add_apply, smul_eq_mul]
  have he : ∀ i, ∑ j ∈ Finset.range p, X i j * (1 / 2 * (b j + c j)) + 1 / 2 * (b0 + c0) =
      ((∑ j ∈ Finset.range p, X i j * b j + b0) + (∑ j ∈ Finset.range p, X i j * c j + c0)) / 2 := by
    intro i
    have : ∑ j ∈ Finset.range p, X i j * (1 / 2 * (b j + c j)) =
        (∑ j ∈ Finset.range p, X i j * b j + ∑ j ∈ Finset.range p, X i j * c j) / 2 := by
      rw [← Finset.sum_add_distrib, Finset.sum_div]
      exact Finset.sum_congr rfl fun j _ => by ring
    rw [this]
    ring
  have h1 : ∑ i ∈ Finset.range n, wt i * (Real.log (1 + Real.exp (∑ j ∈ Finset.range p, X i j * (1 / 2 * (b j + c j)) +
        1 / 2 * (b0 + c0))) - y i * (∑ j ∈ Finset.range p, X i j * (1 / 2 * (b j + c j)) + 1 / 2 * (b0 + c0))) ≤
      (∑ i ∈ Finset.range n, wt i * (Real.log (1 + Real.exp (∑ j ∈ Finset.range p, X i j * b j + b0)) -
        y i * (∑ j ∈ Finset.range p, X i j * b j + b0)) +
      ∑ i ∈ Finset.range n, wt i * (Real.log (1 + Real.exp (∑ j ∈ Finset.range p, X i j * c j + c0)) -
        y i * (∑ j ∈ Finset.range p, X i j * c j + c0))) / 2 := by
    rw [← Finset.sum_add_distrib, Finset.sum_div]
    refine Finset.sum_le_sum fun i hi => ?_
    rw [he i]
    have := mul_le_mul_of_nonneg_left (logistic_mid (∑ j ∈ Finset.range p, X i j * b j + b0)
      (∑ j ∈ Finset.range p, X i j * c j + c0)) (hwt i (Finset.mem_range.1 hi))
    linarith
  have h2 : ∑ j ∈ Finset.range p, |1 / 2 * (b j + c j)| ≤
      (∑ j ∈ Finset.range p, |b j| + ∑ j ∈ Finset.range p, |c j|) / 2 := by
    rw [← Finset.sum_add_distrib, Finset.sum_div]
    refine Finset.sum_le_sum fun j _ => ?_
    rw [abs_mul, abs_of_pos (by norm_num : (0 : ℝ) < 1 / 2)]
    linarith [abs_add_le (b j) (c j)]
  have h3 : ∑ j ∈ Finset.range p, (1 / 2 * (b j + c j)) ^ 2 ≤
      (∑ j ∈ Finset.range p, b j ^ 2 + ∑ j ∈ Finset.range p, c j ^ 2) / 2 := by
    rw [← Finset.sum_add_distrib, Finset.sum_div]
    refine Finset.sum_le_sum fun j _ => ?_
    nlinarith [sq_nonneg (b j - c j)]
  have h4 := mul_le_mul_of_nonneg_left (add_le_add (mul_le_mul_of_nonneg_left h2 hal)
    (mul_le_mul_of_nonneg_left h3 (by linarith : 0 ≤ (1 - al) / 2))) hlam
  linarith

/-- **C223.** Halving either ends within the tolerance of the previous value or divides the excess by `2^k`. -/
theorem C223_halving {V : Type*} [AddCommGroup V] [Module ℝ V] (f : V → ℝ)
    (hf : ∀ x x', f ((1 / 2 : ℝ) • (x + x')) ≤ (f x + f x') / 2) (b : V) : ∀ (k : ℕ) (x : V),
    f (halve f (f b) b k x) ≤ f b + 1 / 10 ^ 7 ∨ f (halve f (f b) b k x) - f b ≤ (f x - f b) / 2 ^ k
  | 0, x => Or.inr (by simp [halve])
  | k + 1, x => by
    rw [halve]
    split_ifs with h
    · rcases C223_halving f hf b k ((1 / 2 : ℝ) • (b + x)) with h1 | h1
      · exact Or.inl h1
      · refine Or.inr (h1.trans ?_)
        rw [pow_succ, div_le_div_iff₀ (by positivity) (by positivity)]
        nlinarith [hf b x, pow_pos (two_pos : (0 : ℝ) < 2) k]
    · exact Or.inl (not_lt.1 h)

/-- Consecutive values rise by at most `1e-7`. -/
def Steady : ℝ → List ℝ → Prop
  | _, [] => True
  | a, f :: l => f ≤ a + 1 / 10 ^ 7 ∧ Steady f l

/-- **C223.** The recorded values never rise by more than the tolerance, provided an inner step raises the
objective by less than a hundred million. -/
theorem C223_values_partial {V A : Type*} [AddCommGroup V] [Module ℝ V] (f : V → ℝ)
    (hf : ∀ x x', f ((1 / 2 : ℝ) • (x + x')) ≤ (f x + f x') / 2) (inner : V → A → V × A)
    (hi : ∀ b a, f (inner b a).1 - f b ≤ 10 ^ 8) (ftol : ℝ) : ∀ (k : ℕ) (b : V) (a : A),
    Steady (f b) (b2Outer f inner ftol k b a (f b)).2
  | 0, _, _ => trivial
  | k + 1, b, a => by
    have h : f (halve f (f b) b 50 (inner b a).1) ≤ f b + 1 / 10 ^ 7 := by
      rcases C223_halving f hf b 50 (inner b a).1 with h | h
      · exact h
      · have h2 : (f (inner b a).1 - f b) / 2 ^ 50 ≤ 10 ^ 8 / 2 ^ 50 := by
          have := hi b a
          gcongr
        have h3 : (10 : ℝ) ^ 8 / 2 ^ 50 ≤ 1 / 10 ^ 7 := by norm_num
        linarith
    rw [b2Outer]
    dsimp only
    split_ifs
    · exact ⟨h, trivial⟩
    · exact ⟨h, C223_values_partial f hf inner hi ftol k _ _⟩

/-! ## Fixed points -/

/-- **C223.** With equal weights a point that no coordinate step and no intercept step moves is a global
minimum of the objective. -/
theorem C223_fixed_partial (hn : 0 < n) {al lam : ℝ} (hla : 0 ≤ lam * al) (hdla : 0 ≤ lam * (1 - al))
    (b : ℕ → ℝ) (b0 : ℝ) (active : ℕ → Bool)
    (hD : ∀ j, j < p → 0 < curv n X (b2Work p X b b0) j + lam * (1 - al))
    (h0 : (bIntercept n (b2Work p X b b0) (b2State p X y b b0 active)).b0 = b0)
    (hb : ∀ j, j < p → bNew n X (b2Work p X b b0) (lam * al) (lam * (1 - al)) (b2State p X y b b0 active) j = b j)
    (c : ℕ → ℝ) (c0 : ℝ) :
    b2Obj n p X y (fun _ => 1 / (n : ℝ)) al lam b b0 ≤ b2Obj n p X y (fun _ => 1 / (n : ℝ)) al lam c c0 := by
  have hn' : (0 : ℝ) < n := by exact_mod_cast hn
  have key : ∀ (c : ℕ → ℝ) (c0 : ℝ), b2Obj n p X y (fun _ => 1 / (n : ℝ)) al lam c c0 =
      pObj n p X y (lam * al) (lam * (1 - al)) c c0 + ∑ i ∈ Finset.range n, 1 / (n : ℝ) * satur (y i) := by
    intro c c0
    rw [C223_objective, pObj, ← Finset.mul_sum, ← Finset.sum_neg_distrib]
    have e : ∑ i ∈ Finset.range n, (Real.log (1 + Real.exp (∑ j ∈ Finset.range p, X i j * c j + c0)) -
          y i * (∑ j ∈ Finset.range p, X i j * c j + c0)) =
        ∑ i ∈ Finset.range n, -(y i * (c0 + ∑ j ∈ Finset.range p, X i j * c j) -
          Real.log (1 + Real.exp (c0 + ∑ j ∈ Finset.range p, X i j * c j))) :=
      Finset.sum_congr rfl fun i _ => by rw [add_comm c0]; ring
    rw [e]
    ring
  rw [key, key]
  refine add_le_add (min_of_kkt hn hdla (m := fun i => invLogit (∑ j ∈ Finset.range p, X i j * b j + b0))
    (fun i _ => by rw [add_comm b0]) ?_ (fun j hj c => ?_) c c0) le_rfl
  · have hW : 0 < ∑ i ∈ Finset.range n, b2Work p X b b0 i :=
      Finset.sum_pos (fun i _ => mul_pos (invLogit_pos _) (one_sub_invLogit_pos _)) ⟨0, Finset.mem_range.2 hn⟩
    have hd : (∑ i ∈ Finset.range n, (b2State p X y b b0 active).r i) / ∑ i ∈ Finset.range n, b2Work p X b b0 i = 0 :=
      add_eq_left.1 h0
    exact (div_eq_zero_iff.1 hd).resolve_right hW.ne'
  · have hs := soft_sub (u := (∑ i ∈ Finset.range n, (b2State p X y b b0 active).r i * X i j) / n +
      curv n X (b2Work p X b b0) j * b j) hla (hD j hj) c
    have hb' : softThreshold ((∑ i ∈ Finset.range n, (b2State p X y b b0 active).r i * X i j) / n +
      curv n X (b2Work p X b b0) j * b j) (lam * al) / (curv n X (b2Work p X b b0) j + lam * (1 - al)) = b j := hb j hj
    rw [hb'] at hs
    refine le_trans (le_of_eq ?_) hs
    show _ = ((∑ i ∈ Finset.range n, (y i - invLogit (∑ j ∈ Finset.range p, X i j * b j + b0)) * X i j) / n + _ - _) * _
    ring

theorem invLogit_zero : invLogit 0 = 1 / 2 := by unfold invLogit; norm_num

/-- The working residuals leave the weights out: with unequal weights the steps stand still at a point
that does not minimise the weighted objective. -/
theorem C223_weights_violated : ∃ (y wt : ℕ → ℝ), (∀ i, 0 < wt i) ∧ ∑ i ∈ Finset.range 2, wt i = 1 ∧
    (bIntercept 2 (b2Work 0 (fun _ _ => 0) (fun _ => 0) 0)
      (b2State 0 (fun _ _ => 0) y (fun _ => 0) 0 fun _ => true)).b0 = 0 ∧
    ∃ c0, b2Obj 2 0 (fun _ _ => 0) y wt 1 1 (fun _ => 0) c0 < b2Obj 2 0 (fun _ _ => 0) y wt 1 1 (fun _ => 0) 0 := by
  refine ⟨fun i => if i = 0 then 0 else 1, fun i => if i = 0 then 3 / 4 else 1 / 4, fun i => ?_, ?_, ?_, ?_⟩
  · dsimp only; split_ifs <;> norm_num
  · simp [Finset.sum_range_succ]; norm_num
  · simp only [bIntercept, b2State, Finset.sum_range_succ, Finset.range_zero, Finset.sum_empty, zero_add, invLogit_zero]
    norm_num
  · refine ⟨Real.log (1 / 3), ?_⟩
    rw [C223_objective, C223_objective]
    simp only [Finset.sum_range_succ, Finset.range_zero, Finset.sum_empty, zero_add, Real.exp_log (by norm_num : (0 : ℝ) < 1 / 3),
      Real.exp_zero]
    have h1 : Real.log (1 / 3) = -Real.log 3 := by rw [one_div, Real.log_inv]
    have h2 : Real.log (1 + 1 / 3) = 2 * Real.log 2 - Real.log 3 := by
      rw [show (1 + 1 / 3 : ℝ) = 2 ^ 2 / 3 by norm_num, Real.log_div (by norm_num) (by norm_num), Real.log_pow]
      norm_num
    have h3 : (1 + 1 : ℝ) = 2 := by norm_num
    have h4 : 4 * Real.log 2 < 3 * Real.log 3 := by
      have := Real.log_lt_log (by norm_num) (by norm_num : (2 : ℝ) ^ 4 < 3 ^ 3)
      rw [Real.log_pow, Real.log_pow] at this
      exact_mod_cast this
    rw [h1, h2, h3]
    norm_num
    linarith

end Verif.Eln
