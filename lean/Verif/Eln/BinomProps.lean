import Mathlib.Analysis.Convex.SpecificFunctions.Basic
import Verif.Eln.Props
import Verif.Eln.Binom
/-!
# C107: the inner cycle of the binomial elastic net
-/
namespace Verif.Eln
open Verif.Func
variable {n p : ℕ} {X : ℕ → ℕ → ℝ} {w z b : ℕ → ℝ} {la dla b0 : ℝ} {s : BSt}

/-- Spec: the penalised weighted least squares objective with working response `z`. -/
noncomputable def qObj (n p : ℕ) (X : ℕ → ℕ → ℝ) (w z : ℕ → ℝ) (la dla : ℝ) (b : ℕ → ℝ) (b0 : ℝ) : ℝ :=
  (∑ i ∈ Finset.range n, w i * (z i - b0 - ∑ j ∈ Finset.range p, X i j * b j) ^ 2) / (2 * n) +
    (la * ∑ j ∈ Finset.range p, |b j| + dla / 2 * ∑ j ∈ Finset.range p, b j ^ 2)

/-- The invariant: `r` holds the weighted working residuals. -/
def BInv (n p : ℕ) (X : ℕ → ℕ → ℝ) (w z : ℕ → ℝ) (s : BSt) : Prop :=
  ∀ i, i < n → s.r i = w i * (z i - s.b0 - ∑ j ∈ Finset.range p, X i j * s.b j)

/-- `xwx`. -/
noncomputable def curv (n : ℕ) (X : ℕ → ℕ → ℝ) (w : ℕ → ℝ) (j : ℕ) : ℝ := (∑ i ∈ Finset.range n, w i * X i j ^ 2) / n

/-- The coefficient before rounding to zero. -/
noncomputable def bNew (n : ℕ) (X : ℕ → ℕ → ℝ) (w : ℕ → ℝ) (la dla : ℝ) (s : BSt) (j : ℕ) : ℝ :=
  softThreshold ((∑ i ∈ Finset.range n, s.r i * X i j) / n + curv n X w j * s.b j) la / (curv n X w j + dla)

/-- No coefficient of absolute value at most `1e-12` but zero comes up while visiting the coordinates of `L`. -/
def NoRound (n : ℕ) (X : ℕ → ℕ → ℝ) (w : ℕ → ℝ) (la dla : ℝ) : List ℕ → BSt → Prop
  | [], _ => True
  | j :: L, s => (|bNew n X w la dla s j| ≤ 1 / 10 ^ 12 → bNew n X w la dla s j = 0) ∧
      NoRound n X w la dla L (bStep n X (fun i j => X i j ^ 2) w la dla s j)

theorem bstep_b (s : BSt) (j : ℕ) (h : |bNew n X w la dla s j| ≤ 1 / 10 ^ 12 → bNew n X w la dla s j = 0) :
    (bStep n X (fun i j => X i j ^ 2) w la dla s j).b = Function.update s.b j (bNew n X w la dla s j) := by
  simp only [bStep]
  change Function.update s.b j (if |bNew n X w la dla s j| ≤ 1 / 10 ^ 12 then 0 else bNew n X w la dla s j) = _
  split_ifs with hs
  · rw [h hs]
  · rfl

theorem bstep_r (s : BSt) (j i : ℕ) : (bStep n X (fun i j => X i j ^ 2) w la dla s j).r i =
    s.r i - (bNew n X w la dla s j - s.b j) * w i * X i j := by
  simp only [bStep]
  change (if |bNew n X w la dla s j - s.b j| > 0 then (fun i => s.r i - (bNew n X w la dla s j - s.b j) * w i * X i j)
    else s.r) i = _
  split_ifs with hs
  · rfl
  · rw [abs_pos.not.1 hs |> not_not.1]; ring

/-- A step keeps the residuals those of the coefficients, unless a coefficient is rounded. -/
theorem bstep_inv (h : BInv n p X w z s) {j : ℕ} (hj : j < p)
    (hr : |bNew n X w la dla s j| ≤ 1 / 10 ^ 12 → bNew n X w la dla s j = 0) :
    BInv n p X w z (bStep n X (fun i j => X i j ^ 2) w la dla s j) := by
  intro i hi
  rw [bstep_r, bstep_b s j hr, h i hi, sum_update (fun k v => X i k * v) j hj]
  have : (bStep n X (fun i j => X i j ^ 2) w la dla s j).b0 = s.b0 := rfl
  rw [this]
  ring

/-- The step minimises the objective in its coordinate, with quadratic growth. -/
theorem C107_coordinate (h : BInv n p X w z s) (hn : 0 < n) (hla : 0 ≤ la) {j : ℕ} (hj : j < p)
    (hD : 0 < curv n X w j + dla) (x : ℝ) :
    qObj n p X w z la dla (Function.update s.b j (bNew n X w la dla s j)) s.b0 +
        (curv n X w j + dla) / 2 * (x - bNew n X w la dla s j) ^ 2 ≤
      qObj n p X w z la dla (Function.update s.b j x) s.b0 := by
  have hn' : (0 : ℝ) < n := by exact_mod_cast hn
  have hs := soft_sub (u := (∑ i ∈ Finset.range n, s.r i * X i j) / n + curv n X w j * s.b j) hla hD x
  rw [← bNew] at hs
  have e : ∀ x, qObj n p X w z la dla (Function.update s.b j x) s.b0 =
      (∑ i ∈ Finset.range n, w i * (z i - s.b0 - ∑ j ∈ Finset.range p, X i j * s.b j) ^ 2) / (2 * n) -
      (x - s.b j) * ((∑ i ∈ Finset.range n, s.r i * X i j) / n) + (x - s.b j) ^ 2 / 2 * curv n X w j +
      (la * (∑ j ∈ Finset.range p, |s.b j| - |s.b j| + |x|) +
        dla / 2 * (∑ j ∈ Finset.range p, s.b j ^ 2 - s.b j ^ 2 + x ^ 2)) := by
    intro x
    rw [qObj, sum_update (fun _ v => |v|) j hj x, sum_update (fun _ v => v ^ 2) j hj x]
    congr 1
    have hi : ∀ i ∈ Finset.range n, w i * (z i - s.b0 - ∑ k ∈ Finset.range p, X i k * Function.update s.b j x k) ^ 2 =
        w i * (z i - s.b0 - ∑ j ∈ Finset.range p, X i j * s.b j) ^ 2 - 2 * (x - s.b j) * (s.r i * X i j) +
          (x - s.b j) ^ 2 * (w i * X i j ^ 2) := by
      intro i hi
      rw [h i (Finset.mem_range.1 hi), sum_update (fun k v => X i k * v) j hj x]
      ring
    rw [Finset.sum_congr rfl hi, Finset.sum_add_distrib, Finset.sum_sub_distrib, ← Finset.mul_sum, ← Finset.mul_sum, curv]
    field_simp
  rw [e, e]
  set B := bNew n X w la dla s j
  set G := (∑ i ∈ Finset.range n, s.r i * X i j) / n
  set K := curv n X w j
  nlinarith

/-- The intercept update minimises the objective in the intercept. -/
theorem C107_intercept (h : BInv n p X w z s) (hn : 0 < n) (hw : 0 < ∑ i ∈ Finset.range n, w i) (x : ℝ) :
    qObj n p X w z la dla (bIntercept n w s).b (bIntercept n w s).b0 +
        (∑ i ∈ Finset.range n, w i) / (2 * n) * (x - (bIntercept n w s).b0) ^ 2 =
      qObj n p X w z la dla s.b x ∧ BInv n p X w z (bIntercept n w s) := by
  have hn' : (0 : ℝ) < n := by exact_mod_cast hn
  have e : ∀ x, qObj n p X w z la dla s.b x =
      (∑ i ∈ Finset.range n, w i * (z i - s.b0 - ∑ j ∈ Finset.range p, X i j * s.b j) ^ 2) / (2 * n) -
      (x - s.b0) * ((∑ i ∈ Finset.range n, s.r i) / n) + (x - s.b0) ^ 2 * (∑ i ∈ Finset.range n, w i) / (2 * n) +
      (la * ∑ j ∈ Finset.range p, |s.b j| + dla / 2 * ∑ j ∈ Finset.range p, s.b j ^ 2) := by
    intro x
    rw [qObj]
    congr 1
    have hi : ∀ i ∈ Finset.range n, w i * (z i - x - ∑ k ∈ Finset.range p, X i k * s.b k) ^ 2 =
        w i * (z i - s.b0 - ∑ j ∈ Finset.range p, X i j * s.b j) ^ 2 - 2 * (x - s.b0) * s.r i +
          (x - s.b0) ^ 2 * w i := by
      intro i hi
      rw [h i (Finset.mem_range.1 hi)]
      ring
    rw [Finset.sum_congr rfl hi, Finset.sum_add_distrib, Finset.sum_sub_distrib, ← Finset.mul_sum, ← Finset.mul_sum]
    field_simp
  refine ⟨?_, fun i hi => ?_⟩
  · show qObj n p X w z la dla s.b (s.b0 + _) + _ * (x - (s.b0 + _)) ^ 2 = _
    rw [e, e]
    field_simp
    ring
  · show s.r i - _ * w i = w i * (z i - (s.b0 + _) - ∑ j ∈ Finset.range p, X i j * s.b j)
    rw [h i hi]
    ring

theorem bfold_b0 (L : List ℕ) (s : BSt) : (L.foldl (bStep n X (fun i j => X i j ^ 2) w la dla) s).b0 = s.b0 := by
  induction L generalizing s with
  | nil => rfl
  | cons j L ih => rw [List.foldl_cons, ih]; rfl

theorem bfold_decrease (hn : 0 < n) (hla : 0 ≤ la) (hD : ∀ j, j < p → 0 < curv n X w j + dla) : ∀ (L : List ℕ) (s : BSt),
    BInv n p X w z s → (∀ j ∈ L, j < p) → NoRound n X w la dla L s →
    BInv n p X w z (L.foldl (bStep n X (fun i j => X i j ^ 2) w la dla) s) ∧
      qObj n p X w z la dla (L.foldl (bStep n X (fun i j => X i j ^ 2) w la dla) s).b s.b0 ≤
        qObj n p X w z la dla s.b s.b0
  | [], _, h, _, _ => ⟨h, le_refl _⟩
  | j :: L, s, h, hL, hr => by
    have hj := hL j (by simp)
    obtain ⟨h1, h2⟩ := bfold_decrease hn hla hD L _ (bstep_inv h hj hr.1) (fun k hk => hL k (by simp [hk])) hr.2
    refine ⟨h1, h2.trans ?_⟩
    have hc := C107_coordinate h hn hla hj (hD j hj) (s.b j)
    rw [Function.update_eq_self] at hc
    have hb0 : (bStep n X (fun i j => X i j ^ 2) w la dla s j).b0 = s.b0 := rfl
    rw [bstep_b s j hr.1, hb0]
    have := mul_nonneg (div_nonneg (hD j hj).le (by norm_num : (0 : ℝ) ≤ 2)) (sq_nonneg (s.b j - bNew n X w la dla s j))
    linarith

/-- A cycle never increases the objective and keeps the residuals exact, as long as no coefficient is rounded. -/
theorem C107_decrease_partial (hn : 0 < n) (hla : 0 ≤ la) (hD : ∀ j, j < p → 0 < curv n X w j + dla)
    (hw : 0 < ∑ i ∈ Finset.range n, w i) (h : BInv n p X w z s)
    (hr : NoRound n X w la dla ((List.range p).filter s.active) s) {s' : BSt}
    (hs : bCycle n p X (fun i j => X i j ^ 2) w la dla s = s') :
    BInv n p X w z s' ∧ qObj n p X w z la dla s'.b s'.b0 ≤ qObj n p X w z la dla s.b s.b0 := by
  subst hs
  obtain ⟨h1, h2⟩ := bfold_decrease hn hla hD _ s h (fun j hj => List.mem_range.1 (List.mem_filter.1 hj).1) hr
  rw [bCycle]
  generalize hf : ((List.range p).filter s.active).foldl (bStep n X (fun i j => X i j ^ 2) w la dla) s = f at *
  have hb0 : f.b0 = s.b0 := by rw [← hf]; exact bfold_b0 _ _
  obtain ⟨h3, h4⟩ := C107_intercept (la := la) (dla := dla) h1 hn hw s.b0
  have h5 : 0 ≤ (∑ i ∈ Finset.range n, w i) / (2 * n) * (s.b0 - (bIntercept n w f).b0) ^ 2 :=
    mul_nonneg (div_nonneg hw.le (by positivity)) (sq_nonneg _)
  exact ⟨h4, by linarith⟩

/-- When one is rounded to zero the residuals have already been updated with the unrounded value. -/
theorem C107_residual_violated : ∃ (s : BSt), BInv 1 1 (fun _ _ => 1) (fun _ => 1) (fun _ => 1 / 10 ^ 13) s ∧
    ¬ BInv 1 1 (fun _ _ => 1) (fun _ => 1) (fun _ => 1 / 10 ^ 13)
      (bStep 1 (fun _ _ => 1) (fun _ _ => 1) (fun _ => 1) 0 0 s 0) := by
  refine ⟨⟨fun _ => 0, 0, fun _ => 1 / 10 ^ 13, fun _ => true, fun _ => 0⟩, ?_, ?_⟩
  · intro i _
    simp
  · intro h
    have h0 := h 0 one_pos
    simp only [bStep, softThreshold, npSign] at h0
    norm_num at h0

/-- `xv` of a variable that is no longer active keeps its last value, so the convergence test still sees it. -/
theorem C107_stale {Xsq : ℕ → ℕ → ℝ} {j : ℕ} (hj : s.active j = false) : (bCycle n p X Xsq w la dla s).xv j = s.xv j := by
  have : ∀ (L : List ℕ) (s : BSt), j ∉ L → (L.foldl (bStep n X Xsq w la dla) s).xv j = s.xv j := by
    intro L
    induction L with
    | nil => intro s _; rfl
    | cons k L ih =>
      intro s hk
      rw [List.foldl_cons, ih _ fun h => hk (by simp [h])]
      exact Function.update_of_ne (fun h => hk (by simp [h])) _ _
  exact this _ s (by simp [hj])

/-- The hypotheses can be met. -/
example : BInv 1 1 (fun _ _ => 1) (fun _ => 1) (fun _ => 1) ⟨fun _ => 0, 0, fun _ => 1, fun _ => true, fun _ => 0⟩ ∧
    NoRound 1 (fun _ _ => 1) (fun _ => 1) 0 1 [0] ⟨fun _ => 0, 0, fun _ => 1, fun _ => true, fun _ => 0⟩ := by
  refine ⟨fun i _ => by simp, ?_, trivial⟩
  intro h
  exfalso
  simp only [bNew, curv, softThreshold, npSign] at h
  norm_num at h

end Verif.Eln
