import Mathlib.Data.Rat.Cast.Order
import Mathlib.LinearAlgebra.Matrix.NonsingularInverse
import Mathlib.Tactic.NormNum
import Mathlib.Tactic.Linarith
import Verif.Fa.RotationProps
import Verif.Mv.SccaProps

/-!
Sparse canonical correlations: a concrete overshoot of the threshold search, optimality of the half steps, and
orthogonality of the deflated scores.
-/

open Matrix

namespace Verif.Mv

/-! ## The midpoint that is returned need not satisfy the constraint -/

/-- Bisection in the rationals towards a known threshold. -/
def qLoop (th tol : ℚ) : ℕ → ℚ → ℚ → ℚ
  | 0, ls, rs => (rs + ls) / 2
  | k + 1, ls, rs =>
    if th < (ls + rs) / 2 then
      if (ls + rs) / 2 - ls < tol then ((ls + rs) / 2 + ls) / 2 else qLoop th tol k ls ((ls + rs) / 2)
    else
      if rs - (ls + rs) / 2 < tol then (rs + (ls + rs) / 2) / 2 else qLoop th tol k ((ls + rs) / 2) rs

theorem l1con_one (m : ℝ) (h0 : 0 ≤ m) (h1 : m ≤ 1) : l1con (sft (fun _ : Fin 1 => (1 : ℝ)) m) = (1 - m) / max (1 - m) 0.05 := by
  rw [l1con_sft _ _ h0]
  simp only [abs_one, Finset.univ_unique, Finset.sum_singleton, max_eq_left (sub_nonneg.2 h1), Real.sqrt_sq (sub_nonneg.2 h1)]

theorem l1con_one_lt (m : ℝ) (h0 : 0 ≤ m) (h1 : m ≤ 1) : l1con (sft (fun _ : Fin 1 => (1 : ℝ)) m) < 1 / 2 ↔ 39 / 40 < m := by
  rw [l1con_one m h0 h1, div_lt_iff₀ (lt_of_lt_of_le (by norm_num) (le_max_right _ _))]
  rcases le_total (1 - m) 0.05 with h | h
  · rw [max_eq_right h]; norm_num at h ⊢; constructor <;> intro <;> linarith
  · rw [max_eq_left h]; norm_num at h ⊢; constructor <;> intro <;> linarith

theorem searchLoop_one (tol : ℚ) (k : ℕ) (ls rs : ℚ) (h0 : 0 ≤ ls) (hl : ls ≤ rs) (h1 : rs ≤ 1) :
    searchLoop (fun _ : Fin 1 => (1 : ℝ)) (1 / 2) tol k ls rs = (qLoop (39 / 40) tol k ls rs : ℚ) := by
  induction k generalizing ls rs with
  | zero => rw [searchLoop, qLoop]; push_cast; rfl
  | succ k ih =>
    have c0 : (0 : ℝ) ≤ ls := by exact_mod_cast h0
    have cl : (ls : ℝ) ≤ rs := by exact_mod_cast hl
    have c1 : (rs : ℝ) ≤ 1 := by exact_mod_cast h1
    rw [searchLoop, qLoop]
    have e0 := l1con_one_lt (((ls : ℝ) + rs) / 2) (by linarith) (by linarith)
    have em : ((ls : ℝ) + rs) / 2 = (((ls + rs) / 2 : ℚ) : ℝ) := by push_cast; rfl
    have e1 : (39 / 40 < ((ls : ℝ) + rs) / 2) ↔ (39 / 40 < (ls + rs) / 2) := by
      rw [em, show (39 / 40 : ℝ) = ((39 / 40 : ℚ) : ℝ) by push_cast; rfl, Rat.cast_lt]
    have e2 : (((ls : ℝ) + rs) / 2 - ls < tol) ↔ ((ls + rs) / 2 - ls < tol) := by
      rw [em, ← Rat.cast_sub, Rat.cast_lt]
    have e3 : ((rs : ℝ) - ((ls : ℝ) + rs) / 2 < tol) ↔ (rs - (ls + rs) / 2 < tol) := by
      rw [em, ← Rat.cast_sub, Rat.cast_lt]
    simp only [e0, e1, e2, e3]
    split_ifs
    · push_cast; rfl
    · rw [em]; exact ih ls ((ls + rs) / 2) h0 (by linarith) (by linarith)
    · push_cast; rfl
    · rw [em]; exact ih ((ls + rs) / 2) rs (by linarith) (by linarith) h1

/-- The documented promise, an L1 norm of at most `c` after thresholding, fails at the default settings: for `v = [1]`
and `c = 1/2` the midpoint that is returned lies just below every admissible threshold. -/
theorem C137_constraint_violated :
    1 / 2 < l1con (sft (fun _ : Fin 1 => (1 : ℝ)) (thresholdSearch (fun _ : Fin 1 => (1 : ℝ)) (1 / 2))) := by
  have hl : 1 / 2 < l1con (fun _ : Fin 1 => (1 : ℝ)) := by
    rw [← sft_zero (fun _ : Fin 1 => (1 : ℝ)), l1con_one 0 le_rfl (by norm_num)]; norm_num
  have hm : maxAbs (fun _ : Fin 1 => (1 : ℝ)) = 1 := by simp [maxAbs]
  have e : thresholdSearch (fun _ : Fin 1 => (1 : ℝ)) (1 / 2) = (qLoop (39 / 40) (1 / 10000000) 10000 0 (999999 / 1000000) : ℚ) := by
    rw [← searchLoop_one (1 / 10000000) 10000 0 (999999 / 1000000) le_rfl (by norm_num) (by norm_num)]
    refine (if_neg (not_or.2 ⟨(l2pen_pos _).ne', not_le.2 hl⟩)).trans ?_
    rw [hm]; push_cast; norm_num
  have q : 0 ≤ qLoop (39 / 40) (1 / 10000000) 10000 0 (999999 / 1000000) ∧ qLoop (39 / 40) (1 / 10000000) 10000 0 (999999 / 1000000) < 39 / 40 := by
    decide +kernel
  rw [e]
  generalize qLoop (39 / 40) (1 / 10000000) 10000 0 (999999 / 1000000) = t at q
  have t0 : (0 : ℝ) ≤ t := by exact_mod_cast q.1
  have t1 : (t : ℝ) < 39 / 40 := by
    have : (t : ℝ) < ((39 / 40 : ℚ) : ℝ) := by exact_mod_cast q.2
    simpa using this
  rw [l1con_one _ t0 (by linarith), lt_div_iff₀ (lt_of_lt_of_le (by norm_num) (le_max_right _ _))]
  rcases le_total (1 - (t : ℝ)) 0.05 with h | h
  · rw [max_eq_right h]; norm_num at h ⊢; linarith
  · rw [max_eq_left h]; norm_num at h ⊢; linarith

/-! ## Half steps -/

section half
variable {p : ℕ}

/-- Normalised vectors have an L2 norm of at most one, and of exactly one when the floor of `l2_penalty` is not active. -/
theorem norm_l2pen (x : Fin p → ℝ) :
    ∑ i, (x i / l2pen x) ^ 2 ≤ 1 ∧ (0.05 ≤ √(∑ i, x i ^ 2) → ∑ i, (x i / l2pen x) ^ 2 = 1) := by
  have hn : 0 ≤ ∑ i, x i ^ 2 := Finset.sum_nonneg fun i _ => sq_nonneg _
  have e : ∑ i, (x i / l2pen x) ^ 2 = (∑ i, x i ^ 2) / l2pen x ^ 2 := by
    rw [Finset.sum_div]; exact Finset.sum_congr rfl fun i _ => div_pow _ _ _
  rw [e]
  have hp := l2pen_pos x
  constructor
  · rw [div_le_one (by positivity)]
    calc ∑ i, x i ^ 2 = √(∑ i, x i ^ 2) ^ 2 := (Real.sq_sqrt hn).symm
      _ ≤ l2pen x ^ 2 := pow_le_pow_left₀ (Real.sqrt_nonneg _) (le_max_left _ _) 2
  · intro h
    have : l2pen x = √(∑ i, x i ^ 2) := max_eq_left h
    rw [this, Real.sq_sqrt hn, div_self]
    intro h0
    rw [h0, Real.sqrt_zero] at h
    norm_num at h

/-- The half step solves its constrained problem: with the threshold `t` found, the normalised vector maximises `z'w`
over all `w` with L2 norm at most one and L1 norm at most its own; without a threshold the L1 restriction is void. -/
theorem half_step_max (z : Fin p → ℝ) (t : ℝ) (ht : 0 ≤ t) (h : 0.05 ≤ √(∑ i, sft z t i ^ 2)) (w : Fin p → ℝ)
    (hw : ∑ i, w i ^ 2 ≤ 1) (hw1 : t = 0 ∨ ∑ i, |w i| ≤ l1con (sft z t)) :
    ∑ i, z i * w i ≤ ∑ i, z i * (sft z t i / l2pen (sft z t)) := by
  set x := sft z t with hx
  have hl : l2pen x = √(∑ i, x i ^ 2) := max_eq_left h
  have hp := l2pen_pos x
  have hn : 0 ≤ ∑ i, x i ^ 2 := Finset.sum_nonneg fun i _ => sq_nonneg _
  -- the part of `z` that is thresholded away
  have hz : ∀ i, z i * w i ≤ x i * w i + t * |w i| := by
    intro i
    have hr : |z i - x i| ≤ t := by
      rw [hx]
      unfold sft Verif.Func.npSign
      rcases le_total (|z i|) t with ha | ha
      · rw [max_eq_right (by linarith)]; simpa using ha
      · rw [max_eq_left (by linarith)]
        split_ifs with h1 h2
        · rw [abs_of_neg h1]; rw [show z i - (-z i - t) * -1 = -t by ring, abs_neg, abs_of_nonneg ht]
        · rw [h2]; simpa using ht
        · rw [abs_of_nonneg (not_lt.1 h1)]; rw [show z i - (z i - t) * 1 = t by ring, abs_of_nonneg ht]
    have : (z i - x i) * w i ≤ |z i - x i| * |w i| := by rw [← abs_mul]; exact le_abs_self _
    have := mul_le_mul_of_nonneg_right hr (abs_nonneg (w i))
    nlinarith
  have hu : ∀ i, z i * x i = x i * x i + t * |x i| := by
    intro i
    have e := abs_sft z t ht i
    rw [← hx] at e
    rw [e]
    have hd : x i = max (|z i| - t) 0 * Verif.Func.npSign (z i) := rfl
    rcases le_total (|z i|) t with ha | ha
    · rw [hd, max_eq_right (by linarith)]; ring
    · rw [hd, max_eq_left (by linarith)]
      unfold Verif.Func.npSign
      split_ifs with h1 h2
      · rw [abs_of_neg h1]; ring
      · rw [h2] at ha ⊢; simp only [abs_zero] at ha ⊢; have : t = 0 := le_antisymm ha ht; rw [this]; ring
      · rw [abs_of_nonneg (not_lt.1 h1)]; ring
  have cs : ∑ i, x i * w i ≤ l2pen x := by
    have h1 := Finset.sum_mul_sq_le_sq_mul_sq Finset.univ x w
    have h2 : (∑ i, x i * w i) ^ 2 ≤ l2pen x ^ 2 := by
      rw [hl, Real.sq_sqrt hn]
      exact h1.trans (by nlinarith)
    exact le_of_sq_le_sq h2 hp.le
  have rhs : ∑ i, z i * (x i / l2pen x) = l2pen x + t * l1con x := by
    have e1 : ∑ i, z i * (x i / l2pen x) = (∑ i, z i * x i) / l2pen x := by
      rw [Finset.sum_div]; exact Finset.sum_congr rfl fun i _ => by ring
    rw [e1, Finset.sum_congr rfl fun i _ => hu i, Finset.sum_add_distrib, ← Finset.mul_sum, add_div, l1con_eq, mul_div_assoc]
    congr 1
    rw [div_eq_iff hp.ne', hl, Real.mul_self_sqrt hn]
    exact Finset.sum_congr rfl fun i _ => (pow_two _).symm
  rw [rhs]
  calc ∑ i, z i * w i ≤ ∑ i, (x i * w i + t * |w i|) := Finset.sum_le_sum fun i _ => hz i
    _ = ∑ i, x i * w i + t * ∑ i, |w i| := by rw [Finset.sum_add_distrib, ← Finset.mul_sum]
    _ ≤ l2pen x + t * l1con x := by
      refine add_le_add cs ?_
      rcases hw1 with h0 | h1
      · rw [h0]; simp
      · exact mul_le_mul_of_nonneg_left h1 ht

variable [NeZero p]

/-- What `_scca_vec` does in one half step: the new weights have norm one and maximise the covariance with the other
side among all weights of norm at most one whose L1 norm does not exceed theirs; when the threshold is zero, among all
weights of norm at most one. -/
theorem C138_half_step (z : Fin p → ℝ) (c : ℝ) (hc : 20 * p * 1e-6 ≤ c)
    (h : 0.05 ≤ √(∑ i, sft z (thresholdSearch z c) i ^ 2)) :
    ∑ i, sparsify z c i ^ 2 = 1 ∧
    (∀ w : Fin p → ℝ, ∑ i, w i ^ 2 ≤ 1 → ∑ i, |w i| ≤ ∑ i, |sparsify z c i| → ∑ i, z i * w i ≤ ∑ i, z i * sparsify z c i) ∧
    (l1con z ≤ c → ∑ i, |sparsify z c i| ≤ c ∧ ∀ w : Fin p → ℝ, ∑ i, w i ^ 2 ≤ 1 → ∑ i, z i * w i ≤ ∑ i, z i * sparsify z c i) := by
  have ht : 0 ≤ thresholdSearch z c := by
    rcases le_or_gt (l1con z) c with h1 | h1
    · rw [((C137_threshold z c 1e-6 1e-7 10000 (by norm_num) hc).1 h1).1]
    · exact ((C137_threshold z c 1e-6 1e-7 10000 (by norm_num) hc).2 h1).1
  refine ⟨(norm_l2pen _).2 h, fun w h2 h1 => half_step_max z _ ht h w h2 (Or.inr h1), fun h1 => ⟨?_, fun w h2 => ?_⟩⟩
  · have e := (C137_threshold z c 1e-6 1e-7 10000 (by norm_num) hc).1 h1
    unfold sparsify
    rw [e.2]; exact h1
  · have e := (C137_threshold z c 1e-6 1e-7 10000 (by norm_num) hc).1 h1
    exact half_step_max z _ ht h w h2 (Or.inl e.1)

example : ∃ (z : Fin 1 → ℝ) (c : ℝ), 20 * (1 : ℕ) * 1e-6 ≤ c ∧ 0.05 ≤ √(∑ i, sft z (thresholdSearch z c) i ^ 2) := by
  refine ⟨fun _ => 1, 1, by norm_num, ?_⟩
  have h1 : l1con (fun _ : Fin 1 => (1 : ℝ)) ≤ 1 := by
    rw [← sft_zero (fun _ : Fin 1 => (1 : ℝ)), l1con_one 0 le_rfl (by norm_num)]; norm_num
  rw [((C137_threshold (fun _ : Fin 1 => (1 : ℝ)) 1 1e-6 1e-7 10000 (by norm_num) (by norm_num)).1 h1).2]
  simp; norm_num

end half

section fit
variable {n p q : ℕ} [NeZero p] [NeZero q]

/-- The weights returned are a fixed point form: they come out of the two half steps, applied in turn. -/
theorem sccaLoop_form (S : Matrix (Fin p) (Fin q) ℝ) (cx cy tol : ℝ) (k i : ℕ) (wx : Fin p → ℝ) (wy : Fin q → ℝ) :
    ∃ y, (sccaLoop S cx cy tol k i wx wy).1 = sparsify (S *ᵥ y) cx ∧
      (sccaLoop S cx cy tol k i wx wy).2.1 = sparsify ((sccaLoop S cx cy tol k i wx wy).1 ᵥ* S) cy := by
  induction k generalizing i wx wy with
  | zero => exact ⟨wy, rfl, rfl⟩
  | succ k ih =>
    rw [sccaLoop]
    split_ifs
    · exact ⟨wy, rfl, rfl⟩
    · exact ih _ _ _

/-- Convergence: with fewer iterations than allowed, the last change of the weights was below the tolerance. -/
theorem sccaLoop_conv (S : Matrix (Fin p) (Fin q) ℝ) (cx cy tol : ℝ) (k i : ℕ) (wx : Fin p → ℝ) (wy : Fin q → ℝ) :
    i ≤ (sccaLoop S cx cy tol k i wx wy).2.2.2 ∧ (sccaLoop S cx cy tol k i wx wy).2.2.2 ≤ i + k ∧
    ((sccaLoop S cx cy tol k i wx wy).2.2.2 < i + k → (sccaLoop S cx cy tol k i wx wy).2.2.1 < tol) := by
  induction k generalizing i wx wy with
  | zero => simp [sccaLoop]
  | succ k ih =>
    rw [sccaLoop]
    split_ifs with h
    · exact ⟨le_rfl, by simp, fun _ => h⟩
    · obtain ⟨a, b, c⟩ := ih (i + 1) (sparsify (S *ᵥ wy) cx) (sparsify (sparsify (S *ᵥ wy) cx ᵥ* S) cy)
      exact ⟨by omega, by omega, fun hlt => c (by omega)⟩

/-- `_scca_vec`: it raises exactly when no iteration is allowed; the weights have L2 norm at most one, the second ones
are the half step of the first; an iteration count below the last one means the change fell below the tolerance. -/
theorem C138_scca_vec (S : Matrix (Fin p) (Fin q) ℝ) (wx : Fin p → ℝ) (wy : Fin q → ℝ) (cx cy tol : ℝ) (k : ℕ) :
    sccaVec S wx wy cx cy 0 tol = none ∧
    ∃ r, sccaVec S wx wy cx cy (k + 1) tol = some r ∧ ∑ i, r.1 i ^ 2 ≤ 1 ∧ ∑ i, r.2.1 i ^ 2 ≤ 1 ∧
      r.2.1 = sparsify (r.1 ᵥ* S) cy ∧ r.2.2.2 ≤ k ∧ (r.2.2.2 < k → r.2.2.1 < tol) := by
  refine ⟨rfl, _, rfl, ?_⟩
  obtain ⟨y, e1, e2⟩ := sccaLoop_form S cx cy tol k 0 wx wy
  have c := sccaLoop_conv S cx cy tol k 0 wx wy
  rw [zero_add] at c
  refine ⟨?_, ?_, e2, c.2.1, c.2.2⟩
  · rw [e1]; exact (norm_l2pen _).1
  · rw [e2]; exact (norm_l2pen _).1

/-- The covariance does not fall from the first half step to the second, whatever the scale of the data: the weights of
the other side that went in are feasible. -/
theorem C138_ascent (S : Matrix (Fin p) (Fin q) ℝ) (wx : Fin p → ℝ) (wy : Fin q → ℝ) (cy : ℝ) (hc : 20 * q * 1e-6 ≤ cy)
    (hy : ∑ i, wy i ^ 2 ≤ 1) (h : 0.05 ≤ √(∑ i, sft (wx ᵥ* S) (thresholdSearch (wx ᵥ* S) cy) i ^ 2))
    (hl : l1con (wx ᵥ* S) ≤ cy ∨ ∑ i, |wy i| ≤ ∑ i, |sparsify (wx ᵥ* S) cy i|) :
    wx ⬝ᵥ (S *ᵥ wy) ≤ wx ⬝ᵥ (S *ᵥ sparsify (wx ᵥ* S) cy) := by
  have hs := C138_half_step (wx ᵥ* S) cy hc h
  rw [dotProduct_mulVec, dotProduct_mulVec]
  rcases hl with h1 | h1
  · exact (hs.2.2 h1).2 wy hy
  · exact hs.2.1 wy hy h1

/-- The floor of `l2_penalty` leaves weights short of norm one: for `S = [[0.01]]` a single iteration gives `0.2`. -/
theorem C138_norm_violated :
    sparsify (fun _ : Fin 1 => (1 / 100 : ℝ)) 1 = (fun _ => 1 / 5) ∧ ∑ i, sparsify (fun _ : Fin 1 => (1 / 100 : ℝ)) 1 i ^ 2 ≠ 1 := by
  have hp : l2pen (fun _ : Fin 1 => (1 / 100 : ℝ)) = 1 / 20 := by
    unfold l2pen
    rw [Finset.univ_unique, Finset.sum_singleton, Real.sqrt_sq (by norm_num)]
    norm_num
  have h1 : l1con (fun _ : Fin 1 => (1 / 100 : ℝ)) ≤ 1 := by
    rw [l1con_eq, hp]; norm_num
  have e : sparsify (fun _ : Fin 1 => (1 / 100 : ℝ)) 1 = fun _ => 1 / 5 := by
    funext i
    unfold sparsify
    rw [((C137_threshold (fun _ : Fin 1 => (1 / 100 : ℝ)) 1 1e-6 1e-7 10000 (by norm_num) (by norm_num)).1 h1).2, hp]
    norm_num
  refine ⟨e, ?_⟩
  rw [e]; norm_num

end fit

/-! ## Deflation -/

section deflation
variable {n p : ℕ}

/-- A deflated matrix has columns orthogonal to the score that was removed, keeps all orthogonalities of the matrix it
came from, and stays in its column space. -/
theorem deflate_orth (X : Matrix (Fin n) (Fin p) ℝ) (w : Fin p → ℝ) (h : ∑ b, (X *ᵥ w) b ^ 2 ≠ 0) :
    (X *ᵥ w) ᵥ* deflate X w = 0 ∧ (∀ v : Fin n → ℝ, v ᵥ* X = 0 → v ᵥ* deflate X w = 0) ∧
      ∃ C : Matrix (Fin p) (Fin p) ℝ, deflate X w = X * C := by
  have key : ∀ (v : Fin n → ℝ) j, (v ᵥ* deflate X w) j = (v ᵥ* X) j - (v ⬝ᵥ (X *ᵥ w)) * (((X *ᵥ w) ᵥ* X) j / ∑ b, (X *ᵥ w) b ^ 2) := by
    intro v j
    simp only [vecMul, dotProduct, deflate]
    rw [Finset.sum_mul, ← Finset.sum_sub_distrib]
    refine Finset.sum_congr rfl fun a _ => ?_
    ring
  refine ⟨?_, ?_, ?_⟩
  · funext j
    rw [key]
    have : (X *ᵥ w) ⬝ᵥ (X *ᵥ w) = ∑ b, (X *ᵥ w) b ^ 2 := Finset.sum_congr rfl fun _ _ => (pow_two _).symm
    rw [this, mul_div_cancel₀ _ h, sub_self]; rfl
  · intro v hv
    funext j
    rw [key, hv]
    have : v ⬝ᵥ (X *ᵥ w) = 0 := by rw [dotProduct_mulVec, hv, zero_dotProduct]
    rw [this]; simp
  · refine ⟨fun i j => (if i = j then 1 else 0) - w i * (((X *ᵥ w) ᵥ* X) j / ∑ b, (X *ᵥ w) b ^ 2), ?_⟩
    funext a j
    show X a j - (X *ᵥ w) a * ((X *ᵥ w) ᵥ* X) j / ∑ b, (X *ᵥ w) b ^ 2 =
      ∑ i, X a i * ((if i = j then 1 else 0) - w i * (((X *ᵥ w) ᵥ* X) j / ∑ b, (X *ᵥ w) b ^ 2))
    generalize ((X *ᵥ w) ᵥ* X) j = u
    generalize ∑ b, (X *ᵥ w) b ^ 2 = v
    simp only [mul_sub, Finset.sum_sub_distrib, mul_ite, mul_one, mul_zero, Finset.sum_ite_eq', Finset.mem_univ, if_true]
    congr 1
    rw [mul_div_assoc]
    simp only [mulVec, dotProduct, Finset.sum_mul, mul_assoc]

/-- The scores of the listed weights: each is computed from the matrix deflated by those before it. -/
noncomputable def scores : List (Fin p → ℝ) → Matrix (Fin n) (Fin p) ℝ → List (Fin n → ℝ)
  | [], _ => []
  | w :: ws, X => (X *ᵥ w) :: scores ws (deflate X w)

/-- Every score is orthogonal to a vector orthogonal to the columns of the matrix. -/
theorem scores_orth (ws : List (Fin p → ℝ)) (X : Matrix (Fin n) (Fin p) ℝ) (v : Fin n → ℝ) (hv : v ᵥ* X = 0)
    (h : ∀ s ∈ scores ws X, ∑ b, s b ^ 2 ≠ 0) : ∀ s ∈ scores ws X, v ⬝ᵥ s = 0 := by
  induction ws generalizing X with
  | nil => simp [scores]
  | cons w ws ih =>
    intro s hs
    rw [scores, List.mem_cons] at hs
    rcases hs with rfl | hs
    · rw [dotProduct_mulVec, hv, zero_dotProduct]
    · have h0 := h (X *ᵥ w) (by rw [scores]; exact List.mem_cons_self ..)
      exact ih (deflate X w) ((deflate_orth X w h0).2.1 v hv) (fun s hs => h s (by rw [scores]; exact List.mem_cons_of_mem _ hs)) s hs

/-- The scores of successive sparse components are uncorrelated: they are mutually orthogonal as long as none is zero. -/
theorem C139_scores (ws : List (Fin p → ℝ)) (X : Matrix (Fin n) (Fin p) ℝ) (h : ∀ s ∈ scores ws X, ∑ b, s b ^ 2 ≠ 0) :
    (scores ws X).Pairwise fun s t => s ⬝ᵥ t = 0 := by
  induction ws generalizing X with
  | nil => simp [scores]
  | cons w ws ih =>
    rw [scores, List.pairwise_cons]
    have h0 := h (X *ᵥ w) (by rw [scores]; exact List.mem_cons_self ..)
    have h' : ∀ s ∈ scores ws (deflate X w), ∑ b, s b ^ 2 ≠ 0 := fun s hs => h s (by rw [scores]; exact List.mem_cons_of_mem _ hs)
    exact ⟨scores_orth ws _ _ (deflate_orth X w h0).1 h', ih _ h'⟩

/-- `orthogonalize_components` without the rounding of small entries. -/
noncomputable def orthoExact (Q : Matrix (Fin p) (Fin n) ℝ) : List (Fin p → ℝ) → Matrix (Fin n) (Fin p) ℝ → List (Fin p → ℝ)
  | [], _ => []
  | w :: ws, Xt => ((Q * Xt) *ᵥ w) :: orthoExact Q ws (deflate Xt w)

theorem chop_eq (x : ℝ) (h : x = 0 ∨ 1e-12 ≤ |x|) : chop x = x := by
  unfold chop
  split_ifs with h1
  · rcases h with h | h
    · exact h.symm
    · exact absurd h1 (not_lt.2 h)
  · rfl

/-- Without entries of size below the rounding limit, the rounding changes nothing. -/
theorem orthoLoop_exact (Q : Matrix (Fin p) (Fin n) ℝ) (ws : List (Fin p → ℝ)) (Xt : Matrix (Fin n) (Fin p) ℝ)
    (h : ∀ b ∈ orthoExact Q ws Xt, ∀ i, b i = 0 ∨ 1e-12 ≤ |b i|) : orthoLoop Q ws Xt = orthoExact Q ws Xt := by
  induction ws generalizing Xt with
  | nil => rfl
  | cons w ws ih =>
    rw [orthoLoop, orthoExact, ih _ fun b hb => h b (by rw [orthoExact]; exact List.mem_cons_of_mem _ hb)]
    congr 1
    funext i
    exact chop_eq _ (h _ (by rw [orthoExact]; exact List.mem_cons_self ..) i)

/-- The exact weights reproduce the deflated scores from the original data. -/
theorem orthoExact_scores (X : Matrix (Fin n) (Fin p) ℝ) (G : Matrix (Fin p) (Fin p) ℝ) (hG : G * (Xᵀ * X) = 1)
    (ws : List (Fin p → ℝ)) (C : Matrix (Fin p) (Fin p) ℝ) (h : ∀ s ∈ scores ws (X * C), ∑ b, s b ^ 2 ≠ 0) :
    (orthoExact (G * Xᵀ) ws (X * C)).map (fun b => X *ᵥ b) = scores ws (X * C) := by
  induction ws generalizing C with
  | nil => rfl
  | cons w ws ih =>
    rw [orthoExact, scores, List.map_cons]
    have h0 := h ((X * C) *ᵥ w) (by rw [scores]; exact List.mem_cons_self ..)
    obtain ⟨D, hD⟩ := (deflate_orth (X * C) w h0).2.2
    rw [Matrix.mul_assoc] at hD
    have e1 : G * Xᵀ * (X * C) = C := by
      rw [← Matrix.mul_assoc, Matrix.mul_assoc G, hG, Matrix.one_mul]
    rw [e1, mulVec_mulVec, hD, ih (C * D)]
    intro s hs; exact h s (by rw [scores, hD]; exact List.mem_cons_of_mem _ hs)

/-- `orthogonalize_components`: with an invertible cross product the new weights, applied to the original data, give the
scores of the deflated data, so that their components are uncorrelated — provided no entry is small enough to be set to
zero. -/
theorem C139_orthogonalize_partial (X : Matrix (Fin n) (Fin p) ℝ) (ws : List (Fin p → ℝ)) (hX : IsUnit (Xᵀ * X).det)
    (h : ∀ s ∈ scores ws X, ∑ b, s b ^ 2 ≠ 0)
    (hr : ∀ b ∈ orthoExact ((Xᵀ * X)⁻¹ * Xᵀ) ws X, ∀ i, b i = 0 ∨ 1e-12 ≤ |b i|) :
    ∃ bs, orthoComps X ws = some bs ∧ bs.length = ws.length ∧ bs.map (fun b => X *ᵥ b) = scores ws X ∧
      (bs.map fun b => X *ᵥ b).Pairwise fun s t => s ⬝ᵥ t = 0 := by
  have e : orthoComps X ws = some (orthoLoop ((Xᵀ * X)⁻¹ * Xᵀ) ws X) := by
    unfold orthoComps
    rw [Verif.Fa.inv?_unit hX]; rfl
  have hs := orthoExact_scores X (Xᵀ * X)⁻¹ (Matrix.nonsing_inv_mul _ hX) ws 1 (by rwa [Matrix.mul_one])
  rw [Matrix.mul_one] at hs
  refine ⟨_, e, ?_, ?_, ?_⟩
  · have : ∀ (Q : Matrix (Fin p) (Fin n) ℝ) (ws : List (Fin p → ℝ)) (Y : Matrix (Fin n) (Fin p) ℝ), (orthoLoop Q ws Y).length = ws.length := by
      intro Q ws
      induction ws with
      | nil => intro Y; rfl
      | cons w ws ih => intro Y; rw [orthoLoop, List.length_cons, ih, List.length_cons]
    exact this _ _ _
  · rw [orthoLoop_exact _ _ _ hr, hs]
  · rw [orthoLoop_exact _ _ _ hr, hs]; exact C139_scores ws X h

end deflation

section comps
variable {n p q : ℕ} [NeZero p] [NeZero q]

/-- The components: as many as asked for, each the solution of the single component problem for the data deflated by
all components before it. -/
theorem C139_components (wx : Fin p → ℝ) (wy : Fin q → ℝ) (cx cy tol : ℝ) (nIters k : ℕ) (X : Matrix (Fin n) (Fin p) ℝ)
    (Y : Matrix (Fin n) (Fin q) ℝ) (L : List ((Fin p → ℝ) × (Fin q → ℝ))) (h : sccaComps wx wy cx cy nIters tol k X Y = some L) :
    L.length = k ∧ ∀ i (hi : i < L.length), ∃ r, sccaVec ((deflated ((L.take i).map Prod.fst) X)ᵀ * deflated ((L.take i).map Prod.snd) Y)
      wx wy cx cy nIters tol = some r ∧ L[i] = (r.1, r.2.1) := by
  induction k generalizing X Y L with
  | zero =>
    rw [sccaComps, Option.some.injEq] at h
    subst h
    exact ⟨rfl, fun i hi => absurd hi (Nat.not_lt_zero _)⟩
  | succ k ih =>
    rw [sccaComps] at h
    simp only [Option.bind_eq_bind, Option.bind_eq_some_iff, Option.some.injEq] at h
    obtain ⟨r, hr, rest, hrest, rfl⟩ := h
    obtain ⟨hl, hi⟩ := ih _ _ _ hrest
    refine ⟨by rw [List.length_cons, hl], fun i h => ?_⟩
    match i with
    | 0 => exact ⟨r, hr, rfl⟩
    | i + 1 =>
      obtain ⟨r', h1, h2⟩ := hi i (by simpa using h)
      exact ⟨r', h1, h2⟩

/-- One or more iterations never raise. -/
theorem C139_total (wx : Fin p → ℝ) (wy : Fin q → ℝ) (cx cy tol : ℝ) (m k : ℕ) (X : Matrix (Fin n) (Fin p) ℝ)
    (Y : Matrix (Fin n) (Fin q) ℝ) : ∃ L, sccaComps wx wy cx cy (m + 1) tol k X Y = some L := by
  induction k generalizing X Y with
  | zero => exact ⟨[], rfl⟩
  | succ k ih =>
    obtain ⟨L, hL⟩ := ih (deflate X (sccaLoop (Xᵀ * Y) cx cy tol m 0 wx wy).1) (deflate Y (sccaLoop (Xᵀ * Y) cx cy tol m 0 wx wy).2.1)
    refine ⟨((sccaLoop (Xᵀ * Y) cx cy tol m 0 wx wy).1, (sccaLoop (Xᵀ * Y) cx cy tol m 0 wx wy).2.1) :: L, ?_⟩
    rw [sccaComps]
    simp only [sccaVec, Option.bind_eq_bind, Option.bind_some, hL]

end comps

/-! ## A witness for the rounding -/

/-- A badly scaled data matrix. -/
noncomputable def Xw : Matrix (Fin 2) (Fin 2) ℝ := !![1, 0; 0, 10 ^ 13]

noncomputable def w1 : Fin 2 → ℝ := ![1, 1 / 10 ^ 13]

noncomputable def w2 : Fin 2 → ℝ := ![0, 1]

/-- The rounding of small weights undoes the orthogonality: with columns of very different scale the two components of
`orthogonalize_components` are far from orthogonal. -/
theorem C139_orthogonalize_violated :
    ∃ b1 b2, orthoComps Xw [w1, w2] = some [b1, b2] ∧ (Xw *ᵥ b1) ⬝ᵥ (Xw *ᵥ b2) ≠ 0 := by
  have hd : (Xwᵀ * Xw).det = 10 ^ 26 := by
    rw [det_fin_two]
    simp [Xw, Matrix.mul_apply, Fin.sum_univ_two]
    norm_num
  have hu : IsUnit (Xwᵀ * Xw).det := by rw [hd]; exact isUnit_iff_ne_zero.2 (by norm_num)
  have hinv : (Xwᵀ * Xw)⁻¹ = !![1, 0; 0, 1 / 10 ^ 26] := by
    apply Matrix.inv_eq_right_inv
    ext i j
    fin_cases i <;> fin_cases j <;> simp [Xw, Matrix.mul_apply, Fin.sum_univ_two]
    norm_num
  have hQ : (Xwᵀ * Xw)⁻¹ * Xwᵀ = !![1, 0; 0, 1 / 10 ^ 13] := by
    rw [hinv]
    ext i j
    fin_cases i <;> fin_cases j <;> simp [Xw, Matrix.mul_apply, Fin.sum_univ_two]
    norm_num
  have hs : Xw *ᵥ w1 = ![1, 1] := by
    ext i
    fin_cases i <;> simp [Xw, w1, mulVec, dotProduct, Fin.sum_univ_two]
  have hD : deflate Xw w1 = !![1 / 2, -10 ^ 13 / 2; -1 / 2, 10 ^ 13 / 2] := by
    ext i j
    unfold deflate
    rw [hs]
    fin_cases i <;> fin_cases j <;> simp [Xw, vecMul, dotProduct, Fin.sum_univ_two] <;> norm_num
  refine ⟨fun i => chop (((!![1, 0; 0, 1 / 10 ^ 13] * Xw) *ᵥ w1) i),
    fun i => chop (((!![1, 0; 0, 1 / 10 ^ 13] * !![1 / 2, -10 ^ 13 / 2; -1 / 2, 10 ^ 13 / 2]) *ᵥ w2) i), ?_, ?_⟩
  · unfold orthoComps
    rw [Verif.Fa.inv?_unit hu, Option.bind_eq_bind, Option.bind_some, hQ]
    simp only [orthoLoop]
    rw [hD]
  · have c1 : (fun i => chop (((!![1, 0; 0, 1 / 10 ^ 13] * Xw) *ᵥ w1) i)) = ![1, 0] := by
      ext i
      fin_cases i <;> simp [Xw, w1, chop, Matrix.mul_apply, mulVec, dotProduct, Fin.sum_univ_two] <;> norm_num
    have c2 : (fun i => chop (((!![1, 0; 0, 1 / 10 ^ 13] * !![1 / 2, -10 ^ 13 / 2; -1 / 2, 10 ^ 13 / 2]) *ᵥ w2) i)) = (![-10 ^ 13 / 2, 1 / 2] : Fin 2 → ℝ) := by
      ext i
      fin_cases i <;> simp [w2, chop, Matrix.mul_apply, mulVec, dotProduct, Fin.sum_univ_two] <;> norm_num
    rw [c1, c2]
    simp [Xw, mulVec, dotProduct, Fin.sum_univ_two]

/-! ## The choice of the penalty -/

/-- The cross validation score averages the entries 0 and 2 of the half vectorised correlations: with two components
these are the two canonical correlations, with one component (the default) the lookup raises, and with three or more the
second entry is the correlation of the third variate of one side with the first of the other. -/
theorem C140_lmax_partial {R : Type} (A : ℕ → ℕ → R) :
    lmaxEntries 2 A = some (A 0 0, A 1 1) ∧ lmaxEntries 1 A = none ∧ ∀ k, lmaxEntries (k + 3) A = some (A 0 0, A 2 0) := by
  refine ⟨rfl, rfl, fun k => ?_⟩
  have e : vechL (k + 3) A = A 0 0 :: A 1 0 :: A 2 0 :: (((List.range k).map fun d => A (d + 3) 0) ++
      ((List.range (k + 2)).flatMap fun j => (List.range (k + 2 - j)).map fun d => A (j + 1 + d) (j + 1))) := by
    unfold vechL
    rw [List.range_succ_eq_map, List.flatMap_cons, List.flatMap_map, Nat.sub_zero]
    have h1 : (List.range (k + 3)).map (fun d => A (0 + d) 0) = A 0 0 :: A 1 0 :: A 2 0 :: (List.range k).map fun d => A (d + 3) 0 := by
      rw [List.range_succ_eq_map, List.range_succ_eq_map, List.range_succ_eq_map]
      simp [Function.comp_def]
    rw [h1]
    have h2 : ∀ a, k + 3 - (a + 1) = k + 2 - a := fun a => by omega
    simp only [List.cons_append, Nat.succ_eq_add_one, h2]
  unfold lmaxEntries
  rw [e]
  rfl

/-- With the default number of components the choice of the penalty raises, and with three components it does not use
the second and third canonical correlation. -/
theorem C140_lmax_violated :
    lmaxEntries 1 (fun i j : ℕ => (i, j)) = none ∧ lmaxEntries 3 (fun i j : ℕ => (i, j)) = some ((0, 0), (2, 0)) :=
  ⟨rfl, rfl⟩

/-- The permutation test does not normalise the second vector of weights: it divides by the norm of the first, which is
one by then. -/
theorem C140_perm_init {p q : ℕ} (wx : Fin p → ℝ) (wy : Fin q → ℝ) (h : ∑ a, wx a ^ 2 ≠ 0) :
    ∑ a, (permInit wx wy).1 a ^ 2 = 1 ∧ (permInit wx wy).2 = wy := by
  have hn : 0 ≤ ∑ i, wx i ^ 2 := Finset.sum_nonneg fun i _ => sq_nonneg _
  have e : ∑ a, (wx a / √(∑ a, wx a ^ 2)) ^ 2 = 1 := by
    simp only [div_pow, Real.sq_sqrt hn]
    rw [← Finset.sum_div, div_self h]
  refine ⟨e, ?_⟩
  funext i
  show wy i / √(∑ a, (wx a / √(∑ a, wx a ^ 2)) ^ 2) = wy i
  rw [e, Real.sqrt_one, div_one]

end Verif.Mv
