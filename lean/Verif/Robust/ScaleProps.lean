import Verif.Robust.Props
/-!
# The M-estimate of scale (C71)
-/
namespace Verif.Robust
open Real

/-- Mean of `rho(r / scale)`. -/
noncomputable def meanRho (rho : ℝ → ℝ) (r : List ℝ) (scale : ℝ) : ℝ :=
  (r.map fun x => rho (x / scale)).sum / r.length

theorem scaleStep_eq (rho : ℝ → ℝ) (r : List ℝ) (bd : ℝ) {scale : ℝ} (hs : 0 < scale) :
    scaleStep rho r bd scale = scale * sqrt (meanRho rho r scale / bd) := by
  rw [scaleStep, sqrt_mul (sq_nonneg _), sqrt_sq hs.le, meanRho]

theorem sum_map_nonneg {rho : ℝ → ℝ} (h0 : ∀ x, 0 ≤ rho x) (r : List ℝ) (t : ℝ) :
    0 ≤ meanRho rho r t := by
  apply div_nonneg _ (Nat.cast_nonneg _)
  apply List.sum_nonneg
  intro y hy
  obtain ⟨x, -, rfl⟩ := List.mem_map.1 hy
  exact h0 _

/-- C71: a positive scale is a fixed point of the update exactly when it solves the M-scale
equation `mean(rho(r / s)) = bd`. -/
theorem C71_fixed {rho : ℝ → ℝ} (h0 : ∀ x, 0 ≤ rho x) (r : List ℝ) {bd : ℝ} (hb : 0 < bd)
    {t : ℝ} (ht : 0 < t) : scaleStep rho r bd t = t ↔ meanRho rho r t = bd := by
  rw [scaleStep_eq _ _ _ ht]
  have hm := sum_map_nonneg h0 r t
  have : t * sqrt (meanRho rho r t / bd) = t ↔ sqrt (meanRho rho r t / bd) = 1 := by
    constructor
    · intro h; exact mul_left_cancel₀ ht.ne' (by rw [h, mul_one])
    · intro h; rw [h, mul_one]
  rw [this, sqrt_eq_one, div_eq_one_iff_eq hb.ne']

/-- C71: the update moves the scale in the direction of the residual of the equation. -/
theorem C71_direction {rho : ℝ → ℝ} (h0 : ∀ x, 0 ≤ rho x) (r : List ℝ) {bd : ℝ} (hb : 0 < bd)
    {t : ℝ} (ht : 0 < t) : t < scaleStep rho r bd t ↔ bd < meanRho rho r t := by
  rw [scaleStep_eq _ _ _ ht]
  have hm := sum_map_nonneg h0 r t
  have : t < t * sqrt (meanRho rho r t / bd) ↔ 1 < sqrt (meanRho rho r t / bd) := by
    constructor
    · intro h; exact lt_of_mul_lt_mul_left (by rwa [mul_one]) ht.le
    · intro h; have := mul_lt_mul_of_pos_left h ht; rwa [mul_one] at this
  rw [this, lt_sqrt zero_le_one, one_pow, one_lt_div hb]

theorem scaleStep_equiv (rho : ℝ → ℝ) (r : List ℝ) (bd : ℝ) {k : ℝ} (hk : 0 < k) (t : ℝ) :
    scaleStep rho (r.map (k * ·)) bd (k * t) = k * scaleStep rho r bd t := by
  simp only [scaleStep, List.map_map, List.length_map]
  have e : ((fun x => rho (x / (k * t))) ∘ fun x => k * x) = fun x => rho (x / t) := by
    funext x; simp only [Function.comp]; rw [mul_div_mul_left _ _ hk.ne']
  rw [e, mul_pow, mul_assoc, sqrt_mul (sq_nonneg k), sqrt_sq hk.le]

/-- C71: the M-estimate of scale is scale equivariant, for every number of iterations. -/
theorem C71_equivariant (rho : ℝ → ℝ) (r : List ℝ) (bd tol : ℝ) {k : ℝ} (hk : 0 < k) (n : ℕ)
    (t : ℝ) : mScale rho (r.map (k * ·)) bd tol n (k * t) = k * mScale rho r bd tol n t := by
  induction n generalizing t with
  | zero => rfl
  | succ n ih =>
    simp only [mScale]
    rw [scaleStep_equiv _ _ _ hk, mul_div_mul_left _ _ hk.ne', ih]
    split_ifs <;> rfl

/-- C71: when the loop stops before its last pass, the last two scales satisfy the M-scale equation
within the tolerance: `|sqrt(mean(rho(r/s))/bd) - 1| < tol` at the scale `s` before the last
update. -/
theorem C71_converged {rho : ℝ → ℝ} (r : List ℝ) {bd : ℝ} (tol : ℝ) (n : ℕ)
    (hpos : ∀ t, 0 < t → 0 < scaleStep rho r bd t) (t : ℝ) (ht : 0 < t) :
    (∃ s, 0 < s ∧ mScale rho r bd tol n t = scaleStep rho r bd s ∧
      |sqrt (meanRho rho r s / bd) - 1| < tol) ∨
    mScale rho r bd tol n t = (scaleStep rho r bd)^[n] t := by
  induction n generalizing t with
  | zero => right; rfl
  | succ n ih =>
    simp only [mScale]
    split_ifs with h
    · left
      refine ⟨t, ht, rfl, ?_⟩
      rwa [scaleStep_eq _ _ _ ht, mul_comm, mul_div_assoc, div_self ht.ne', mul_one] at h
    · rcases ih _ (hpos t ht) with h1 | h1
      · exact Or.inl h1
      · right; rw [h1, Function.iterate_succ_apply]

/-- With Huber's rho and a residual different from zero all scales stay positive. -/
example (t : ℝ) (ht : 0 < t) : 0 < scaleStep (fun x => huberRho 1.345 x none) [1] 0.5 t := by
  rw [scaleStep_eq _ _ _ ht]
  apply mul_pos ht
  apply sqrt_pos.2
  simp only [meanRho, List.map_cons, List.map_nil, List.sum_cons, List.sum_nil, List.length_cons,
    List.length_nil]
  have : 0 < huberRho 1.345 (1 / t) none := by
    have e : tuning 1.345 none = 1.345 := rfl
    have e2 : 0 < |1 / t| := abs_pos.2 (by positivity)
    simp only [huberRho]
    rw [e]
    split_ifs with h
    · positivity
    · exact mul_pos (by norm_num) (by linarith)
  exact div_pos (div_pos (by rwa [add_zero]) (by norm_num)) (by norm_num)

end Verif.Robust
