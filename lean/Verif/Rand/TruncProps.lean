import Verif.Rand.Trunc
import Mathlib.LinearAlgebra.Matrix.SchurComplement
import Mathlib.Tactic.Linarith
import Mathlib.Tactic.Ring
import Mathlib.Tactic.FieldSimp

/-!
Claims C170 (the truncated normal sampler) and C171 (multivariate t samples and random rotations).
-/

namespace Verif.Rand

theorem firstOk_some {prop : ℝ → ℝ} {acc : ℝ → ℝ → Prop} {l : List (ℝ × ℝ)} {z : ℝ} (h : firstOk prop acc l = some z) :
    ∃ p ∈ l, z = prop p.1 ∧ acc z p.2 := by
  induction l with
  | nil => cases h
  | cons p l ih =>
    obtain ⟨e, u⟩ := p
    unfold firstOk at h
    split at h
    · exact ⟨(e, u), List.mem_cons_self, (Option.some.inj h).symm, by rwa [← Option.some.inj h]⟩
    · obtain ⟨q, hq, hz⟩ := ih h
      exact ⟨q, List.mem_cons_of_mem _ hq, hz⟩

theorem alpha_pos (tr : ℝ) : 0 < trAlpha tr ∧ tr < trAlpha tr ∧ trAlpha tr ^ 2 = tr * trAlpha tr + 1 := by
  unfold trAlpha
  have h : |tr| < √(tr * tr + 4) := by
    rw [← Real.sqrt_sq_eq_abs]; exact Real.sqrt_lt_sqrt (sq_nonneg _) (by nlinarith)
  have h2 := Real.mul_self_sqrt (show 0 ≤ tr * tr + 4 by nlinarith)
  have := abs_lt.1 h
  refine ⟨by linarith, by linarith, by nlinarith⟩

/-- What the raw draws satisfy: exponential draws are non-negative and uniform draws lie between zero and one. -/
def DrawsOk (cdf : ℝ → ℝ) (mu sd lb ub : ℝ) (draws : List (ℝ × ℝ)) : Prop :=
  ∀ p ∈ draws, 0 ≤ p.2 ∧ ((lb < -1e16 ∨ 1e16 < ub) → 0 ≤ oneTr mu sd lb ub → 0 ≤ p.1) ∧
    (¬ (lb < -1e16 ∨ 1e16 < ub) → ¬ (0.5 < cdf ((ub - mu) / sd) - cdf ((lb - mu) / sd)) → 0 ≤ p.1 ∧ p.1 ≤ 1)

/-- **C170**: a returned value lies between the bounds, unless both bounds are infinite.  A bound beyond `1e16` counts as infinite. -/
theorem C170_bounds_partial (cdf : ℝ → ℝ) (mu sd lb ub : ℝ) (hsd : 0 < sd) (hlu : lb ≤ ub) (hone : ¬ (lb < -1e16 ∧ 1e16 < ub))
    (draws : List (ℝ × ℝ)) (hd : DrawsOk cdf mu sd lb ub draws) {v : ℝ} (h : scalarTrunc cdf mu sd lb ub draws = some v) :
    (¬ lb < -1e16 → lb ≤ v) ∧ (¬ 1e16 < ub → v ≤ ub) := by
  unfold scalarTrunc at h
  simp only [Option.bind_eq_bind, Option.bind_eq_some_iff] at h
  obtain ⟨z, hz, hv⟩ := h
  unfold truncZ at hz
  dsimp only at hz
  by_cases h1 : lb < -1e16 ∨ 1e16 < ub
  · rw [if_pos h1, if_neg hone] at hz
    have htr : oneTr mu sd lb ub ≤ z := by
      split at hz
      · obtain ⟨p, _, rfl, ha⟩ := firstOk_some hz; exact le_of_lt ha
      · rename_i htr
        obtain ⟨p, hp, rfl, _⟩ := firstOk_some hz
        have := (hd p hp).2.1 h1 (not_lt.1 htr)
        have ha := (alpha_pos (oneTr mu sd lb ub)).1
        have : 0 ≤ 1 / trAlpha (oneTr mu sd lb ub) * p.1 := by positivity
        linarith
    unfold oneTr at htr
    by_cases hub : 1e16 < ub
    · have hlb : ¬ lb < -1e16 := fun h => hone ⟨h, hub⟩
      rw [if_pos hub, div_le_iff₀ hsd] at htr
      rw [if_neg hlb] at hv
      have hv := Option.some.inj hv
      exact ⟨fun _ => by linarith, fun h => absurd hub h⟩
    · have hlb : lb < -1e16 := h1.resolve_right hub
      rw [if_neg hub, div_le_iff₀ hsd] at htr
      rw [if_pos hlb] at hv
      have hv := Option.some.inj hv
      exact ⟨fun h => absurd hlb h, fun _ => by linarith⟩
  · rw [if_neg h1] at hz
    have hlb : ¬ lb < -1e16 := fun h => h1 (Or.inl h)
    rw [if_neg hlb] at hv
    have hv := Option.some.inj hv
    have hzz : (lb - mu) / sd ≤ z ∧ z ≤ (ub - mu) / sd := by
      split at hz
      · obtain ⟨p, _, rfl, ha⟩ := firstOk_some hz; exact ⟨ha.1.le, ha.2.le⟩
      · rename_i htr
        obtain ⟨p, hp, rfl, _⟩ := firstOk_some hz
        obtain ⟨p0, p1⟩ := (hd p hp).2.2 h1 htr
        have hle : (lb - mu) / sd ≤ (ub - mu) / sd := by gcongr
        constructor <;> nlinarith
    rw [div_le_iff₀ hsd, le_div_iff₀ hsd] at hzz
    exact ⟨fun _ => by linarith, fun _ => by linarith⟩

/-- Witness: draws that are accepted. -/
example : ∃ draws, DrawsOk (fun _ => 0) 0 1 (-1) 1 draws ∧ scalarTrunc (fun _ => 0) 0 1 (-1) 1 draws = some 0 := by
  refine ⟨[(1 / 2, 1)], ?_, ?_⟩
  · intro p hp
    obtain rfl := List.mem_singleton.1 hp
    norm_num
  · have h : ¬ ((-1 : ℝ) < -1e16 ∨ (1e16 : ℝ) < 1) := by norm_num
    unfold scalarTrunc truncZ firstOk pzUnif
    norm_num

/-- **C170**: the exponential proposal with rate `alpha` beyond `tr`, accepted with probability `exp pz`, has the truncated normal density up to
a constant; `exp pz` is a probability. -/
theorem C170_exponential (alpha tr z : ℝ) : pzExp alpha z ≤ 0 ∧
    alpha * Real.exp (-(alpha * (z - tr))) * Real.exp (pzExp alpha z) = alpha * Real.exp (alpha * tr - alpha ^ 2 / 2) * Real.exp (-(z ^ 2 / 2)) := by
  unfold pzExp
  refine ⟨by nlinarith [mul_self_nonneg (alpha - z)], ?_⟩
  rw [mul_assoc, mul_assoc, ← Real.exp_add, ← Real.exp_add]
  congr 2; ring

/-- **C170**: the rate `alpha` of the code is the one with the greatest probability of acceptance. -/
theorem C170_rate (tr beta : ℝ) (hb : 0 < beta) :
    beta * Real.exp (beta * tr - beta ^ 2 / 2) ≤ trAlpha tr * Real.exp (trAlpha tr * tr - trAlpha tr ^ 2 / 2) := by
  obtain ⟨h0, -, h2⟩ := alpha_pos tr
  set a := trAlpha tr
  rw [← Real.exp_log hb, ← Real.exp_log h0, ← Real.exp_add, ← Real.exp_add, Real.exp_le_exp, Real.exp_log hb, Real.exp_log h0]
  have hl : Real.log (beta / a) ≤ beta / a - 1 := Real.log_le_sub_one_of_pos (by positivity)
  rw [Real.log_div hb.ne' h0.ne'] at hl
  have e : beta / a = beta * (a - tr) := by
    rw [div_eq_iff h0.ne']; linear_combination (-beta) * h2
  rw [e] at hl
  nlinarith [sq_nonneg (beta - a)]

/-- **C170**: the uniform proposal between the bounds, accepted with probability `exp pz`, has the truncated normal density up to a constant;
`exp pz` is a probability and reaches one. -/
theorem C170_uniform (sl su : ℝ) (h : sl ≤ su) : (∀ z, sl ≤ z → z ≤ su → pzUnif sl su z ≤ 0) ∧ (∃ z, sl ≤ z ∧ z ≤ su ∧ pzUnif sl su z = 0) ∧
    ∃ K, 0 < K ∧ ∀ z, Real.exp (pzUnif sl su z) = K * Real.exp (-(z ^ 2 / 2)) := by
  unfold pzUnif
  by_cases h1 : sl ≤ 0 ∧ 0 ≤ su
  · simp only [if_pos h1]
    refine ⟨fun z _ _ => by nlinarith [sq_nonneg z], ⟨0, h1.1, h1.2, by norm_num⟩, 1, one_pos, fun z => ?_⟩
    rw [one_mul]; congr 1; ring
  · simp only [if_neg h1]
    by_cases h2 : su < 0
    · simp only [if_pos h2]
      refine ⟨fun z _ hz => by nlinarith, ⟨su, h, le_rfl, by ring⟩, Real.exp (su * su / 2), Real.exp_pos _, fun z => ?_⟩
      rw [← Real.exp_add]; congr 1; ring
    · simp only [if_neg h2]
      have h3 : 0 < sl := by by_contra h4; exact h1 ⟨not_lt.1 h4, not_lt.1 h2⟩
      refine ⟨fun z hz _ => by nlinarith, ⟨sl, le_rfl, h, by ring⟩, Real.exp (sl * sl / 2), Real.exp_pos _, fun z => ?_⟩
      rw [← Real.exp_add]; congr 1; ring

/-- **C170 (violated)**: without bounds the draw already has the mean and the scale, and both are applied again with the sign reversed: with
mean three and deviation two the values are symmetric about minus three. -/
theorem C170_unbounded_violated (cdf : ℝ → ℝ) (lb ub e : ℝ) (hl : lb < -1e16) (hu : 1e16 < ub) (l : List (ℝ × ℝ)) (w : ℝ) :
    (∀ mu sd, scalarTrunc cdf mu sd lb ub ((e, w) :: l) = some (mu - (mu + sd * e) * sd)) ∧
    ∃ v v', scalarTrunc cdf 3 2 lb ub ((e, w) :: l) = some v ∧ scalarTrunc cdf 3 2 lb ub ((-e, w) :: l) = some v' ∧ (v + v') / 2 = -3 := by
  have key : ∀ mu sd e, scalarTrunc cdf mu sd lb ub ((e, w) :: l) = some (mu - (mu + sd * e) * sd) := by
    intro mu sd e
    unfold scalarTrunc truncZ
    rw [if_pos (Or.inl hl), if_pos ⟨hl, hu⟩]
    unfold firstOk
    rw [if_pos trivial]
    simp only [Option.bind_eq_bind, Option.bind_some, if_pos hl]
    rfl
  exact ⟨fun mu sd => key mu sd e, _, _, key 3 2 e, key 3 2 (-e), by ring⟩

/-! ### `multivariate_t` -/

/-- **C171**: with mean zero `multivariate_t` scales the normal draw. -/
theorem C171_t_partial (e : ℕ → ℝ) (u : ℝ) (j : ℕ) : multT (fun _ => 0) e u j = u * e j := by unfold multT; ring

/-- **C171 (violated)**: the normal draw contains the mean, so the sample is centred at `(1 + u) mean`. -/
theorem C171_t_violated : (∀ mean e u j, multT mean e u j = (mean j + u * e j) + u * mean j) ∧
    ∃ mean u j, 0 < u ∧ multT mean (fun _ => 0) u j ≠ mean j := by
  refine ⟨fun mean e u j => by unfold multT; ring, fun _ => 1, 1, 0, one_pos, ?_⟩
  norm_num [multT]

/-! ### `_special_ortho` -/

section
open Matrix
variable {dim : ℕ}

/-- The vector of the reflection in full length. -/
noncomputable def fullVec (dim n0 : ℕ) (x : ℕ → ℝ) (i : Fin dim) : ℝ := if n0 ≤ (i : ℕ) then houseVec (dim - n0) x (i - n0) else 0

theorem full_ss (n0 : ℕ) (hn : n0 ≤ dim) (x : ℕ → ℝ) :
    ∑ k ∈ Finset.range (dim - n0), houseVec (dim - n0) x k * houseVec (dim - n0) x k = fullVec dim n0 x ⬝ᵥ fullVec dim n0 x := by
  unfold dotProduct fullVec
  rw [← Finset.sum_range (fun i => (if n0 ≤ i then houseVec (dim - n0) x (i - n0) else 0) * (if n0 ≤ i then houseVec (dim - n0) x (i - n0) else 0))]
  obtain ⟨m, rfl⟩ : ∃ m, dim = n0 + m := ⟨dim - n0, by omega⟩
  rw [Finset.sum_range_add, Nat.add_sub_cancel_left]
  rw [Finset.sum_eq_zero (s := Finset.range n0), zero_add]
  · exact Finset.sum_congr rfl fun k _ => by simp
  · intro i hi
    have := Finset.mem_range.1 hi
    rw [if_neg (by omega), zero_mul]

theorem houseMat_eq (n0 : ℕ) (hn : n0 ≤ dim) (x : ℕ → ℝ) :
    houseMat dim n0 x = 1 - (2 / (fullVec dim n0 x ⬝ᵥ fullVec dim n0 x)) • vecMulVec (fullVec dim n0 x) (fullVec dim n0 x) := by
  ext i j
  simp only [houseMat, of_apply]
  rw [full_ss n0 hn, Matrix.sub_apply, Matrix.smul_apply, vecMulVec_apply, Matrix.one_apply, smul_eq_mul]
  generalize fullVec dim n0 x ⬝ᵥ fullVec dim n0 x = ss
  unfold fullVec
  by_cases hi : n0 ≤ (i : ℕ) <;> by_cases hj : n0 ≤ (j : ℕ)
  · rw [if_pos ⟨hi, hj⟩, if_pos hi, if_pos hj]; ring
  · rw [if_neg fun h => hj h.2, if_neg hj]; ring
  · rw [if_neg fun h => hi h.1, if_neg hi]; ring
  · rw [if_neg fun h => hi h.1, if_neg hi]; ring

theorem reflect (w : Fin dim → ℝ) (hw : w ⬝ᵥ w ≠ 0) :
    (1 - (2 / (w ⬝ᵥ w)) • vecMulVec w w) * (1 - (2 / (w ⬝ᵥ w)) • vecMulVec w w)ᵀ = 1 ∧ (1 - (2 / (w ⬝ᵥ w)) • vecMulVec w w).det = -1 := by
  constructor
  · have ht : (vecMulVec w w)ᵀ = vecMulVec w w := by ext i j; simp [vecMulVec_apply, mul_comm]
    have hm : vecMulVec w w * vecMulVec w w = (w ⬝ᵥ w) • vecMulVec w w := by
      ext i j
      simp only [Matrix.mul_apply, vecMulVec_apply, Matrix.smul_apply, smul_eq_mul, dotProduct, Finset.sum_mul]
      exact Finset.sum_congr rfl fun k _ => by ring
    rw [transpose_sub, transpose_one, transpose_smul, ht, Matrix.sub_mul, Matrix.mul_sub, Matrix.mul_sub]
    simp only [Matrix.one_mul, Matrix.mul_one, Matrix.smul_mul, Matrix.mul_smul, hm, smul_smul]
    have : 2 / (w ⬝ᵥ w) * (2 / (w ⬝ᵥ w) * (w ⬝ᵥ w)) = 2 / (w ⬝ᵥ w) + 2 / (w ⬝ᵥ w) := by field_simp; norm_num
    rw [← mul_assoc] at this
    rw [← mul_assoc, this, add_smul]; abel
  · have : (1 - (2 / (w ⬝ᵥ w)) • vecMulVec w w) = 1 + replicateCol (Fin 1) (-(2 / (w ⬝ᵥ w)) • w) * replicateRow (Fin 1) w := by
      ext i j
      simp only [Matrix.sub_apply, Matrix.add_apply, Matrix.smul_apply, vecMulVec_apply, Matrix.mul_apply, replicateCol_apply, replicateRow_apply,
        Finset.univ_unique, Finset.sum_singleton, Pi.smul_apply, smul_eq_mul]
      ring
    rw [this, det_one_add_mul_comm, det_fin_one, Matrix.add_apply, Matrix.one_apply_eq, Matrix.mul_apply]
    have e : ∑ j, replicateRow (Fin 1) w 0 j * replicateCol (Fin 1) (-(2 / (w ⬝ᵥ w)) • w) j 0 = -(2 / (w ⬝ᵥ w)) * (w ⬝ᵥ w) := by
      generalize -(2 / (w ⬝ᵥ w)) = c
      rw [dotProduct, Finset.mul_sum]
      refine Finset.sum_congr rfl fun j _ => ?_
      simp only [replicateRow_apply, replicateCol_apply, Pi.smul_apply, smul_eq_mul]
      ring
    rw [e]
    field_simp; norm_num

theorem houseProd_ok (x : ℕ → ℕ → ℝ) (m : ℕ) (hm : m ≤ dim)
    (hx : ∀ n, n < m → ∑ k ∈ Finset.range (dim - n), houseVec (dim - n) (x n) k * houseVec (dim - n) (x n) k ≠ 0) :
    houseProd dim x m * (houseProd dim x m)ᵀ = 1 ∧ (houseProd dim x m).det = (-1) ^ m := by
  induction m with
  | zero => simp [houseProd]
  | succ m ih =>
    obtain ⟨h1, h2⟩ := ih (by omega) fun n hn => hx n (by omega)
    have hw := hx m (by omega)
    rw [full_ss m (by omega)] at hw
    obtain ⟨r1, r2⟩ := reflect _ hw
    rw [← houseMat_eq m (by omega)] at r1 r2
    unfold houseProd
    constructor
    · rw [transpose_mul]
      calc houseProd dim x m * houseMat dim m (x m) * ((houseMat dim m (x m))ᵀ * (houseProd dim x m)ᵀ)
          = houseProd dim x m * (houseMat dim m (x m) * (houseMat dim m (x m))ᵀ) * (houseProd dim x m)ᵀ := by simp only [Matrix.mul_assoc]
        _ = 1 := by rw [r1, Matrix.mul_one, h1]
    · rw [det_mul, h2, r2, pow_succ]

/-- **C171**: each reflection sends the normal draw that defines it to a multiple of a unit vector, with the sign of its first entry
(which the diagonal `D` then takes away). -/
theorem C171_reflection (n0 : ℕ) (hn : n0 < dim) (x : ℕ → ℝ) (h0 : x 0 ≠ 0)
    (hx : ∑ k ∈ Finset.range (dim - n0), houseVec (dim - n0) x k * houseVec (dim - n0) x k ≠ 0) :
    houseMat dim n0 x *ᵥ (fun i : Fin dim => if n0 ≤ (i : ℕ) then x (i - n0) else 0) =
      fun i : Fin dim => if (i : ℕ) = n0 then Real.sign (x 0) * √(∑ i ∈ Finset.range (dim - n0), x i * x i) else 0 := by
  have hw := hx
  rw [full_ss n0 hn.le] at hw
  have hss : ∑ k ∈ Finset.range (dim - n0), houseVec (dim - n0) x k * houseVec (dim - n0) x k =
      2 * ∑ k ∈ Finset.range (dim - n0), houseVec (dim - n0) x k * x k := by
    obtain ⟨m, hm⟩ : ∃ m, dim - n0 = m + 1 := ⟨dim - n0 - 1, by omega⟩
    rw [hm]
    have hsq := Real.sq_sqrt (Finset.sum_nonneg fun i (_ : i ∈ Finset.range (m + 1)) => mul_self_nonneg (x i))
    have hs : Real.sign (x 0) * Real.sign (x 0) = 1 := by
      rcases Real.sign_apply_eq_of_ne_zero _ h0 with h | h <;> rw [h] <;> norm_num
    set r := √(∑ i ∈ Finset.range (m + 1), x i * x i) with hr
    have hv : ∀ k, houseVec (m + 1) x k = if k = 0 then x 0 - Real.sign (x 0) * r else x k := fun k => rfl
    rw [Finset.sum_range_succ'] at hsq
    rw [Finset.sum_range_succ', Finset.sum_range_succ']
    simp only [hv, if_true, Nat.add_eq_zero_iff, one_ne_zero, and_false, if_false]
    linear_combination r ^ 2 * hs + hsq
  have hwy : fullVec dim n0 x ⬝ᵥ fullVec dim n0 x = 2 * (fullVec dim n0 x ⬝ᵥ fun i => if n0 ≤ (i : ℕ) then x (i - n0) else 0) := by
    rw [← full_ss n0 hn.le, hss]
    congr 1
    unfold dotProduct fullVec
    rw [← Finset.sum_range (fun i => (if n0 ≤ i then houseVec (dim - n0) x (i - n0) else 0) * (if n0 ≤ i then x (i - n0) else 0))]
    obtain ⟨m, rfl⟩ : ∃ m, dim = n0 + m := ⟨dim - n0, by omega⟩
    rw [Finset.sum_range_add, Nat.add_sub_cancel_left]
    rw [Finset.sum_eq_zero (s := Finset.range n0), zero_add]
    · exact Finset.sum_congr rfl fun k _ => by simp
    · intro i hi
      have := Finset.mem_range.1 hi
      rw [if_neg (by omega), zero_mul]
  rw [houseMat_eq n0 hn.le, Matrix.sub_mulVec, Matrix.one_mulVec, Matrix.smul_mulVec, vecMulVec_mulVec]
  generalize hy : (fullVec dim n0 x ⬝ᵥ fun i : Fin dim => if n0 ≤ (i : ℕ) then x (i - n0) else 0) = q at hwy
  have hq : q ≠ 0 := fun h => hw (by rw [hwy, h, mul_zero])
  funext i
  simp only [Pi.sub_apply, Pi.smul_apply, MulOpposite.smul_eq_mul_unop, MulOpposite.unop_op, smul_eq_mul, hwy]
  rw [show 2 / (2 * q) * (fullVec dim n0 x i * q) = fullVec dim n0 x i by field_simp]
  unfold fullVec houseVec
  by_cases hi : n0 ≤ (i : ℕ)
  · by_cases he : (i : ℕ) = n0
    · simp only [he, le_refl, if_true, Nat.sub_self]; ring
    · rw [if_pos hi, if_pos hi, if_neg (by omega), if_neg he, sub_self]
  · rw [if_neg hi, if_neg hi, if_neg (by omega), sub_self]

/-- **C171**: `_special_ortho` returns a rotation: an orthogonal matrix with determinant one.  The excluded draws, a first entry of zero or a
multiple of the first unit vector, have probability zero. -/
theorem C171_rotation (dim : ℕ) (hd : 0 < dim) (x : ℕ → ℕ → ℝ) (h0 : ∀ n, n < dim - 1 → x n 0 ≠ 0)
    (hx : ∀ n, n < dim - 1 → ∑ k ∈ Finset.range (dim - n), houseVec (dim - n) (x n) k * houseVec (dim - n) (x n) k ≠ 0) :
    specialOrtho dim x * (specialOrtho dim x)ᵀ = 1 ∧ (specialOrtho dim x).det = 1 := by
  obtain ⟨h1, h2⟩ := houseProd_ok (dim := dim) x (dim - 1) (by omega) hx
  have hsq : ∀ i, i < dim - 1 → Real.sign (x i 0) * Real.sign (x i 0) = 1 := by
    intro i hi
    rcases Real.sign_apply_eq_of_ne_zero _ (h0 i hi) with h | h <;> rw [h] <;> norm_num
  set P := ∏ k ∈ Finset.range (dim - 1), Real.sign (x k 0) with hP
  have hPP : P * P = 1 := by
    rw [hP, ← Finset.prod_mul_distrib]
    exact Finset.prod_eq_one fun k hk => hsq k (Finset.mem_range.1 hk)
  have hprod : ∏ k ∈ Finset.range dim, (if k < dim - 1 then Real.sign (x k 0) else 1) = P := by
    obtain ⟨e, rfl⟩ : ∃ e, dim = e + 1 := ⟨dim - 1, by omega⟩
    rw [Finset.prod_range_succ, Nat.add_sub_cancel, if_neg (lt_irrefl _), mul_one, hP]
    exact Finset.prod_congr rfl fun k hk => by rw [if_pos (by simpa using Finset.mem_range.1 hk)]
  have hlast : signD dim x (dim - 1) = (-1) ^ (1 - dim % 2) * P := by
    unfold signD
    dsimp only
    rw [if_pos rfl, hprod]
  have hlt : ∀ i, i < dim - 1 → signD dim x i = Real.sign (x i 0) := by
    intro i hi
    unfold signD
    dsimp only
    rw [if_neg (by omega), if_pos hi]
  have hDD : ∀ i : Fin dim, signD dim x i * signD dim x i = 1 := by
    intro i
    rcases Nat.lt_or_ge (i : ℕ) (dim - 1) with h | h
    · rw [hlt _ h, hsq _ h]
    · have : (i : ℕ) = dim - 1 := by omega
      rw [this, hlast]
      have : ((-1 : ℝ) ^ (1 - dim % 2)) * (-1) ^ (1 - dim % 2) = 1 := by rw [← mul_pow]; norm_num
      linear_combination this * P * P + hPP
  have hfac : specialOrtho dim x = diagonal (fun i : Fin dim => signD dim x i) * houseProd dim x (dim - 1) := by
    ext i j
    rw [diagonal_mul]; rfl
  rw [hfac]
  constructor
  · rw [transpose_mul, diagonal_transpose]
    calc diagonal (fun i : Fin dim => signD dim x i) * houseProd dim x (dim - 1) * ((houseProd dim x (dim - 1))ᵀ * diagonal fun i : Fin dim => signD dim x i)
        = diagonal (fun i : Fin dim => signD dim x i) * (houseProd dim x (dim - 1) * (houseProd dim x (dim - 1))ᵀ) * diagonal fun i : Fin dim => signD dim x i := by
          simp only [Matrix.mul_assoc]
      _ = 1 := by
          rw [h1, Matrix.mul_one, diagonal_mul_diagonal]
          rw [← diagonal_one]; congr 1; funext i; exact hDD i
  · rw [det_mul, det_diagonal, h2, ← Finset.prod_range (fun i => signD dim x i)]
    have : ∏ i ∈ Finset.range dim, signD dim x i = P * ((-1) ^ (1 - dim % 2) * P) := by
      obtain ⟨e, rfl⟩ : ∃ e, dim = e + 1 := ⟨dim - 1, by omega⟩
      rw [Finset.prod_range_succ]
      rw [Nat.add_sub_cancel] at hlast hlt hP
      rw [hlast, hP]
      congr 1
      exact Finset.prod_congr rfl fun k hk => hlt k (Finset.mem_range.1 hk)
    rw [this]
    have hs : ((-1 : ℝ)) ^ (1 - dim % 2) * (-1) ^ (dim - 1) = 1 := by
      rw [← pow_add]
      refine Even.neg_one_pow ?_
      rcases Nat.mod_two_eq_zero_or_one dim with h | h
      · rw [h]; refine ⟨dim / 2, by omega⟩
      · rw [h]; refine ⟨dim / 2, by omega⟩
    linear_combination P * P * hs + hPP

/-- Witness: in two dimensions the draw `(1, 1)` will do. -/
example : ∃ x : ℕ → ℕ → ℝ, (∀ n, n < 2 - 1 → x n 0 ≠ 0) ∧
    ∀ n, n < 2 - 1 → ∑ k ∈ Finset.range (2 - n), houseVec (2 - n) (x n) k * houseVec (2 - n) (x n) k ≠ 0 := by
  refine ⟨fun _ _ => 1, fun _ _ => one_ne_zero, fun n hn => ?_⟩
  obtain rfl : n = 0 := by omega
  rw [Finset.sum_range_succ]
  have : 0 ≤ ∑ k ∈ Finset.range 1, houseVec 2 (fun _ => 1) k * houseVec 2 (fun _ => 1) k := Finset.sum_nonneg fun _ _ => mul_self_nonneg _
  have h2 : houseVec (2 - 0) (fun _ => (1 : ℝ)) 1 = 1 := rfl
  rw [h2]
  have : 0 < (∑ k ∈ Finset.range 1, houseVec 2 (fun _ => 1) k * houseVec 2 (fun _ => 1) k) + 1 * 1 := by linarith
  exact this.ne'

end

end Verif.Rand
