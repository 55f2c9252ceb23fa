import Verif.Nmf.Model
import Mathlib.Analysis.Calculus.Deriv.Pow
import Mathlib.Analysis.Calculus.Deriv.Add
import Mathlib.Analysis.Calculus.Deriv.Mul
import Mathlib.Algebra.BigOperators.Field
import Mathlib.Tactic.NormNum
import Mathlib.Tactic.FieldSimp
import Mathlib.Tactic.Positivity
import Mathlib.Tactic.LinearCombination
/-!
# C216, C217: the convolutive factorisation
-/
namespace Verif.Nmf
open Finset

/-! ## Specification -/

/-- The convolution of factors and time courses: `X̂ i s = ∑ τ r, W i r τ · H r (s − τ)`. -/
def conv (k L : ℕ) (W : ℕ → ℕ → ℕ → ℝ) (H : ℕ → ℕ → ℝ) (i s : ℕ) : ℝ :=
  ∑ tau ∈ range L, ∑ r ∈ range k, W i r tau * (if tau ≤ s then H r (s - tau) else 0)

/-- Half the squared error. -/
noncomputable def halfErr (n k L t : ℕ) (X : ℕ → ℕ → ℝ) (W : ℕ → ℕ → ℕ → ℝ) (H : ℕ → ℕ → ℝ) : ℝ :=
  ∑ i ∈ range n, ∑ s ∈ range t, (conv k L W H i s - X i s) ^ 2 / 2

/-- The correlation of `X` with the factors, cut at the end of the series. -/
def corr (n L t : ℕ) (W : ℕ → ℕ → ℕ → ℝ) (X : ℕ → ℕ → ℝ) (r s : ℕ) : ℝ :=
  ∑ j ∈ range L, ∑ i ∈ range n, W i r j * (if s + j < t then X i (s + j) else 0)

/-- The correlation of `X` with the time courses at lag `j`. -/
def corrH (t : ℕ) (X H : ℕ → ℕ → ℝ) (j i r : ℕ) : ℝ :=
  ∑ s ∈ range t, X i s * (if j ≤ s then H r (s - j) else 0)

/-! ## Reconstruction -/

theorem rollFlat_pad {k L t tau r s : ℕ} (H : ℕ → ℕ → ℝ) (hr : r < k) (hs : s < t) (ht : tau < L) :
    rollFlat k (t + 2 * L) tau (fun r => pad L t (H r)) r (s + L) =
      if tau ≤ s then H r (s - tau) else 0 := by
  have hw : 0 < t + 2 * L := by omega
  have hk : (r + 1) * (t + 2 * L) ≤ k * (t + 2 * L) := Nat.mul_le_mul_right _ hr
  have e1 : r * (t + 2 * L) + (s + L) + (k * (t + 2 * L) - tau) =
      r * (t + 2 * L) + (s + L - tau) + k * (t + 2 * L) := by
    have : t + 2 * L ≤ k * (t + 2 * L) := by nlinarith
    omega
  have hlt : r * (t + 2 * L) + (s + L - tau) < k * (t + 2 * L) := by
    have : (r + 1) * (t + 2 * L) = r * (t + 2 * L) + (t + 2 * L) := by ring
    omega
  have e2 : (r * (t + 2 * L) + (s + L - tau)) / (t + 2 * L) = r := by
    rw [Nat.add_comm, Nat.add_mul_div_right _ _ hw, Nat.div_eq_of_lt (by omega), Nat.zero_add]
  have e3 : (r * (t + 2 * L) + (s + L - tau)) % (t + 2 * L) = s + L - tau := by
    rw [Nat.add_comm, Nat.add_mul_mod_self_right, Nat.mod_eq_of_lt (by omega)]
  simp only [rollFlat, e1, Nat.add_mod_right, Nat.mod_eq_of_lt hlt, e2, e3, pad]
  by_cases h : tau ≤ s
  · rw [if_pos h, if_pos (by omega)]
    congr 1
    omega
  · rw [if_neg h, if_neg (by omega)]

/-- **C216.** `reconstruct` is the convolution cut at the ends of the series: rolling the flattened
array never carries an entry from one row to the next, because of the padding. -/
theorem C216_reconstruct (k L t : ℕ) (W : ℕ → ℕ → ℕ → ℝ) (H : ℕ → ℕ → ℝ) (i s : ℕ) (hs : s < t) :
    reconstruct k L t W H i s = conv k L W H i s := by
  refine Finset.sum_congr rfl fun tau ht => Finset.sum_congr rfl fun r hr => ?_
  rw [rollFlat_pad H (Finset.mem_range.1 hr) hs (Finset.mem_range.1 ht)]

/-- **C216.** Without the padding the roll of the flattened array does mix the rows. -/
theorem C216_roll_needs_padding :
    ∃ (H : ℕ → ℕ → ℝ), rollFlat 2 2 1 H 1 0 ≠ 0 ∧ H 1 0 = 0 ∧ H 1 1 = 0 :=
  ⟨fun r s => if r = 0 ∧ s = 1 then 1 else 0, by norm_num [rollFlat], by norm_num, by norm_num⟩

/-- **C216.** The reconstruction of non-negative factors is non-negative. -/
theorem C216_reconstruct_nonneg (k L t : ℕ) (W : ℕ → ℕ → ℕ → ℝ) (H : ℕ → ℕ → ℝ) (i s : ℕ)
    (hs : s < t) (hW : ∀ i r j, 0 ≤ W i r j) (hH : ∀ r s, 0 ≤ H r s) :
    0 ≤ reconstruct k L t W H i s := by
  rw [C216_reconstruct _ _ _ _ _ _ _ hs]
  refine Finset.sum_nonneg fun tau _ => Finset.sum_nonneg fun r _ => mul_nonneg (hW _ _ _) ?_
  split_ifs
  · exact hH _ _
  · exact le_rfl

/-! ## Scaling -/

/-- **C216.** Moving the row norms from `H` to `W` multiplies the share of factor `r` by
`ρ/(ρ + ε)`. -/
theorem C216_scaling (rho : ℕ → ℝ) (eps : ℝ) (k L : ℕ) (W : ℕ → ℕ → ℕ → ℝ) (H : ℕ → ℕ → ℝ) (i s : ℕ) :
    conv k L (scaleW rho W) (scaleH rho eps H) i s =
      ∑ tau ∈ range L, ∑ r ∈ range k,
        rho r / (rho r + eps) * (W i r tau * (if tau ≤ s then H r (s - tau) else 0)) := by
  refine Finset.sum_congr rfl fun tau _ => Finset.sum_congr rfl fun r _ => ?_
  simp only [scaleW, scaleH]
  split_ifs <;> ring

/-- **C216, partial.** Without the `ε` the reconstruction is unchanged. -/
theorem C216_scaling_partial (rho : ℕ → ℝ) (h : ∀ r, rho r ≠ 0) (k L : ℕ) (W : ℕ → ℕ → ℕ → ℝ)
    (H : ℕ → ℕ → ℝ) (i s : ℕ) :
    conv k L (scaleW rho W) (scaleH rho 0 H) i s = conv k L W H i s := by
  rw [C216_scaling]
  refine Finset.sum_congr rfl fun tau _ => Finset.sum_congr rfl fun r _ => ?_
  rw [add_zero, div_self (h r), one_mul]

/-- **C216, violated.** With it the reconstruction shrinks. -/
theorem C216_scaling_violated (eps : ℝ) (he : 0 < eps) :
    ∃ (rho : ℕ → ℝ) (W : ℕ → ℕ → ℕ → ℝ) (H : ℕ → ℕ → ℝ), (∀ r, rho r = |H r 0|) ∧
      conv 1 1 (scaleW rho W) (scaleH rho eps H) 0 0 < conv 1 1 W H 0 0 := by
  refine ⟨fun _ => 1, fun _ _ _ => 1, fun _ _ => 1, by simp, ?_⟩
  rw [C216_scaling]
  simp only [conv, Finset.sum_range_one, Nat.le_refl, if_true, mul_one]
  rw [div_lt_one (by linarith)]
  linarith

/-! ## Shifts -/

/-- **C216.** `shift1d` shifts: entry `i` is entry `i − n`, the constant where that does not exist. -/
theorem C216_shift1d (arr : List ℝ) (n : ℤ) (c : ℝ) :
    (shift1d arr n c).length = arr.length ∧ ∀ i : ℕ, i < arr.length →
      (shift1d arr n c).getD i 0 =
        if 0 ≤ (i : ℤ) - n ∧ (i : ℤ) - n < arr.length then arr.getD ((i : ℤ) - n).toNat 0 else c := by
  unfold shift1d
  split_ifs with h1 h2
  · obtain ⟨m, rfl⟩ : ∃ m : ℕ, n = m := ⟨n.toNat, by omega⟩
    simp only [Int.toNat_natCast]
    refine ⟨by simp; omega, fun i hi => ?_⟩
    rw [List.getD_eq_getElem?_getD, List.getElem?_append, List.length_replicate]
    by_cases him : i < m
    · rw [if_pos (by omega), if_neg (by omega), List.getElem?_replicate, if_pos (by omega),
        Option.getD_some]
    · rw [if_neg (by omega), if_pos (by omega), List.getElem?_take, if_pos (by omega),
        List.getD_eq_getElem?_getD]
      congr 2
      omega
  · obtain ⟨m, rfl⟩ : ∃ m : ℕ, n = -(m : ℤ) := ⟨(-n).toNat, by omega⟩
    simp only [neg_neg, Int.toNat_natCast, sub_neg_eq_add]
    refine ⟨by simp; omega, fun i hi => ?_⟩
    rw [List.getD_eq_getElem?_getD, List.getElem?_append, List.length_drop]
    by_cases him : i + m < arr.length
    · rw [if_pos (by omega), if_pos (by omega), List.getElem?_drop, List.getD_eq_getElem?_getD]
      congr 2
      omega
    · rw [if_neg (by omega), if_neg (by omega), List.getElem?_replicate, if_pos (by omega),
        Option.getD_some]
  · have hn : n = 0 := by omega
    subst hn
    refine ⟨rfl, fun i hi => ?_⟩
    rw [if_pos (by omega)]
    congr 1

/-- **C216, violated.** `shift` does not shift: it overwrites the margins and leaves every other entry
in its place. -/
theorem C216_shift_violated (t nl nr : ℕ) (c : ℝ) (x : ℕ → ℝ) (s : ℕ) (h : nl + nr ≤ t) :
    shiftAxis t nl nr c x s = if nl ≤ s ∧ s + nr < t then x s else c := by
  simp only [shiftAxis]
  by_cases h1 : nl ≤ s ∧ s + nr < t
  · rw [if_pos h1, if_pos (by omega), Nat.sub_add_cancel h1.1]
  · rw [if_neg h1, if_neg (by omega)]

/-- **C216, violated.** So `seqnmf_objfunc` does not correlate the factors with the data. -/
theorem C216_objfunc_violated :
    ∃ (W : ℕ → ℕ → ℕ → ℝ) (X : ℕ → ℕ → ℝ), wtxObj 1 2 3 W X 0 0 ≠ corr 1 2 3 W X 0 0 := by
  refine ⟨fun _ _ _ => 1, fun _ s => if s = 0 then 1 else 0, ?_⟩
  norm_num [wtxObj, corr, shiftAxis, Finset.sum_range_succ]
  decide

/-- **C216, partial.** It does for factors of one lag. -/
theorem C216_objfunc_partial (n t : ℕ) (W : ℕ → ℕ → ℕ → ℝ) (X : ℕ → ℕ → ℝ) (r s : ℕ) (hs : s < t) :
    wtxObj n 1 t W X r s = corr n 1 t W X r s := by
  simp [wtxObj, corr, shiftAxis, hs]

/-- The first row of the centred part of a full convolution. -/
def centred (b : ℕ) : ℤ := ((b - 1 : ℕ) / 2 : ℤ)

/-- **C216, violated.** `conv2(A, B, 'same')` takes the centred part only if `A` has one to three rows,
and not always then. -/
theorem C216_conv2_violated (a b : ℕ) (ha : 0 < a) (hb : 0 < b) :
    sameStart a b = centred b ↔ a = 2 ∨ (a = 1 ∧ b % 2 = 0) ∨ (a = 3 ∧ b % 2 = 1) := by
  unfold sameStart centred
  omega

example : sameStart 12 1 = 5 ∧ centred 1 = 0 := by decide

/-! ## Updates -/

/-- **C217.** The numerator of the update of `H` is the cut correlation, as long as the first `L − 1`
columns vanish, which the padding of the data ensures. -/
theorem C217_wtx_partial (n L t : ℕ) (W : ℕ → ℕ → ℕ → ℝ) (X : ℕ → ℕ → ℝ) (r s : ℕ) (hs : s < t)
    (hL : L ≤ t) (hX : ∀ i u, u + 1 < L → X i u = 0) :
    wtx n L t W X r s = corr n L t W X r s := by
  refine Finset.sum_congr rfl fun j hj => Finset.sum_congr rfl fun i _ => ?_
  have hj := Finset.mem_range.1 hj
  simp only [rollBack]
  by_cases h : s + j < t
  · rw [if_pos h, Nat.mod_eq_of_lt h]
  · rw [if_neg h, Nat.mod_eq_sub_mod (by omega), Nat.mod_eq_of_lt (by omega), hX i _ (by omega)]

/-- **C217.** The data of `_fit` are padded by `L` columns. -/
theorem C217_wtx_data (n L t : ℕ) (W : ℕ → ℕ → ℕ → ℝ) (X : ℕ → ℕ → ℝ) (r s : ℕ) (hs : s < t + 2 * L) :
    wtx n L (t + 2 * L) W (fun i => pad L t (X i)) r s =
      corr n L (t + 2 * L) W (fun i => pad L t (X i)) r s :=
  C217_wtx_partial n L _ W _ r s hs (by omega) fun i u hu => if_neg (by omega)

/-- **C217, violated.** The denominator has no such columns: the first columns of the reconstruction
are carried to the end. -/
theorem C217_wtxhat_violated :
    ∃ (W : ℕ → ℕ → ℕ → ℝ) (H : ℕ → ℕ → ℝ), (∀ i r j, 0 ≤ W i r j) ∧ (∀ r s, 0 ≤ H r s) ∧
      wtx 1 2 5 W (fun i => reconstruct 1 2 5 W H i) 0 4 ≠
        corr 1 2 5 W (fun i => reconstruct 1 2 5 W H i) 0 4 := by
  refine ⟨fun _ _ _ => 1, fun _ _ => 1, fun _ _ _ => zero_le_one, fun _ _ => zero_le_one, ?_⟩
  simp only [wtx, corr, rollBack]
  norm_num [Finset.sum_range_succ, C216_reconstruct, conv]

/-- **C217.** What the denominator adds to the correlation is not negative. -/
theorem C217_wtxhat_ge (n L t : ℕ) (W : ℕ → ℕ → ℕ → ℝ) (X : ℕ → ℕ → ℝ) (r s : ℕ)
    (hW : ∀ i r j, 0 ≤ W i r j) (hX : ∀ i s, 0 ≤ X i s) :
    corr n L t W X r s ≤ wtx n L t W X r s := by
  refine Finset.sum_le_sum fun j _ => Finset.sum_le_sum fun i _ => mul_le_mul_of_nonneg_left ?_ (hW _ _ _)
  simp only [rollBack]
  split_ifs with h
  · rw [Nat.mod_eq_of_lt h]
  · exact hX _ _

/-- **C217.** The products with the shifted time courses are the cut correlations, as long as the last
`L − 1` columns of `H` or the first `j` of `X` vanish; the data are padded. -/
theorem C217_xht_partial (t : ℕ) (X H : ℕ → ℕ → ℝ) (j i r : ℕ) (hj : j ≤ t)
    (hX : ∀ u, u < j → X i u = 0 ∨ H r (u + (t - j)) = 0) :
    xht t X H j i r = corrH t X H j i r := by
  refine Finset.sum_congr rfl fun s hs => ?_
  have hs := Finset.mem_range.1 hs
  simp only [roll]
  by_cases h : j ≤ s
  · rw [if_pos h, Nat.mod_eq_sub_mod (by omega), Nat.mod_eq_of_lt (by omega)]
    congr 2
    omega
  · rw [if_neg h, Nat.mod_eq_of_lt (by omega), mul_zero]
    rcases hX s (by omega) with e | e <;> rw [e] <;> ring

/-- **C217, violated.** Not so for the reconstruction. -/
theorem C217_xhatht_violated :
    ∃ (W : ℕ → ℕ → ℕ → ℝ) (H : ℕ → ℕ → ℝ), (∀ i r j, 0 ≤ W i r j) ∧ (∀ r s, 0 ≤ H r s) ∧
      xht 5 (fun i => reconstruct 1 2 5 W H i) H 1 0 0 ≠
        corrH 5 (fun i => reconstruct 1 2 5 W H i) H 1 0 0 := by
  refine ⟨fun _ _ _ => 1, fun _ _ => 1, fun _ _ _ => zero_le_one, fun _ _ => zero_le_one, ?_⟩
  simp only [xht, corrH, roll]
  norm_num [Finset.sum_range_succ, C216_reconstruct, conv]

theorem conv_dirH (k L : ℕ) (W : ℕ → ℕ → ℕ → ℝ) (H : ℕ → ℕ → ℝ) (r0 s0 i s : ℕ) (hr : r0 < k) (x : ℝ) :
    conv k L W (fun r u => H r u + x * (if r = r0 ∧ u = s0 then 1 else 0)) i s =
      conv k L W H i s + x * ∑ tau ∈ range L, (if s = s0 + tau then W i r0 tau else 0) := by
  simp only [conv]
  rw [Finset.mul_sum, ← Finset.sum_add_distrib]
  refine Finset.sum_congr rfl fun tau _ => ?_
  have : ∀ r, W i r tau * (if tau ≤ s then H r (s - tau) + x * (if r = r0 ∧ s - tau = s0 then 1 else 0) else 0) =
      W i r tau * (if tau ≤ s then H r (s - tau) else 0) +
        (if r = r0 then x * (if s = s0 + tau then W i r0 tau else 0) else 0) := by
    intro r
    by_cases h1 : tau ≤ s <;> by_cases h2 : r = r0 <;> by_cases h3 : s = s0 + tau
    · subst h2
      simp only [h3, if_true, Nat.le_add_left, Nat.add_sub_cancel, and_self]; ring
    · have : s - tau ≠ s0 := by omega
      simp [h1, h2, h3, this]
    · simp [h1, h2]
    · simp [h1, h2]
    · omega
    · simp [h1, h3]
    · omega
    · simp [h1, h2]
  rw [Finset.sum_congr rfl fun r _ => this r, Finset.sum_add_distrib, Finset.sum_ite_eq', if_pos (Finset.mem_range.2 hr)]

/-- **C217.** The difference of the cut correlations of the reconstruction and of the data is the
derivative of half the squared error in an entry of `H`. -/
theorem C217_gradH (n k L t : ℕ) (X : ℕ → ℕ → ℝ) (W : ℕ → ℕ → ℕ → ℝ) (H : ℕ → ℕ → ℝ) (r0 s0 : ℕ)
    (hr : r0 < k) :
    HasDerivAt (fun x : ℝ => halfErr n k L t X W
        (fun r u => H r u + x * (if r = r0 ∧ u = s0 then 1 else 0)))
      (corr n L t W (conv k L W H) r0 s0 - corr n L t W X r0 s0) 0 := by
  have h1 : ∀ i s, HasDerivAt (fun x : ℝ => (conv k L W
      (fun r u => H r u + x * (if r = r0 ∧ u = s0 then 1 else 0)) i s - X i s) ^ 2 / 2)
      ((conv k L W H i s - X i s) * ∑ tau ∈ range L, (if s = s0 + tau then W i r0 tau else 0)) 0 := by
    intro i s
    simp only [conv_dirH _ _ _ _ _ _ _ _ hr]
    generalize (∑ tau ∈ range L, (if s = s0 + tau then W i r0 tau else 0)) = c
    have := ((((hasDerivAt_id (0 : ℝ)).mul_const c).const_add (conv k L W H i s)).sub_const (X i s)).pow 2
    refine (this.div_const 2).congr_deriv ?_
    simp
    ring
  have h2 := HasDerivAt.fun_sum fun i (_ : i ∈ range n) =>
    HasDerivAt.fun_sum fun s (_ : s ∈ range t) => h1 i s
  refine h2.congr_deriv ?_
  simp only [corr]
  rw [← Finset.sum_sub_distrib]
  simp only [← Finset.sum_sub_distrib]
  rw [Finset.sum_comm (s := range L)]
  refine Finset.sum_congr rfl fun i _ => ?_
  simp only [Finset.mul_sum]
  rw [Finset.sum_comm]
  refine Finset.sum_congr rfl fun tau _ => ?_
  simp only [mul_ite, mul_zero]
  rw [Finset.sum_ite_eq']
  by_cases h : s0 + tau < t
  · simp only [if_pos (Finset.mem_range.2 h), if_pos h]; ring
  · simp only [Finset.mem_range, if_neg h, sub_zero]

theorem conv_dirW (k L : ℕ) (W : ℕ → ℕ → ℕ → ℝ) (H : ℕ → ℕ → ℝ) (i0 r0 j0 i s : ℕ) (hr : r0 < k)
    (hj : j0 < L) (x : ℝ) :
    conv k L (fun i r j => W i r j + x * (if i = i0 ∧ r = r0 ∧ j = j0 then 1 else 0)) H i s =
      conv k L W H i s + x * (if i = i0 then (if j0 ≤ s then H r0 (s - j0) else 0) else 0) := by
  simp only [conv]
  have : ∀ tau r, (W i r tau + x * (if i = i0 ∧ r = r0 ∧ tau = j0 then 1 else 0)) *
      (if tau ≤ s then H r (s - tau) else 0) = W i r tau * (if tau ≤ s then H r (s - tau) else 0) +
      (if r = r0 then (if tau = j0 then
        x * (if i = i0 then (if j0 ≤ s then H r0 (s - j0) else 0) else 0) else 0) else 0) := by
    intro tau r
    by_cases h1 : i = i0 <;> by_cases h2 : r = r0 <;> by_cases h3 : tau = j0
    · subst h1 h2 h3; simp only [and_self, if_true]; split_ifs <;> ring
    all_goals simp [h1, h2, h3]
  simp only [this, Finset.sum_add_distrib]
  congr 1
  simp only [Finset.sum_ite_eq', Finset.mem_range, hr, hj, if_true]

/-- **C217.** Likewise for an entry of `W`. -/
theorem C217_gradW (n k L t : ℕ) (X : ℕ → ℕ → ℝ) (W : ℕ → ℕ → ℕ → ℝ) (H : ℕ → ℕ → ℝ) (i0 r0 j0 : ℕ)
    (hi : i0 < n) (hr : r0 < k) (hj : j0 < L) :
    HasDerivAt (fun x : ℝ => halfErr n k L t X
        (fun i r j => W i r j + x * (if i = i0 ∧ r = r0 ∧ j = j0 then 1 else 0)) H)
      (corrH t (conv k L W H) H j0 i0 r0 - corrH t X H j0 i0 r0) 0 := by
  have h1 : ∀ i s, HasDerivAt (fun x : ℝ => (conv k L
      (fun i r j => W i r j + x * (if i = i0 ∧ r = r0 ∧ j = j0 then 1 else 0)) H i s - X i s) ^ 2 / 2)
      ((conv k L W H i s - X i s) *
        (if i = i0 then (if j0 ≤ s then H r0 (s - j0) else 0) else 0)) 0 := by
    intro i s
    simp only [conv_dirW _ _ _ _ _ _ _ _ _ hr hj]
    generalize (if i = i0 then (if j0 ≤ s then H r0 (s - j0) else 0) else (0 : ℝ)) = c
    have := ((((hasDerivAt_id (0 : ℝ)).mul_const c).const_add (conv k L W H i s)).sub_const (X i s)).pow 2
    refine (this.div_const 2).congr_deriv ?_
    simp
    ring
  have h2 := HasDerivAt.fun_sum fun i (_ : i ∈ range n) =>
    HasDerivAt.fun_sum fun s (_ : s ∈ range t) => h1 i s
  refine h2.congr_deriv ?_
  rw [Finset.sum_eq_single i0 (fun i _ h => Finset.sum_eq_zero fun s _ => by rw [if_neg h, mul_zero])
    (fun h => absurd (Finset.mem_range.2 hi) h)]
  simp only [corrH, if_true]
  rw [← Finset.sum_sub_distrib]
  refine Finset.sum_congr rfl fun s _ => by ring

/-- **C217.** The multiplicative update keeps `H` non-negative, and fixes a positive entry exactly where
the numerator equals the denominator. -/
theorem C217_update_nonneg (h a b d eps : ℝ) (hh : 0 ≤ h) (ha : 0 ≤ a) (hb : 0 ≤ b) (hd : 0 ≤ d)
    (he : 0 < eps) : 0 ≤ updateH h a b d eps :=
  div_nonneg (mul_nonneg hh ha) (by linarith)

theorem C217_update_fixed (h a b d eps : ℝ) (hh : 0 < h) (hb : 0 ≤ b) (hd : 0 ≤ d) (he : 0 < eps) :
    updateH h a b d eps = h ↔ a = b + d + eps := by
  have h0 : b + d + eps ≠ 0 := by linarith [hb, hd, he] |> fun (h : 0 < b + d + eps) => h.ne'
  unfold updateH
  rw [div_eq_iff h0]
  exact ⟨fun e => mul_left_cancel₀ hh.ne' e, fun e => by rw [e]⟩

/-! ## Penalty -/

theorem shift_sum (t j : ℕ) (f : ℕ → ℝ) (hf : ∀ v, v < j → f v = 0) :
    ∑ u ∈ range t, (if u + j < t then f (u + j) else 0) = ∑ v ∈ range t, f v := by
  by_cases hj : j ≤ t
  · obtain ⟨m, rfl⟩ : ∃ m, t = j + m := ⟨t - j, by omega⟩
    rw [Finset.sum_range_add f, Finset.sum_eq_zero (s := range j) fun v hv => hf v (Finset.mem_range.1 hv),
      zero_add, Nat.add_comm j m, Finset.sum_range_add,
      Finset.sum_eq_zero (s := range j) fun u _ => if_neg (by omega), add_zero]
    refine Finset.sum_congr rfl fun u hu => ?_
    rw [if_pos (by have := Finset.mem_range.1 hu; omega), Nat.add_comm]
  · rw [Finset.sum_eq_zero fun u _ => if_neg (by omega),
      Finset.sum_eq_zero fun v hv => hf v (by have := Finset.mem_range.1 hv; omega)]

/-- The cross-orthogonality penalty: the sum over pairs of different factors of `∑ (A ⋆ S) Hᵀ`. -/
def cross (k L t : ℕ) (A H : ℕ → ℕ → ℝ) : ℝ :=
  ∑ r ∈ range k, ∑ r' ∈ range k, (1 - if r = r' then 1 else 0) *
    ∑ s ∈ range t, window L t (A r) s * H r' s

/-- **C217.** The penalty added in the update of `H` is `λ` times the derivative of the cross term with
the correlations held fixed, and `λ_h` times half the derivative of the one of `H` with itself. -/
theorem C217_penaltyH (k L t : ℕ) (A H : ℕ → ℕ → ℝ) (r0 s0 : ℕ) (hr : r0 < k) (hs : s0 < t) :
    HasDerivAt (fun x : ℝ => cross k L t A
        (fun r u => H r u + x * (if r = r0 ∧ u = s0 then 1 else 0)))
      (penaltyH k L t 1 0 A H r0 s0) 0 := by
  have e : ∀ x : ℝ, cross k L t A (fun r u => H r u + x * (if r = r0 ∧ u = s0 then 1 else 0)) =
      cross k L t A H + x * penaltyH k L t 1 0 A H r0 s0 := by
    intro x
    have e1 : ∀ r r', (∑ s ∈ range t, window L t (A r) s *
        (H r' s + x * (if r' = r0 ∧ s = s0 then 1 else 0))) =
        (∑ s ∈ range t, window L t (A r) s * H r' s) +
          (if r' = r0 then x * window L t (A r) s0 else 0) := by
      intro r r'
      have : ∀ s, window L t (A r) s * (H r' s + x * (if r' = r0 ∧ s = s0 then 1 else 0)) =
          window L t (A r) s * H r' s +
            (if s = s0 then (if r' = r0 then x * window L t (A r) s0 else 0) else 0) := by
        intro s
        by_cases h1 : s = s0 <;> by_cases h2 : r' = r0
        · subst h1 h2; simp; ring
        all_goals simp [h1, h2]
      rw [Finset.sum_congr rfl fun s _ => this s, Finset.sum_add_distrib, Finset.sum_ite_eq',
        if_pos (Finset.mem_range.2 hs)]
    simp only [cross, e1]
    simp only [mul_add, Finset.sum_add_distrib, penaltyH, offDot, one_mul, zero_mul,
      add_zero]
    congr 1
    rw [Finset.mul_sum]
    refine Finset.sum_congr rfl fun r _ => ?_
    simp only [mul_ite, mul_zero]
    rw [Finset.sum_ite_eq', if_pos (Finset.mem_range.2 hr)]
    by_cases h : r = r0
    · subst h; simp
    · simp [h, Ne.symm h]
  simp only [e]
  simpa using ((hasDerivAt_id (0 : ℝ)).mul_const (penaltyH k L t 1 0 A H r0 s0)).const_add (cross k L t A H)

theorem cross_dirA (k L t : ℕ) (A H : ℕ → ℕ → ℝ) (r0 : ℕ) (hr : r0 < k) (a : ℕ → ℝ) (x : ℝ) :
    cross k L t (fun r s => A r s + x * (if r = r0 then a s else 0)) H =
      cross k L t A H + x * offDot k (fun r' => ∑ s ∈ range t, window L t a s * H r' s) r0 := by
  have e1 : ∀ r s, window L t (fun s => A r s + x * (if r = r0 then a s else 0)) s =
      window L t (A r) s + (if r = r0 then x * window L t a s else 0) := by
    intro r s
    by_cases h : r = r0 <;> simp [window, h, Finset.sum_add_distrib, Finset.mul_sum]
  have e2 : ∀ r r', (1 - if r = r' then (1 : ℝ) else 0) *
      (∑ s ∈ range t, (window L t (A r) s + (if r = r0 then x * window L t a s else 0)) * H r' s) =
      (1 - if r = r' then 1 else 0) * (∑ s ∈ range t, window L t (A r) s * H r' s) +
      (if r = r0 then x * ((1 - if r0 = r' then 1 else 0) *
        ∑ s ∈ range t, window L t a s * H r' s) else 0) := by
    intro r r'
    by_cases h : r = r0
    · subst h
      simp only [if_true, add_mul, Finset.sum_add_distrib, mul_assoc x, ← Finset.mul_sum]
      ring
    · simp [h]
  simp only [cross, e1, e2, Finset.sum_add_distrib]
  congr 1
  rw [Finset.sum_comm]
  simp only [Finset.sum_ite_eq', Finset.mem_range, hr, if_true, offDot, Finset.mul_sum]

/-- The correlations of padded data, windowed, are the windowed data. -/
theorem window_corr (L t j : ℕ) (x h : ℕ → ℝ) (hj : j < L) (hx : ∀ u, u < L → x u = 0)
    (hx' : ∀ u, t - L ≤ u → x u = 0) :
    ∑ s ∈ range t, window L t (fun s => if s + j < t then x (s + j) else 0) s * h s =
      ∑ s ∈ range t, window L t x s * (if j ≤ s then h (s - j) else 0) := by
  have e : ∀ s, window L t (fun s => if s + j < t then x (s + j) else 0) s =
      if s + j < t then window L t x (s + j) else 0 := by
    intro s
    simp only [window, Finset.sum_filter]
    split_ifs with hs
    · have e1 : ∀ v, (if v < s + j + L ∧ s + j < v + L then x v else 0) =
          if j ≤ v then (if v < s + j + L ∧ s + j < v + L then x v else 0) else 0 := by
        intro v
        by_cases h1 : j ≤ v
        · rw [if_pos h1]
        · rw [if_neg h1, hx v (by omega), ite_self]
      rw [Finset.sum_congr rfl fun v _ => e1 v]
      have e2 : ∀ u, (if u < s + L ∧ s < u + L then (if u + j < t then x (u + j) else 0) else 0) =
          if u + j < t then (fun v => if j ≤ v then
            (if v < s + j + L ∧ s + j < v + L then x v else 0) else 0) (u + j) else 0 := by
        intro u
        by_cases h1 : u < s + L ∧ s < u + L
        · rw [if_pos h1]
          simp only
          rw [if_pos (show j ≤ u + j by omega),
            if_pos (show u + j < s + j + L ∧ s + j < u + j + L by omega)]
        · rw [if_neg h1]
          simp only
          rw [if_pos (show j ≤ u + j by omega),
            if_neg (show ¬ (u + j < s + j + L ∧ s + j < u + j + L) by omega), ite_self]
      rw [Finset.sum_congr rfl fun u _ => e2 u]
      exact shift_sum t j (fun v => if j ≤ v then
        (if v < s + j + L ∧ s + j < v + L then x v else 0) else 0) fun v hv => if_neg (by omega)
    · refine Finset.sum_eq_zero fun u _ => ?_
      split_ifs with h1 h2
      · exact hx' _ (by omega)
      · rfl
      · rfl
  simp only [e]
  have := shift_sum t j (fun v => window L t x v * (if j ≤ v then h (v - j) else 0))
    (fun v hv => by rw [if_neg (by omega), mul_zero])
  rw [← this]
  refine Finset.sum_congr rfl fun s _ => ?_
  split_ifs with h1 h2
  · rw [Nat.add_sub_cancel]
  · omega
  · ring

/-- **C217.** The penalty added in the update of `W`, for one lag: the derivative of the cross term
through the correlations, for data padded by `L` columns and time courses whose last `j` columns
vanish. -/
theorem C217_penaltyW_partial (n k L t : ℕ) (X H : ℕ → ℕ → ℝ) (W : ℕ → ℕ → ℕ → ℝ) (i0 r0 j0 : ℕ)
    (hi : i0 < n) (hr : r0 < k) (hj : j0 < L) (hLt : L ≤ t) (hX : ∀ i u, u < L → X i u = 0)
    (hX' : ∀ i u, t - L ≤ u → X i u = 0) (hH : ∀ r u, t - j0 ≤ u → H r u = 0) :
    HasDerivAt (fun x : ℝ => cross k L t (corr n L t
        (fun i r j => W i r j + x * (if i = i0 ∧ r = r0 ∧ j = j0 then 1 else 0)) X) H)
      (penaltyW k L t 1 0 X H W j0 i0 r0) 0 := by
  have e : ∀ x : ℝ, corr n L t
      (fun i r j => W i r j + x * (if i = i0 ∧ r = r0 ∧ j = j0 then 1 else 0)) X =
      fun r s => corr n L t W X r s +
        x * (if r = r0 then (if s + j0 < t then X i0 (s + j0) else 0) else 0) := by
    intro x
    funext r s
    have : ∀ j i, (W i r j + x * (if i = i0 ∧ r = r0 ∧ j = j0 then 1 else 0)) *
        (if s + j < t then X i (s + j) else 0) = W i r j * (if s + j < t then X i (s + j) else 0) +
        (if i = i0 then (if j = j0 then
          x * (if r = r0 then (if s + j0 < t then X i0 (s + j0) else 0) else 0) else 0) else 0) := by
      intro j i
      by_cases h1 : i = i0 <;> by_cases h2 : r = r0 <;> by_cases h3 : j = j0
      · subst h1 h2 h3; simp only [and_self, if_true]; split_ifs <;> ring
      all_goals simp [h1, h2, h3]
    simp only [corr, this, Finset.sum_add_distrib]
    congr 1
    simp only [Finset.sum_ite_eq', Finset.mem_range, hi, hj, if_true]
  simp only [e, cross_dirA _ _ _ _ _ _ hr]
  have e3 : offDot k (fun r' => ∑ s ∈ range t,
      window L t (fun s => if s + j0 < t then X i0 (s + j0) else 0) s * H r' s) r0 =
      penaltyW k L t 1 0 X H W j0 i0 r0 := by
    simp only [penaltyW, one_mul, zero_mul, add_zero]
    congr 1
    funext r'
    rw [window_corr L t j0 (X i0) (H r') hj (hX i0) (hX' i0)]
    exact (C217_xht_partial t (fun i => window L t (X i)) H j0 i0 r' (by omega)
      fun u _ => Or.inr (hH _ _ (by omega))).symm
  rw [← e3]
  simpa using ((hasDerivAt_id (0 : ℝ)).mul_const _).const_add (cross k L t (corr n L t W X) H)

/-- Half the sum of the products of different columns of `Wflat`. -/
noncomputable def crossW (n k L : ℕ) (W : ℕ → ℕ → ℕ → ℝ) : ℝ :=
  ∑ i ∈ range n, ∑ r ∈ range k, ∑ r' ∈ range k, (1 - if r = r' then 1 else 0) *
    ((∑ l ∈ range L, W i r l) * ∑ l ∈ range L, W i r' l) / 2

/-- **C217.** The second part of that penalty is the derivative of the overlap of the factors. -/
theorem C217_penaltyW_overlap (n k L t : ℕ) (X H : ℕ → ℕ → ℝ) (W : ℕ → ℕ → ℕ → ℝ) (i0 r0 j0 : ℕ)
    (hi : i0 < n) (hr : r0 < k) (hj : j0 < L) :
    HasDerivAt (fun x : ℝ => crossW n k L
        (fun i r j => W i r j + x * (if i = i0 ∧ r = r0 ∧ j = j0 then 1 else 0)))
      (penaltyW k L t 0 1 X H W j0 i0 r0) 0 := by
  have e : ∀ x : ℝ, crossW n k L
      (fun i r j => W i r j + x * (if i = i0 ∧ r = r0 ∧ j = j0 then 1 else 0)) =
      crossW n k L W + x * penaltyW k L t 0 1 X H W j0 i0 r0 := by
    intro x
    have e1 : ∀ i r, (∑ l ∈ range L, (W i r l + x * (if i = i0 ∧ r = r0 ∧ l = j0 then 1 else 0))) =
        (∑ l ∈ range L, W i r l) + (if i = i0 then (if r = r0 then x else 0) else 0) := by
      intro i r
      rw [Finset.sum_add_distrib]
      congr 1
      by_cases h1 : i = i0 <;> by_cases h2 : r = r0 <;> simp [h1, h2, hj]
    have e2 : ∀ i r r', (1 - if r = r' then (1 : ℝ) else 0) *
        (((∑ l ∈ range L, W i r l) + (if i = i0 then (if r = r0 then x else 0) else 0)) *
          ((∑ l ∈ range L, W i r' l) + (if i = i0 then (if r' = r0 then x else 0) else 0))) / 2 =
        (1 - if r = r' then 1 else 0) *
          ((∑ l ∈ range L, W i r l) * ∑ l ∈ range L, W i r' l) / 2 +
        (if i = i0 then ((if r = r0 then
            x / 2 * ((1 - if r0 = r' then 1 else 0) * ∑ l ∈ range L, W i0 r' l) else 0) +
          (if r' = r0 then
            x / 2 * ((1 - if r0 = r then 1 else 0) * ∑ l ∈ range L, W i0 r l) else 0)) else 0) := by
      intro i r r'
      by_cases h1 : i = i0
      · subst h1
        by_cases h2 : r = r0 <;> by_cases h3 : r' = r0
        · subst h2 h3; simp
        · subst h2; simp [h3]; ring
        · subst h3; simp [h2, Ne.symm h2]; ring
        · simp [h2, h3]
      · simp [h1]
    simp only [crossW, e1, e2, Finset.sum_add_distrib]
    congr 1
    have e4 : ∀ i, (∑ r ∈ range k, ∑ r' ∈ range k, (if i = i0 then ((if r = r0 then
            x / 2 * ((1 - if r0 = r' then 1 else 0) * ∑ l ∈ range L, W i0 r' l) else 0) +
          (if r' = r0 then
            x / 2 * ((1 - if r0 = r then 1 else 0) * ∑ l ∈ range L, W i0 r l) else 0)) else 0)) =
        if i = i0 then x * penaltyW k L t 0 1 X H W j0 i0 r0 else 0 := by
      intro i
      split_ifs with h
      · simp only [Finset.sum_add_distrib]
        rw [Finset.sum_comm]
        simp only [Finset.sum_ite_eq', Finset.mem_range, hr, if_true, penaltyW, offDot, zero_mul,
          zero_add, one_mul, ← Finset.mul_sum]
        ring
      · simp
    rw [Finset.sum_congr rfl fun i _ => e4 i, Finset.sum_ite_eq', if_pos (Finset.mem_range.2 hi)]
  simp only [e]
  simpa using ((hasDerivAt_id (0 : ℝ)).mul_const _).const_add (crossW n k L W)

/-- **C217, violated.** The penalty recorded is the largest column sum, not the sum over the pairs. -/
theorem C217_norm_violated :
    ∃ M : ℕ → ℕ → ℝ, (∀ r s, 0 ≤ M r s) ∧ norm1 2 M ≠ ∑ r ∈ range 2, ∑ s ∈ range 2, M r s := by
  refine ⟨fun r s => if r = s then 0 else 1, fun r s => by dsimp only; split_ifs <;> norm_num, ?_⟩
  norm_num [norm1, Finset.sum_range_succ, List.range_succ]

/-! ## Trace -/

theorem foldl_trace {S : Type} (err : S → ℝ) (step : S → S) (s0 : S) (f0 : List ℝ) (m : ℕ)
    (hm : m ≤ f0.length) :
    (List.range m).foldl (fun (a : S × List ℝ) i => (step a.1, a.2.set i (err (step a.1)))) (s0, f0) =
      (step^[m] s0, (List.range m).map (fun i => err (step^[i + 1] s0)) ++ f0.drop m) := by
  induction m with
  | zero => simp
  | succ m ih =>
    rw [List.range_succ, List.foldl_append, ih (by omega)]
    simp only [List.foldl_cons, List.foldl_nil, ← Function.iterate_succ_apply', List.map_append,
      List.map_cons, List.map_nil, Prod.mk.injEq, true_and]
    rw [List.set_append, if_neg (by simp), List.length_map, List.length_range, Nat.sub_self,
      List.append_assoc]
    congr 1
    have hd : f0.drop m = f0[m]'(by omega) :: f0.drop (m + 1) := List.drop_eq_getElem_cons (by omega)
    rw [hd]
    rfl

/-- **C217, violated.** The trace starts after the first pass: the error at the start is overwritten. -/
theorem C217_trace_violated {S : Type} (m : ℕ) (hm : 0 < m) (err : S → ℝ) (step : S → S) (s0 : S) :
    fEvals m err step s0 = some ((List.range m).map (fun i => err (step^[i + 1] s0))) := by
  unfold fEvals
  rw [if_neg hm.ne']
  simp only
  rw [foldl_trace _ _ _ _ _ (by simp)]
  simp

theorem C217_trace_start_violated :
    ∃ (err step : ℝ → ℝ) (s0 : ℝ), fEvals 1 err step s0 ≠ some [err s0] := by
  refine ⟨id, fun x => x + 1, 0, ?_⟩
  rw [C217_trace_violated 1 one_pos]
  simp

/-- **C217, violated.** `shift_factors=True` raises for any number of factors. -/
theorem C217_center_violated (n k : ℕ) (hk : 0 < k) : centerFactors n k = none := by
  simp [centerFactors, hk]

end Verif.Nmf
