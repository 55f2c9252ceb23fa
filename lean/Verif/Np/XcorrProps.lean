import Verif.Np.Xcorr
import Mathlib.Analysis.SpecialFunctions.Sqrt
import Mathlib.Algebra.Order.Chebyshev
import Mathlib.Tactic.Linarith
import Mathlib.Tactic.Ring
import Mathlib.Tactic.NormNum

/-!
Claim C173: cross-correlation.
-/

namespace Verif.Np

/-- The cross-correlation at lag `m`: the sum of `x (j + m) * y j` over all `j` for which both indices are in range. -/
def xc (n : ℕ) (x y : ℕ → ℝ) (m : ℤ) : ℝ :=
  ∑ j ∈ Finset.range n, if 0 ≤ (j : ℤ) + m ∧ (j : ℤ) + m < n then x ((j : ℤ) + m).toNat * y j else 0

variable {n : ℕ} {x y : ℕ → ℝ}

theorem xc_nonneg (m : ℕ) : xc n x y m = ∑ j ∈ Finset.range (n - m), x (j + m) * y j := by
  unfold xc
  symm
  refine Finset.sum_subset_zero_on_sdiff (fun j hj => ?_) (fun j hj => ?_) (fun j hj => ?_)
  · have := Finset.mem_range.1 hj; exact Finset.mem_range.2 (by omega)
  · obtain ⟨h1, h2⟩ := Finset.mem_sdiff.1 hj
    have h1 := Finset.mem_range.1 h1
    have h2 : n - m ≤ j := by simpa using h2
    rw [if_neg (by omega)]
  · have := Finset.mem_range.1 hj
    rw [if_pos (by omega)]
    congr 2

/-- The cross-correlation with the arguments exchanged is reflected. -/
theorem xc_swap (m : ℤ) : xc n x y (-m) = xc n y x m := by
  unfold xc
  rw [← Finset.sum_filter, ← Finset.sum_filter]
  refine Finset.sum_bij' (fun j _ => ((j : ℤ) + -m).toNat) (fun j _ => ((j : ℤ) + m).toNat) ?_ ?_ ?_ ?_ ?_
  · intro j hj
    simp only [Finset.mem_filter, Finset.mem_range] at hj ⊢
    omega
  · intro j hj
    simp only [Finset.mem_filter, Finset.mem_range] at hj ⊢
    omega
  · intro j hj
    simp only [Finset.mem_filter, Finset.mem_range] at hj
    omega
  · intro j hj
    simp only [Finset.mem_filter, Finset.mem_range] at hj
    omega
  · intro j hj
    simp only [Finset.mem_filter, Finset.mem_range] at hj
    have : (((j + -m).toNat : ℤ) + m).toNat = j := by omega
    rw [this, mul_comm]

theorem rhoBrute_eq (i : ℕ) : rhoBrute n x y i = xc n x y i := by
  rw [xc_nonneg]
  unfold rhoBrute
  split
  · rename_i h; subst h; rfl
  · exact Finset.sum_congr rfl fun j _ => by rw [add_comm i j]

/-- **C173**: `xcorr_fft` gives the cross-correlation at every lag. -/
theorem C173_fft (t : ℕ) (ht : t < 2 * n - 1) : xcorrFft n x y t = xc n x y ((t : ℤ) - ((n : ℤ) - 1)) := by
  unfold xcorrFft convFull xc
  rw [← Finset.sum_filter, ← Finset.sum_filter]
  refine Finset.sum_bij' (fun j _ => n - 1 - (t - j)) (fun j _ => ((j : ℤ) + ((t : ℤ) - ((n : ℤ) - 1))).toNat) ?_ ?_ ?_ ?_ ?_
  · intro j hj
    simp only [Finset.mem_filter, Finset.mem_range] at hj ⊢
    omega
  · intro j hj
    simp only [Finset.mem_filter, Finset.mem_range] at hj ⊢
    omega
  · intro j hj
    simp only [Finset.mem_filter, Finset.mem_range] at hj
    omega
  · intro j hj
    simp only [Finset.mem_filter, Finset.mem_range] at hj
    omega
  · intro j hj
    simp only [Finset.mem_filter, Finset.mem_range] at hj
    congr 2
    omega

/-- **C173**: the other three versions return the cross-correlation at the absolute value of the lag. -/
theorem C173_mirror (t : ℕ) (hn : 0 < n) (ht : t < 2 * n - 1) :
    xcorrBrute n x y t = xc n x y |(t : ℤ) - ((n : ℤ) - 1)| ∧ rhoFftc n x y t = xc n x y |(t : ℤ) - ((n : ℤ) - 1)| ∧
    xcorrMat n x y t = xc n x y |(t : ℤ) - ((n : ℤ) - 1)| := by
  have hf : ∀ i, i < n → convFull n x (fun l => y (n - 1 - l)) (n - 1 + i) = xc n x y i := by
    intro i hi
    have := C173_fft (n := n) (x := x) (y := y) (n - 1 + i) (by omega)
    unfold xcorrFft at this
    rw [this]; congr 1; omega
  have hm : ∀ u, n - 1 ≤ u → rMat n x y u = xc n x y ((u - (n - 1) : ℕ) : ℤ) := by
    intro u hu
    unfold rMat
    rw [if_pos hu, xc_nonneg]
  by_cases h : t < n - 1
  · have e : |(t : ℤ) - ((n : ℤ) - 1)| = ((n - 1 - t : ℕ) : ℤ) := by rw [abs_of_neg (by omega)]; omega
    rw [e]
    refine ⟨?_, ?_, ?_⟩
    · unfold xcorrBrute; rw [if_pos h, rhoBrute_eq]
    · unfold rhoFftc; dsimp only; rw [if_pos h, hf _ (by omega)]
    · unfold xcorrMat; rw [if_pos h, hm _ (by omega)]; congr 2; omega
  · have e : |(t : ℤ) - ((n : ℤ) - 1)| = ((t - (n - 1) : ℕ) : ℤ) := by rw [abs_of_nonneg (by omega)]; omega
    rw [e]
    refine ⟨?_, ?_, ?_⟩
    · unfold xcorrBrute; rw [if_neg h, rhoBrute_eq]
    · unfold rhoFftc; dsimp only; rw [if_neg h, hf _ (by omega)]
    · unfold xcorrMat; rw [if_neg h, hm _ (by omega)]

/-- **C173**: for lags that are not negative, and for autocorrelations, all four versions agree with the cross-correlation. -/
theorem C173_agree_partial (t : ℕ) (hn : 0 < n) (ht : t < 2 * n - 1) (h : n - 1 ≤ t ∨ x = y) :
    xcorrBrute n x y t = xcorrFft n x y t ∧ rhoFftc n x y t = xcorrFft n x y t ∧ xcorrMat n x y t = xcorrFft n x y t := by
  have key : xc n x y |(t : ℤ) - ((n : ℤ) - 1)| = xcorrFft n x y t := by
    rw [C173_fft t ht]
    rcases le_or_gt 0 ((t : ℤ) - ((n : ℤ) - 1)) with h1 | h1
    · rw [abs_of_nonneg h1]
    · rcases h with h | h
      · omega
      · subst h; rw [abs_of_neg h1, xc_swap]
  obtain ⟨h1, h2, h3⟩ := C173_mirror (x := x) (y := y) t hn ht
  exact ⟨h1.trans key, h2.trans key, h3.trans key⟩

/-- **C173 (violated)**: at negative lags the three mirrored versions return the value of the opposite lag. -/
theorem C173_negative_violated : ∃ x y : ℕ → ℝ, xcorrFft 2 x y 0 ≠ xcorrBrute 2 x y 0 ∧ xcorrFft 2 x y 0 ≠ rhoFftc 2 x y 0 ∧ xcorrFft 2 x y 0 ≠ xcorrMat 2 x y 0 := by
  refine ⟨fun j => if j = 0 then 1 else 0, fun j => if j = 1 then 1 else 0, ?_, ?_, ?_⟩ <;>
  norm_num [xcorrFft, convFull, xcorrBrute, rhoBrute, rhoFftc, xcorrMat, rMat, Finset.sum_range_succ]

/-- **C173**: with `normalization="coef"` the values lie between minus one and one. -/
theorem C173_coef (t : ℕ) (hn : 0 < n) (ht : t < 2 * n - 1) (hx : 0 < ∑ j ∈ Finset.range n, x j * x j) (hy : 0 < ∑ j ∈ Finset.range n, y j * y j) :
    ∃ v, xcorrFftc n x y "coef" t = some v ∧ |v| ≤ 1 := by
  refine ⟨_, by unfold xcorrFftc normC; rfl, ?_⟩
  have hpos : 0 < √((∑ j ∈ Finset.range n, x j * x j) * ∑ j ∈ Finset.range n, y j * y j) := Real.sqrt_pos.2 (mul_pos hx hy)
  rw [(C173_mirror (x := x) (y := y) t hn ht).2.1, mul_one_div, abs_div, abs_of_pos hpos, div_le_one hpos]
  obtain ⟨m, hm⟩ : ∃ m : ℕ, |(t : ℤ) - ((n : ℤ) - 1)| = m := ⟨_, (Int.natCast_natAbs _).symm⟩
  rw [hm, xc_nonneg]
  refine Real.abs_le_sqrt ?_
  refine (Finset.sum_mul_sq_le_sq_mul_sq _ _ _).trans (mul_le_mul ?_ ?_ (Finset.sum_nonneg fun _ _ => sq_nonneg _) hx.le)
  · have : ∑ j ∈ Finset.range (n - m), x (j + m) ^ 2 = ∑ j ∈ Finset.Ico m (m + (n - m)), x j * x j := by
      rw [Finset.sum_Ico_eq_sum_range, Nat.add_sub_cancel_left]
      exact Finset.sum_congr rfl fun j _ => by rw [add_comm m j, sq]
    rw [this]
    refine Finset.sum_le_sum_of_subset_of_nonneg (fun j hj => ?_) fun _ _ _ => mul_self_nonneg _
    have := Finset.mem_Ico.1 hj
    exact Finset.mem_range.2 (by omega)
  · simp only [sq]
    exact Finset.sum_le_sum_of_subset_of_nonneg (Finset.range_subset_range.2 (Nat.sub_le _ _)) fun _ _ _ => mul_self_nonneg _

/-- **C173**: with `normalization="biased"` each value is the cross-correlation divided by the length of the series. -/
theorem C173_biased (t : ℕ) (hn : 0 < n) (ht : t < 2 * n - 1) :
    xcorrFftc n x y "biased" t = some (xc n x y |(t : ℤ) - ((n : ℤ) - 1)| / n) := by
  have h1 : ¬ ("biased" = "unbiased") := by decide
  unfold xcorrFftc normC
  rw [if_neg h1, if_pos rfl, (C173_mirror t hn ht).2.1]
  show some _ = _
  rw [mul_one_div]

/-- **C173**: with `normalization="unbiased"` each value is the mean over the pairs at that lag, so that constants give their product. -/
theorem C173_unbiased (a b : ℝ) (t : ℕ) (hn : 0 < n) (ht : t < 2 * n - 1) : xcorrFftc n (fun _ => a) (fun _ => b) "unbiased" t = some (a * b) := by
  unfold xcorrFftc normC
  simp only [if_true, Option.bind_eq_bind, Option.bind_some]
  rw [(C173_mirror t hn ht).2.1]
  obtain ⟨m, hm⟩ : ∃ m : ℕ, |(t : ℤ) - ((n : ℤ) - 1)| = m := ⟨_, (Int.natCast_natAbs _).symm⟩
  have hmr : |((t : ℝ) - ((n : ℝ) - 1))| = m := by
    have := congrArg (fun z : ℤ => (z : ℝ)) hm
    push_cast at this
    exact this
  have hlt : m < n := by
    rcases abs_cases ((t : ℤ) - ((n : ℤ) - 1)) with ⟨h, _⟩ | ⟨h, _⟩ <;> omega
  rw [hm, hmr, xc_nonneg]
  simp only [Finset.sum_const, Finset.card_range, nsmul_eq_mul]
  have hne : ((n : ℝ) - m) ≠ 0 := by
    have : (m : ℝ) < n := by exact_mod_cast hlt
    linarith
  rw [Nat.cast_sub hlt.le]
  show some _ = _
  congr 1
  field_simp

/-- **C173 (violated)**: any other name for the normalisation, for instance `"none"`, raises `UnboundLocalError`. -/
theorem C173_name_violated (t : ℕ) : xcorrFftc n x y "none" t = none := by
  simp [xcorrFftc, normC]

end Verif.Np
