import Verif.Mv.SccaResample
import Verif.Mv.SccaCvProps
import Mathlib.Tactic

/-!
C264: penalties and resampling of sparse canonical correlation.
-/

namespace Verif.Mv.SccaCv
open Finset

/-- **C264** The penalties are a geometric sequence from the lower to the upper end, the ends first moved into the open unit interval. -/
theorem C264_lambdas (tiny eps : ℝ) (ht : 0 < tiny) (he : 0 < eps) (num : ℕ) (hnum : 2 ≤ num) (lmin lmax : ℝ) (hlm : max lmin tiny < min lmax (1 - eps)) :
    (sccaLambdas tiny eps num lmin lmax).length = num ∧ (sccaLambdas tiny eps num lmin lmax)[0]? = some (max lmin tiny) ∧
      (sccaLambdas tiny eps num lmin lmax)[num - 1]? = some (min lmax (1 - eps)) ∧
      (∃ r, 1 < r ∧ ∀ i, i < num → (sccaLambdas tiny eps num lmin lmax)[i]? = some (max lmin tiny * r ^ i)) ∧
      ∀ v ∈ sccaLambdas tiny eps num lmin lmax, 0 < v ∧ v < 1 := by
  set a := max lmin tiny with ha
  set b := min lmax (1 - eps) with hb
  have ha0 : 0 < a := lt_of_lt_of_le ht (le_max_right _ _)
  have hb0 : 0 < b := ha0.trans hlm
  have hb1 : b < 1 := lt_of_le_of_lt (min_le_right _ _) (by linarith)
  have hm : (0 : ℝ) < ((num - 1 : ℕ) : ℝ) := by exact_mod_cast (by omega : 0 < num - 1)
  have hlog : Real.log a < Real.log b := Real.log_lt_log ha0 hlm
  set r := Real.exp ((Real.log b - Real.log a) / ((num - 1 : ℕ) : ℝ)) with hr
  have hr1 : 1 < r := by
    rw [hr, Real.one_lt_exp_iff]; exact div_pos (by linarith) hm
  have hget : ∀ i, i < num → (sccaLambdas tiny eps num lmin lmax)[i]? = some (a * r ^ i) := fun i hi => by
    simp only [sccaLambdas, Verif.Eln.linspace, List.getElem?_map, List.getElem?_range hi, Option.map_some, Option.some.injEq, ← ha, ← hb]
    rw [Real.exp_add, Real.exp_log ha0, hr, ← Real.exp_nat_mul]
  have hlast : a * r ^ (num - 1) = b := by
    rw [hr, ← Real.exp_nat_mul, mul_div_cancel₀ _ hm.ne', Real.exp_sub, Real.exp_log hb0, Real.exp_log ha0, mul_div_cancel₀ _ ha0.ne']
  refine ⟨by simp [sccaLambdas, Verif.Eln.linspace], by rw [hget 0 (by omega)]; simp, by rw [hget (num - 1) (by omega), hlast], ⟨r, hr1, hget⟩, fun v hv => ?_⟩
  obtain ⟨i, hi⟩ := List.mem_iff_getElem?.1 hv
  have hil : i < num := by
    have := (List.getElem?_eq_some_iff.1 hi).1
    simpa [sccaLambdas, Verif.Eln.linspace] using this
  rw [hget i hil] at hi
  rw [← Option.some.inj hi]
  refine ⟨mul_pos ha0 (pow_pos (by linarith) _), lt_of_le_of_lt ?_ hb1⟩
  rw [← hlast]
  exact mul_le_mul_of_nonneg_left (pow_le_pow_right₀ hr1.le (by omega)) ha0.le

/-- **C264** The first starting vector has length one. -/
theorem C264_start {p q : ℕ} (gx : Fin p → ℝ) (gy : Fin q → ℝ) (hx : ∑ l, gx l ^ 2 ≠ 0) : ∑ j, (permStart gx gy).1 j ^ 2 = 1 := by
  have h0 : 0 ≤ ∑ l, gx l ^ 2 := Finset.sum_nonneg fun l _ => sq_nonneg _
  simp only [permStart, div_pow, Real.sq_sqrt h0]
  rw [← Finset.sum_div, div_self hx]

/-- **C264 (violated)** The second starting vector is the draw itself: it is divided by the length of the first, which is one by then. -/
theorem C264_start_violated {p q : ℕ} (gx : Fin p → ℝ) (gy : Fin q → ℝ) (hx : ∑ l, gx l ^ 2 ≠ 0) : (permStart gx gy).2 = gy := by
  have h1 := C264_start gx gy hx
  simp only [permStart] at h1 ⊢
  funext k
  rw [h1, Real.sqrt_one, div_one]

/-- **C264** Permuting both data sets is permuting one: all cross products are those of one permutation. -/
theorem C264_permutation {n : ℕ} (s t : Equiv.Perm (Fin n)) (x y : Fin n → ℝ) :
    ∑ i, permCol s x i * permCol t y i = ∑ i, x i * permCol (s.symm.trans t) y i := by
  rw [← Equiv.sum_comp s fun i => x i * permCol (s.symm.trans t) y i]
  simp [permCol]

/-- **C264** A permutation keeps the mean and the standard deviation of a column. -/
theorem C264_margins {n : ℕ} (s : Equiv.Perm (Fin n)) (x : Fin n → ℝ) : cmean (permCol s x) = cmean x ∧ cstd (permCol s x) = cstd x := by
  have h : cmean (permCol s x) = cmean x := by
    simp only [cmean, permCol]; rw [Equiv.sum_comp s x]
  refine ⟨h, ?_⟩
  simp only [cstd, h, permCol]
  rw [Equiv.sum_comp s fun i => (x i - cmean x) ^ 2]

/-- **C264** Without repetition in the resample no observation is both fitted and tested. -/
theorem C264_leak_partial (N k : ℕ) (hk : 2 ≤ k) (ix : ℕ → ℕ) (hix : ∀ a < N, ∀ b < N, ix a = ix b → a = b) (fs : List (List ℕ × List ℕ))
    (h : folds N k = some fs) : ∀ f ∈ fs, ∀ o ∈ (mcFold ix f).1, o ∉ (mcFold ix f).2 := by
  obtain ⟨fs', h1, -, -, hp⟩ := C251_folds N k hk
  obtain rfl : fs = fs' := Option.some.inj (h.symm.trans h1)
  intro f hf o ho ho'
  obtain ⟨a, ha, rfl⟩ := List.mem_map.1 ho
  obtain ⟨b, hb, hab⟩ := List.mem_map.1 ho'
  have haN : a < N := List.mem_range.1 ((hp f hf).mem_iff.1 (List.mem_append_left _ ha))
  have hbN : b < N := List.mem_range.1 ((hp f hf).mem_iff.1 (List.mem_append_right _ hb))
  obtain rfl := hix b hbN a haN hab
  have hnd : (f.1 ++ f.2).Nodup := (hp f hf).nodup_iff.2 List.nodup_range
  exact (List.nodup_append.1 hnd).2.2 b ha b hb rfl

/-- **C264** An observation drawn twice, with its places in different folds, is fitted to and tested on. -/
theorem C264_leak (ix : ℕ → ℕ) (f : List ℕ × List ℕ) (a b : ℕ) (ha : a ∈ f.1) (hb : b ∈ f.2) (hab : ix a = ix b) :
    ix b ∈ (mcFold ix f).1 ∧ ix b ∈ (mcFold ix f).2 := ⟨List.mem_map.2 ⟨a, ha, hab⟩, List.mem_map.2 ⟨b, hb, rfl⟩⟩

/-- **C264 (violated)** Whenever the resample draws an observation at two places of different folds, there is a fold that is fitted to it and tested on it. -/
theorem C264_leak_violated (N k : ℕ) (hk : 2 ≤ k) (ix : ℕ → ℕ) (fs : List (List ℕ × List ℕ)) (h : folds N k = some fs) (a b : ℕ) (ha : a < N) (hb : b < N)
    (hab : ix a = ix b) (hsep : ∀ f ∈ fs, b ∈ f.2 → a ∉ f.2) : ∃ f ∈ fs, ix b ∈ (mcFold ix f).1 ∧ ix b ∈ (mcFold ix f).2 := by
  obtain ⟨fs', h1, -, hfl, hp⟩ := C251_folds N k hk
  obtain rfl : fs = fs' := Option.some.inj (h.symm.trans h1)
  have hbm : b ∈ (fs.map Prod.snd).flatten := by rw [hfl]; exact List.mem_range.2 hb
  obtain ⟨l, hl, hbl⟩ := List.mem_flatten.1 hbm
  obtain ⟨f, hf, rfl⟩ := List.mem_map.1 hl
  have ham : a ∈ f.1 ++ f.2 := (hp f hf).mem_iff.2 (List.mem_range.2 ha)
  have ha1 : a ∈ f.1 := (List.mem_append.1 ham).resolve_right (hsep f hf hbl)
  exact ⟨f, hf, C264_leak ix f a b ha1 hbl hab⟩

/-- The hypotheses of the refutation are satisfiable: two observations, two folds, the same observation drawn twice. -/
example : ∃ fs, folds 2 2 = some fs ∧ ∀ f ∈ fs, 1 ∈ f.2 → 0 ∉ f.2 := ⟨[([1], [0]), ([0], [1])], by decide +kernel, by decide⟩

/-- The hypotheses on the penalties are satisfiable. -/
example : max (1 / 100 : ℝ) (1 / 10 ^ 16) < min (9 / 10) (1 - 1 / 10 ^ 16) := by
  rw [max_lt_iff, lt_min_iff, lt_min_iff]; norm_num

end Verif.Mv.SccaCv
