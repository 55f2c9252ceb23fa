import Verif.Lmm.OldProfile
import Verif.Lmm.ProfileProps
import Mathlib.Tactic
/-!
# C275: the older profile likelihood

The grid holds the estimate between its ends, and the signed roots are those of the newer profile.
-/

namespace Verif.Lmm

/-- The estimate lies in the grid, for a variance that is not below one hundredth. -/
theorem C275_bracket_partial (tb se mle : ℝ) (isVar : Bool) (h : 0 ≤ tb * se) (hv : isVar = true → 1 / 100 ≤ mle) :
    (oprfBounds tb se mle isVar).1 ≤ mle ∧ mle ≤ (oprfBounds tb se mle isVar).2 := by
  refine ⟨?_, by simp only [oprfBounds]; linarith⟩
  simp only [oprfBounds]
  split
  · rename_i hb
    exact max_le (hv hb) (by linarith)
  · linarith

/-- If the lower end is not cut, the middle of an odd number of points is the estimate. -/
theorem C275_middle (tb se mle : ℝ) (isVar : Bool) (m : ℕ) (hm : 1 ≤ m) (hcut : isVar = true → 1 / 100 ≤ mle - tb * se) :
    oprfPoint tb se mle isVar (2 * m + 1) m = mle := by
  have h1 : (oprfBounds tb se mle isVar).1 = mle - tb * se := by
    simp only [oprfBounds]
    split
    · rename_i hb; exact max_eq_right (hcut hb)
    · rfl
  have hm' : (m : ℝ) ≠ 0 := by exact_mod_cast (by omega : m ≠ 0)
  simp only [oprfPoint, h1, profGrid]
  simp only [oprfBounds]
  push_cast
  field_simp
  ring

/-- With the estimate at the minimum the roots are real and are those of the newer profile, so that they increase with the held value and
vanish at the estimate. -/
theorem C275_root (D : ℝ → ℝ) (llmax mle : ℝ) (h : ∀ t, llmax ≤ D t) (t : ℝ) : oprfZeta D llmax mle t = some (profZeta D llmax mle t) := by
  have := h t
  unfold oprfZeta profZeta
  simp only
  rw [if_neg (by linarith), max_eq_left (by linarith)]

/-- A refit that falls below the optimum, however little, gives nan where the newer profile gives zero. -/
theorem C275_nan_violated (D : ℝ → ℝ) (llmax mle t : ℝ) (h : D t < llmax) : oprfZeta D llmax mle t = none ∧ profZeta D llmax mle t = 0 := by
  unfold oprfZeta profZeta
  simp only
  rw [if_pos (by linarith), max_eq_right (by linarith), Real.sqrt_zero, zero_mul]
  exact ⟨rfl, rfl⟩

/-- A small variance lies outside its own grid: every point is above the estimate, so that every root is positive and no lower limit can
be read off. -/
theorem C275_one_sided (tb se mle : ℝ) (h : 0 < tb * se) (hm : mle < 1 / 100) (n k : ℕ) (hk : k < n) (D : ℝ → ℝ) (llmax : ℝ)
    (hD : Valley D llmax mle) :
    mle < oprfPoint tb se mle true n k ∧ 0 < profZeta D llmax mle (oprfPoint tb se mle true n k) := by
  have h1 : (oprfBounds tb se mle true).1 = 1 / 100 := by
    simp only [oprfBounds, if_true]
    exact max_eq_left (by linarith)
  have h2 : (oprfBounds tb se mle true).2 = mle + tb * se := rfl
  have hp : mle < oprfPoint tb se mle true n k := by
    simp only [oprfPoint, h1, h2, profGrid]
    rcases Nat.lt_or_ge 1 n with hn | hn
    · have hn' : (0 : ℝ) < (n : ℝ) - 1 := by
        have : (1 : ℝ) < n := by exact_mod_cast hn
        linarith
      have hk' : (k : ℝ) ≤ (n : ℝ) - 1 := by
        have : ((k + 1 : ℕ) : ℝ) ≤ n := by exact_mod_cast hk
        push_cast at this; linarith
      have hr0 : 0 ≤ (k : ℝ) / ((n : ℝ) - 1) := by positivity
      have hr1 : (k : ℝ) / ((n : ℝ) - 1) ≤ 1 := (div_le_one hn').2 hk'
      rw [show (k : ℝ) * ((mle + tb * se - 1 / 100) / ((n : ℝ) - 1)) = (k : ℝ) / ((n : ℝ) - 1) * (mle + tb * se - 1 / 100) by ring]
      generalize (k : ℝ) / ((n : ℝ) - 1) = r at hr0 hr1
      generalize tb * se = w at h
      rcases hr1.lt_or_eq with hr | rfl
      · have a1 : 0 < (1 - r) * (1 / 100 - mle) := mul_pos (by linarith) (by linarith)
        have a2 : 0 ≤ r * w := mul_nonneg hr0 h.le
        nlinarith
      · linarith
    · obtain rfl : k = 0 := by omega
      simpa using hm
  refine ⟨hp, ?_⟩
  have := (C250_root D llmax mle hD).1 hp
  rwa [(C250_root D llmax mle hD).2] at this

/-- With a small standard error the grid even runs downwards. -/
theorem C275_bracket_violated : (oprfBounds 3 (1 / 1000) (1 / 200) true).2 < (oprfBounds 3 (1 / 1000) (1 / 200) true).1 ∧
    (1 / 200 : ℝ) < (oprfBounds 3 (1 / 1000) (1 / 200) true).2 := by
  simp only [oprfBounds, if_true]
  rw [max_eq_left (by norm_num)]
  norm_num

theorem flatMap_get {β : Type*} (f : ℕ → ℕ → β) (nT n i k : ℕ) (hi : i < nT) (hk : k < n) :
    ((List.range nT).flatMap fun i => (List.range n).map (f i))[i * n + k]? = some (f i k) := by
  induction nT with
  | zero => omega
  | succ m ih =>
    have hl : ((List.range m).flatMap fun i => (List.range n).map (f i)).length = m * n := by simp [List.length_flatMap]
    rw [List.range_succ, List.flatMap_append]
    rcases Nat.lt_or_ge i m with h | h
    · rw [List.getElem?_append_left (by rw [hl]; nlinarith)]
      exact ih h
    · obtain rfl : i = m := by omega
      rw [List.getElem?_append_right (by rw [hl]; omega), hl]
      simp [hk]

/-- Row `i * n + k` is point `k` of parameter `i`, and `ix` says so. -/
theorem C275_rows (nT n : ℕ) (pts : ℕ → ℕ → ℝ) (i k : ℕ) (hi : i < nT) (hk : k < n) :
    (oprfRows nT n pts)[i * n + k]? = some (i, pts i k) ∧ (oprfIx nT n)[i * n + k]? = some i ∧
      (oprfRows nT n pts).map Prod.fst = oprfIx nT n := by
  have e : oprfIx nT n = (List.range nT).flatMap fun i => (List.range n).map fun _ => i := by
    simp [oprfIx, List.map_const']
  refine ⟨flatMap_get (fun i k => (i, pts i k)) nT n i k hi hk, ?_, ?_⟩
  · rw [e]; exact flatMap_get (fun i _ => i) nT n i k hi hk
  · rw [e]; simp [oprfRows, List.map_flatMap, Function.comp_def]

example : (0 : ℝ) < 3 * (1 / 1000) ∧ (1 / 200 : ℝ) < 1 / 100 := by norm_num

end Verif.Lmm
