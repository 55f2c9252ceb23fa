import Verif.Lmm.Profile
import Mathlib.Tactic.FieldSimp
import Mathlib.Tactic.Linarith
import Mathlib.Tactic.LinearCombination

namespace Verif.Lmm

/-- Increasing knots. -/
def Knots (y : ℕ → ℝ) (n : ℕ) : Prop := ∀ i j, i < j → j < n → y i < y j

theorem cell_facts (y : ℕ → ℝ) (n : ℕ) (hn : 2 ≤ n) (hy : Knots y n) (z : ℝ) :
    interpCell y n z + 1 < n ∧ (interpCell y n z = 0 ∨ y (interpCell y n z) < z) ∧ (interpCell y n z + 2 = n ∨ z ≤ y (interpCell y n z + 1)) := by
  set S := (Finset.range n).filter fun k => y k < z with hS
  have hdown : ∀ i j, i ≤ j → j ∈ S → i ∈ S := by
    intro i j hij hj
    rw [hS, Finset.mem_filter, Finset.mem_range] at *
    refine ⟨by omega, ?_⟩
    rcases Nat.lt_or_eq_of_le hij with h | h
    · exact (hy i j h hj.1).trans hj.2
    · rw [h]; exact hj.2
  have hr : S = Finset.range S.card := by
    have hsub : ∀ i ∈ S, i < S.card := by
      intro i hi
      have : Finset.range (i + 1) ⊆ S := fun k hk => hdown k i (by have := Finset.mem_range.1 hk; omega) hi
      have := Finset.card_le_card this
      rw [Finset.card_range] at this
      omega
    exact Finset.eq_of_subset_of_card_le (fun i hi => Finset.mem_range.2 (hsub i hi)) (by rw [Finset.card_range])
  have hc : S.card ≤ n := by
    have := Finset.card_filter_le (Finset.range n) fun k => y k < z
    rwa [Finset.card_range] at this
  have hlt : ∀ k, k < S.card → y k < z := by
    intro k hk
    have : k ∈ S := by rw [hr]; exact Finset.mem_range.2 hk
    exact (Finset.mem_filter.1 this).2
  have hge : ∀ k, k < n → S.card ≤ k → z ≤ y k := by
    intro k hk hck
    by_contra h
    have : k ∈ S := Finset.mem_filter.2 ⟨Finset.mem_range.2 hk, not_le.1 h⟩
    rw [hr] at this
    have := Finset.mem_range.1 this
    omega
  have e : interpCell y n z = min (max S.card 1) (n - 1) - 1 := rfl
  rw [e]
  refine ⟨by omega, ?_, ?_⟩
  · by_cases h : S.card ≤ 1
    · left; omega
    · right; exact hlt _ (by omega)
  · by_cases h : n - 1 ≤ S.card
    · left; omega
    · right; exact hge _ (by omega) (by omega)

theorem cell_mono (y : ℕ → ℝ) (n : ℕ) {z z' : ℝ} (h : z ≤ z') : interpCell y n z ≤ interpCell y n z' := by
  have : ((Finset.range n).filter fun k => y k < z).card ≤ ((Finset.range n).filter fun k => y k < z').card :=
    Finset.card_le_card fun k hk => by
      rw [Finset.mem_filter] at *
      exact ⟨hk.1, hk.2.trans_le h⟩
  unfold interpCell
  omega

/-- **C250** The interpolation goes through the knots. -/
theorem C250_knots (y x : ℕ → ℝ) (n : ℕ) (hn : 2 ≤ n) (hy : Knots y n) (k : ℕ) (hk : k < n) : interpLin y x n (y k) = x k := by
  obtain ⟨h1, h2, h3⟩ := cell_facts y n hn hy (y k)
  set j := interpCell y n (y k) with hj
  have e : interpLin y x n (y k) = (x (j + 1) - x j) / (y (j + 1) - y j) * (y k - y j) + x j := rfl
  have hd : y (j + 1) - y j ≠ 0 := ne_of_gt (sub_pos.2 (hy j (j + 1) (by omega) h1))
  have hjk : j ≤ k := by
    rcases h2 with h | h
    · omega
    · by_contra hh
      exact absurd (hy k j (by omega) (by omega)) (not_lt.2 h.le)
  have hkj : k ≤ j + 1 := by
    rcases h3 with h | h
    · omega
    · by_contra hh
      exact absurd (hy (j + 1) k (by omega) hk) (not_lt.2 h)
  rw [e]
  rcases Nat.lt_or_eq_of_le hjk with h | h
  · have : k = j + 1 := by omega
    rw [this, div_mul_cancel₀ _ hd]; ring
  · rw [← h]; ring

/-- **C250** It stays between the two knots of its cell. -/
theorem C250_bracket (y x : ℕ → ℝ) (n : ℕ) (hn : 2 ≤ n) (hy : Knots y n) (hx : Knots x n) (z : ℝ) (h0 : y 0 < z) (h1 : z ≤ y (n - 1)) :
    ∃ j, j + 1 < n ∧ y j < z ∧ z ≤ y (j + 1) ∧ x j < interpLin y x n z ∧ interpLin y x n z ≤ x (j + 1) := by
  obtain ⟨c1, c2, c3⟩ := cell_facts y n hn hy z
  set j := interpCell y n z with hj
  have e : interpLin y x n z = (x (j + 1) - x j) / (y (j + 1) - y j) * (z - y j) + x j := rfl
  have a1 : y j < z := by
    rcases c2 with h | h
    · rw [h]; exact h0
    · exact h
  have a2 : z ≤ y (j + 1) := by
    rcases c3 with h | h
    · rw [show j + 1 = n - 1 by omega]; exact h1
    · exact h
  have hdy : 0 < y (j + 1) - y j := sub_pos.2 (hy j (j + 1) (by omega) c1)
  have hdx : 0 < x (j + 1) - x j := sub_pos.2 (hx j (j + 1) (by omega) c1)
  refine ⟨j, c1, a1, a2, ?_, ?_⟩
  · rw [e]
    have := mul_pos (div_pos hdx hdy) (sub_pos.2 a1)
    linarith
  · rw [e]
    have : (x (j + 1) - x j) / (y (j + 1) - y j) * (z - y j) ≤ (x (j + 1) - x j) / (y (j + 1) - y j) * (y (j + 1) - y j) :=
      mul_le_mul_of_nonneg_left (by linarith) (div_pos hdx hdy).le
    rw [div_mul_cancel₀ _ hdy.ne'] at this
    linarith

/-- **C250** It is strictly increasing, outside the knots too. -/
theorem C250_increasing (y x : ℕ → ℝ) (n : ℕ) (hn : 2 ≤ n) (hy : Knots y n) (hx : Knots x n) : StrictMono (interpLin y x n) := by
  intro z z' h
  obtain ⟨c1, c2, c3⟩ := cell_facts y n hn hy z
  obtain ⟨d1, d2, d3⟩ := cell_facts y n hn hy z'
  have hm := cell_mono y n h.le
  set j := interpCell y n z with hj
  set l := interpCell y n z' with hl
  have e : interpLin y x n z = (x (j + 1) - x j) / (y (j + 1) - y j) * (z - y j) + x j := rfl
  have e' : interpLin y x n z' = (x (l + 1) - x l) / (y (l + 1) - y l) * (z' - y l) + x l := rfl
  have hs : ∀ i, i + 1 < n → 0 < (x (i + 1) - x i) / (y (i + 1) - y i) := fun i hi =>
    div_pos (sub_pos.2 (hx i (i + 1) (by omega) hi)) (sub_pos.2 (hy i (i + 1) (by omega) hi))
  rcases Nat.lt_or_eq_of_le hm with hlt | heq
  · have a : z ≤ y (j + 1) := by
      rcases c3 with h | h
      · omega
      · exact h
    have b : y l < z' := by
      rcases d2 with h | h
      · omega
      · exact h
    have hdy : 0 < y (j + 1) - y j := sub_pos.2 (hy j (j + 1) (by omega) c1)
    have u1 : interpLin y x n z ≤ x (j + 1) := by
      have : (x (j + 1) - x j) / (y (j + 1) - y j) * (z - y j) ≤ (x (j + 1) - x j) / (y (j + 1) - y j) * (y (j + 1) - y j) :=
        mul_le_mul_of_nonneg_left (by linarith) (hs j c1).le
      rw [div_mul_cancel₀ _ hdy.ne'] at this
      rw [e]; linarith
    have u2 : x (j + 1) ≤ x l := by
      rcases Nat.lt_or_eq_of_le (show j + 1 ≤ l from hlt) with h | h
      · exact (hx _ _ h (by omega)).le
      · rw [h]
    have u3 : x l < interpLin y x n z' := by
      have := mul_pos (hs l d1) (sub_pos.2 b)
      rw [e']; linarith
    linarith
  · rw [e, e', ← heq]
    have := mul_lt_mul_of_pos_left (sub_lt_sub_right h (y j)) (hs j c1)
    linarith

/-- The function is smallest at the estimate, falling before it and rising after it. -/
def Valley (D : ℝ → ℝ) (llmax mle : ℝ) : Prop :=
  D mle = llmax ∧ (∀ s t, s < t → t ≤ mle → D t < D s) ∧ ∀ s t, mle ≤ s → s < t → D s < D t

/-- **C250** The signed root is then strictly increasing, and zero at the estimate. -/
theorem C250_root (D : ℝ → ℝ) (llmax mle : ℝ) (h : Valley D llmax mle) : StrictMono (profZeta D llmax mle) ∧ profZeta D llmax mle mle = 0 := by
  obtain ⟨h0, h1, h2⟩ := h
  have z0 : profZeta D llmax mle mle = 0 := by rw [profZeta, sub_self, Real.sign_zero, mul_zero]
  have zp : ∀ t, mle < t → profZeta D llmax mle t = √(D t - llmax) ∧ 0 < D t - llmax := by
    intro t ht
    have := h2 mle t le_rfl ht
    rw [profZeta, Real.sign_of_pos (sub_pos.2 ht), mul_one, max_eq_left (by linarith)]
    exact ⟨rfl, by linarith⟩
  have zn : ∀ t, t < mle → profZeta D llmax mle t = -√(D t - llmax) ∧ 0 < D t - llmax := by
    intro t ht
    have := h1 t mle ht le_rfl
    rw [profZeta, Real.sign_of_neg (sub_neg.2 ht), mul_neg, mul_one, max_eq_left (by linarith)]
    exact ⟨rfl, by linarith⟩
  refine ⟨fun s t hst => ?_, z0⟩
  rcases lt_trichotomy t mle with ht | ht | ht
  · rw [(zn t ht).1, (zn s (hst.trans ht)).1]
    exact neg_lt_neg (Real.sqrt_lt_sqrt (zn t ht).2.le (sub_lt_sub_right (h1 s t hst ht.le) _))
  · rw [ht] at hst ⊢
    rw [z0, (zn s hst).1]
    exact neg_lt_zero.2 (Real.sqrt_pos.2 (zn s hst).2)
  · have p := Real.sqrt_pos.2 (zp t ht).2
    rw [(zp t ht).1]
    rcases lt_trichotomy s mle with hs | hs | hs
    · rw [(zn s hs).1]
      have := Real.sqrt_nonneg (D s - llmax)
      linarith
    · rw [hs, z0]; exact p
    · rw [(zp s hs).1]
      exact Real.sqrt_lt_sqrt (zp s hs).2.le (sub_lt_sub_right (h2 s t hs.le hst) _)

/-- **C250** The grid increases from its lower to its upper end. -/
theorem C250_grid (lb ub : ℝ) (h : lb < ub) (n : ℕ) (hn : 2 ≤ n) : Knots (profGrid lb ub n) n ∧ profGrid lb ub n 0 = lb ∧ profGrid lb ub n (n - 1) = ub := by
  have hn' : (0 : ℝ) < (n : ℝ) - 1 := by
    have : (2 : ℝ) ≤ n := by exact_mod_cast hn
    linarith
  refine ⟨fun i j hij _ => ?_, by simp [profGrid], ?_⟩
  · have hij' : (i : ℝ) < j := by exact_mod_cast hij
    have := mul_lt_mul_of_pos_right hij' (div_pos (sub_pos.2 h) hn')
    rw [profGrid, profGrid]; linarith
  · rw [profGrid, Nat.cast_sub (by omega), Nat.cast_one, mul_div_cancel₀ _ hn'.ne']; ring

/-- The estimate is inside the grid. -/
theorem profBounds_lt (tb se mle : ℝ) (htb : 0 < tb) (hm : 1 / 1000000 < mle) (b : Bool) : (profBounds tb se mle b).1 < mle ∧ mle < (profBounds tb se mle b).2 := by
  have hw : 0 < tb * max se (1 / 1000) := mul_pos htb (lt_max_of_lt_right (by norm_num))
  unfold profBounds
  simp only
  refine ⟨?_, by linarith⟩
  split_ifs
  · exact max_lt (by linarith) hm
  · linarith

/-- **C250** With an odd number of points the estimate is the middle knot, unless the grid is cut at zero. -/
theorem C250_middle (tb se mle : ℝ) (b : Bool) (m : ℕ) (hm : 1 ≤ m) (hcut : b = true → 1 / 1000000 ≤ mle - tb * max se (1 / 1000)) :
    profGrid (profBounds tb se mle b).1 (profBounds tb se mle b).2 (2 * m + 1) m = mle := by
  have hm' : (m : ℝ) ≠ 0 := by exact_mod_cast (by omega : m ≠ 0)
  have h1 : (profBounds tb se mle b).1 = mle - tb * max se (1 / 1000) := by
    unfold profBounds
    simp only
    split_ifs with h
    · exact max_eq_left (hcut h)
    · rfl
  have h2 : (profBounds tb se mle b).2 = mle + tb * max se (1 / 1000) := rfl
  rw [profGrid, h1, h2]
  push_cast
  field_simp
  ring

/-- **C250** The interval of a variance has its ends in order, and contains the estimate when that is a knot. -/
theorem C250_interval (D : ℝ → ℝ) (llmax tb se mle : ℝ) (h : Valley D llmax mle) (htb : 0 < tb) (hm : 1 / 1000000 < mle) (n : ℕ) (hn : 2 ≤ n) (z : ℝ) (hz : 0 < z) :
    (varInterval D llmax tb se mle n z).1 < (varInterval D llmax tb se mle n z).2 ∧
      ∀ k < n, profGrid (profBounds tb se mle true).1 (profBounds tb se mle true).2 n k = mle →
        (varInterval D llmax tb se mle n z).1 < mle ∧ mle < (varInterval D llmax tb se mle n z).2 := by
  obtain ⟨b1, b2⟩ := profBounds_lt tb se mle htb hm true
  obtain ⟨g1, -, -⟩ := C250_grid _ _ (b1.trans b2) n hn
  obtain ⟨r1, r2⟩ := C250_root D llmax mle h
  set x := profGrid (profBounds tb se mle true).1 (profBounds tb se mle true).2 n with hx
  have hy : Knots (fun k => profZeta D llmax mle (x k)) n := fun i j hij hj => r1 (g1 i j hij hj)
  have mono := C250_increasing _ x n hn hy g1
  refine ⟨mono (by linarith : -z < z), fun k hk hkm => ?_⟩
  have e := C250_knots _ x n hn hy k hk
  rw [hkm, r2] at e
  constructor
  · have := mono (by linarith : -z < 0)
    rw [e] at this; exact this
  · have := mono hz
    rw [e] at this; exact this

/-- **C250** Between the ends of the grid each limit lies in the cell in which the signed root crosses the quantile, so it is within one step of the
exact limit. -/
theorem C250_accuracy (D : ℝ → ℝ) (llmax tb se mle : ℝ) (h : Valley D llmax mle) (htb : 0 < tb) (hm : 1 / 1000000 < mle) (n : ℕ) (hn : 2 ≤ n) (z t : ℝ)
    (ht : profZeta D llmax mle t = z) (h0 : (profBounds tb se mle true).1 < t) (h1 : t ≤ (profBounds tb se mle true).2) :
    |(varInterval D llmax tb se mle n z).2 - t| ≤ ((profBounds tb se mle true).2 - (profBounds tb se mle true).1) / ((n : ℝ) - 1) := by
  obtain ⟨b1, b2⟩ := profBounds_lt tb se mle htb hm true
  obtain ⟨g1, g2, g3⟩ := C250_grid _ _ (b1.trans b2) n hn
  obtain ⟨r1, -⟩ := C250_root D llmax mle h
  set lb := (profBounds tb se mle true).1 with hlb
  set ub := (profBounds tb se mle true).2 with hub
  set x := profGrid lb ub n with hx
  have hy : Knots (fun k => profZeta D llmax mle (x k)) n := fun i j hij hj => r1 (g1 i j hij hj)
  obtain ⟨j, j1, j2, j3, j4, j5⟩ := C250_bracket _ x n hn hy g1 z (by rw [g2, ← ht]; exact r1 h0) (by rw [g3, ← ht]; exact r1.monotone h1)
  rw [← ht] at j2 j3
  have k1 := r1.lt_iff_lt.1 j2
  have k2 := r1.le_iff_le.1 j3
  have step : x (j + 1) - x j = (ub - lb) / ((n : ℝ) - 1) := by
    rw [hx, profGrid, profGrid]; push_cast; ring
  have e : (varInterval D llmax tb se mle n z).2 = interpLin (fun k => profZeta D llmax mle (x k)) x n z := rfl
  rw [e, ← step, abs_le]
  constructor <;> linarith

/-- **C250** For a quadratic profile the interval is the Wald interval, whatever the grid. -/
theorem C250_wald (y x : ℕ → ℝ) (n : ℕ) (hn : 2 ≤ n) (hy : Knots y n) (mle s : ℝ) (h : ∀ k < n, x k = mle + s * y k) (z : ℝ) :
    profConfint y x n z = (mle - s * z, mle + s * z) := by
  have key : ∀ w, interpLin y x n w = mle + s * w := by
    intro w
    obtain ⟨c1, -, -⟩ := cell_facts y n hn hy w
    set j := interpCell y n w with hj
    have e : interpLin y x n w = (x (j + 1) - x j) / (y (j + 1) - y j) * (w - y j) + x j := rfl
    have hd : y (j + 1) - y j ≠ 0 := ne_of_gt (sub_pos.2 (hy j (j + 1) (by omega) c1))
    rw [e, h _ c1, h j (by omega)]
    field_simp
    ring
  rw [profConfint, key, key]
  exact Prod.ext (by simp only; ring) rfl

/-- The example: the objective is `(t - 1)²` with the estimate one. -/
theorem valley_example : Valley (fun t => (t - 1) ^ 2) 0 1 := by
  refine ⟨by norm_num, fun s t h1 h2 => ?_, fun s t h1 h2 => ?_⟩
  · simp only; nlinarith
  · simp only; nlinarith

/-- **C250** The lower limit of a variance can be negative: beyond the last point of the grid, which is cut at a positive value, the interpolation
is continued as a line. -/
theorem C250_negative_violated (n : ℕ) (hn : 2 ≤ n) : (varInterval (fun t => (t - 1) ^ 2) 0 3 1 1 n 2).1 = -1 := by
  have hz : ∀ t, profZeta (fun t => (t - 1) ^ 2) 0 1 t = t - 1 := by
    intro t
    rw [profZeta, sub_zero, max_eq_left (sq_nonneg _), Real.sqrt_sq_eq_abs]
    rcases lt_trichotomy (t - 1) 0 with h | h | h
    · rw [abs_of_neg h, Real.sign_of_neg h]; ring
    · rw [h]; simp
    · rw [abs_of_pos h, Real.sign_of_pos h]; ring
  obtain ⟨b1, b2⟩ := profBounds_lt 3 1 1 (by norm_num) (by norm_num) true
  obtain ⟨g1, -, -⟩ := C250_grid _ _ (b1.trans b2) n hn
  obtain ⟨r1, -⟩ := C250_root _ _ _ valley_example
  have hy : Knots (fun k => profZeta (fun t => (t - 1) ^ 2) 0 1 (profGrid (profBounds 3 1 1 true).1 (profBounds 3 1 1 true).2 n k)) n :=
    fun i j hij hj => r1 (g1 i j hij hj)
  have := C250_wald _ (profGrid (profBounds 3 1 1 true).1 (profBounds 3 1 1 true).2 n) n hn hy 1 1 (fun k _ => by simp only [hz]; ring) 2
  have e : varInterval (fun t => (t - 1) ^ 2) 0 3 1 1 n 2 = _ := this
  rw [e]
  norm_num

end Verif.Lmm
