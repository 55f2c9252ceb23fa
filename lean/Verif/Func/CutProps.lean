import Verif.Func.Cut
import Mathlib.Tactic.Linarith
import Mathlib.Tactic.Positivity
import Mathlib.Tactic.NormNum
import Mathlib.Tactic.FieldSimp
import Mathlib.Tactic.Ring

namespace Verif.Func
open Finset

/-- A quantile is at most the value at place `i` exactly when its own place is. -/
theorem quantile_le_iff (s : ℕ → ℝ) (N : ℕ) (hs : ∀ a b, a < b → b < N → s a < s b) (q : ℝ) (h0 : 0 ≤ q) (h1 : q ≤ 1) (i : ℕ) (hi : i < N) :
    quantile s N q ≤ s i ↔ q * ((N : ℝ) - 1) ≤ i := by
  have hmono : ∀ a b, a ≤ b → b < N → s a ≤ s b := fun a b hab hb => by
    rcases hab.eq_or_lt with rfl | h
    · exact le_rfl
    · exact (hs a b h hb).le
  have hN : (1 : ℝ) ≤ N := by exact_mod_cast (by omega : 1 ≤ N)
  set h := q * ((N : ℝ) - 1) with hh
  have hpos : 0 ≤ h := mul_nonneg h0 (by linarith)
  have hle : h ≤ (N : ℝ) - 1 := by
    have := mul_le_mul_of_nonneg_right h1 (by linarith : (0 : ℝ) ≤ (N : ℝ) - 1)
    linarith
  have hj1 : ((⌊h⌋₊ : ℕ) : ℝ) ≤ h := Nat.floor_le hpos
  have hj2 : h < (⌊h⌋₊ : ℝ) + 1 := Nat.lt_floor_add_one h
  have hjN : ⌊h⌋₊ < N := by
    have : ((⌊h⌋₊ : ℕ) : ℝ) < N := by linarith
    exact_mod_cast this
  simp only [quantile, ← hh]
  set j := ⌊h⌋₊ with hj
  have hnext : s j ≤ s (min (j + 1) (N - 1)) := hmono _ _ (by omega) (by omega)
  constructor
  · intro hq
    by_contra hlt
    have hij : i ≤ j := by
      rw [hj]; exact Nat.le_floor (by linarith)
    rcases hij.eq_or_lt with e | h'
    · have hf : (j : ℝ) < h := by rw [← e]; linarith
      have hj3 : j + 1 < N := by
        have : (j : ℝ) + 1 < (N : ℝ) := by linarith
        exact_mod_cast this
      have hs' : s j < s (min (j + 1) (N - 1)) := hs _ _ (by omega) (by omega)
      have : 0 < (h - j) * (s (min (j + 1) (N - 1)) - s j) := mul_pos (by linarith) (by linarith)
      rw [e] at hq
      linarith
    · have := hs i j h' hjN
      have : 0 ≤ (h - j) * (s (min (j + 1) (N - 1)) - s j) := mul_nonneg (by linarith) (by linarith)
      linarith
  · intro hq
    have hji : j ≤ i := by
      have : (j : ℝ) ≤ i := by linarith
      exact_mod_cast this
    rcases hji.eq_or_lt with e | h'
    · have : h = j := le_antisymm (by rw [e]; exact hq) hj1
      rw [this, sub_self, zero_mul, add_zero, e]
    · have h2 : s (min (j + 1) (N - 1)) ≤ s i := hmono _ _ (by omega) hi
      have h3 : (h - j) * (s (min (j + 1) (N - 1)) - s j) ≤ 1 * (s (min (j + 1) (N - 1)) - s j) :=
        mul_le_mul_of_nonneg_right (by linarith) (by linarith)
      linarith

/-- **C246** The bin of the value at place `i` of `N` distinct values, cut into `n` bins. -/
theorem C246_place (s : ℕ → ℝ) (N n : ℕ) (hN : 2 ≤ N) (hn : 0 < n) (hs : ∀ a b, a < b → b < N → s a < s b) (i : ℕ) (hi : i < N) :
    quantileCut s N n (s i) = min (n - 1) (n * i / (N - 1)) := by
  have hn' : (0 : ℝ) < n := by exact_mod_cast hn
  have e : (Ico 1 n).filter (fun k : ℕ => quantile s N ((k : ℝ) / n) ≤ s i) = Ico 1 (min (n - 1) (n * i / (N - 1)) + 1) := by
    ext k
    rw [mem_filter, mem_Ico, mem_Ico]
    have hk : k < n → (quantile s N ((k : ℝ) / n) ≤ s i ↔ k ≤ n * i / (N - 1)) := by
      intro hkn
      have hkn' : (k : ℝ) ≤ n := by exact_mod_cast hkn.le
      rw [quantile_le_iff s N hs _ (by positivity) ((div_le_one hn').2 hkn') i hi, Nat.le_div_iff_mul_le (by omega), div_mul_eq_mul_div,
        div_le_iff₀ hn', ← Nat.cast_one, ← Nat.cast_sub (by omega), ← Nat.cast_mul, ← Nat.cast_mul, Nat.cast_le, Nat.mul_comm i n]
    constructor
    · rintro ⟨⟨a, b⟩, c⟩
      have := (hk b).1 c
      omega
    · rintro ⟨a, b⟩
      have hkn : k < n := by omega
      exact ⟨⟨a, hkn⟩, (hk hkn).2 (by omega)⟩
  rw [quantileCut]
  have h2 : ((Ico 1 n).filter fun k : ℕ => quantile s N ((k : ℝ) / n) ≤ s i).card = (Ico 1 (min (n - 1) (n * i / (N - 1)) + 1)).card := by
    rw [← e]
  rw [Nat.card_Ico, Nat.add_sub_cancel] at h2
  convert h2

/-- **C246** When the number of bins divides the number of distinct values, the bins are equally large: the first `m` values go to bin zero, the
next `m` to bin one, and so on. -/
theorem C246_equal (s : ℕ → ℝ) (n m : ℕ) (hn : 0 < n) (hm : 0 < m) (hN : 2 ≤ n * m) (hs : ∀ a b, a < b → b < n * m → s a < s b) (i : ℕ)
    (hi : i < n * m) : quantileCut s (n * m) n (s i) = i / m := by
  rw [C246_place s (n * m) n hN hn hs i hi]
  have hb : i / m < n := Nat.div_lt_of_lt_mul (by rw [Nat.mul_comm m n]; exact hi)
  have hdm := Nat.div_add_mod i m
  have hc := Nat.mod_lt i hm
  set b := i / m
  set c := i % m
  have h1 : b ≤ n * i / (n * m - 1) := by
    rw [Nat.le_div_iff_mul_le (by omega)]
    calc b * (n * m - 1) ≤ b * (n * m) := Nat.mul_le_mul_left _ (by omega)
      _ = n * (m * b) := by ring
      _ ≤ n * i := Nat.mul_le_mul_left _ (by omega)
  rcases (by omega : b = n - 1 ∨ b < n - 1) with e | e
  · omega
  · have h2 : n * i / (n * m - 1) < b + 1 := by
      rw [Nat.div_lt_iff_lt_mul (by omega)]
      have h3 : n * i = n * m * b + n * c := by rw [← hdm]; ring
      have h4 : n * c + n ≤ n * m := by
        have := Nat.mul_le_mul_left n (by omega : c + 1 ≤ m)
        rwa [Nat.mul_add, Nat.mul_one] at this
      have h5 : (b + 1) * (n * m - 1) + (b + 1) = (b + 1) * (n * m) := by
        have : n * m - 1 + 1 = n * m := by omega
        calc (b + 1) * (n * m - 1) + (b + 1) = (b + 1) * (n * m - 1 + 1) := by ring
          _ = _ := by rw [this]
      have h6 : (b + 1) * (n * m) = n * m * b + n * m := by ring
      omega
    omega

example : ∃ s : ℕ → ℝ, ∀ a b, a < b → b < 3 * 2 → s a < s b := ⟨fun i => i, fun a b h _ => Nat.cast_lt.2 h⟩

/-- **C246** In general the sizes of two bins of distinct values differ by at most one. -/
theorem C246_sizes (s : ℕ → ℝ) (N n : ℕ) (hN : 2 ≤ N) (hn : 0 < n) (hs : ∀ a b, a < b → b < N → s a < s b) (b : ℕ) (hb : b < n) :
    (N - 1) / n ≤ ((range N).filter fun i => quantileCut s N n (s i) = b).card ∧
      ((range N).filter fun i => quantileCut s N n (s i) = b).card ≤ (N - 1) / n + 1 := by
  obtain ⟨M, rfl⟩ : ∃ M, N = M + 1 := ⟨N - 1, by omega⟩
  rw [Nat.add_sub_cancel]
  set c : ℕ → ℕ := fun k => (k * M + (n - 1)) / n with hc
  have hci : ∀ k i, c k ≤ i ↔ k * M ≤ n * i := by
    intro k i
    rw [hc]
    constructor
    · intro h
      have := Nat.lt_mul_of_div_lt (Nat.lt_succ_of_le h) hn
      rw [Nat.succ_eq_add_one, Nat.add_mul, Nat.one_mul, Nat.mul_comm i n] at this
      omega
    · intro h
      have : (k * M + (n - 1)) / n < i + 1 := by
        rw [Nat.div_lt_iff_lt_mul hn, Nat.add_mul, Nat.one_mul, Nat.mul_comm i n]; omega
      exact Nat.le_of_lt_succ this
  have hplace : ∀ i ∈ range (M + 1), (quantileCut s (M + 1) n (s i) = b ↔ c b ≤ i ∧ (i < c (b + 1) ∨ b = n - 1)) := by
    intro i hi
    rw [C246_place s (M + 1) n hN hn hs i (mem_range.1 hi), Nat.add_sub_cancel, hci, ← not_le, hci]
    have h1 : b ≤ n * i / M ↔ b * M ≤ n * i := Nat.le_div_iff_mul_le (by omega)
    have h2 : b + 1 ≤ n * i / M ↔ (b + 1) * M ≤ n * i := Nat.le_div_iff_mul_le (by omega)
    rw [← h1, ← h2]
    omega
  have hset : (range (M + 1)).filter (fun i => quantileCut s (M + 1) n (s i) = b) = Ico (c b) (if b = n - 1 then M + 1 else c (b + 1)) := by
    ext i
    rw [mem_filter, mem_Ico]
    constructor
    · rintro ⟨h1, h2⟩
      have := (hplace i h1).1 h2
      have hr := mem_range.1 h1
      split_ifs with e <;> omega
    · rintro ⟨h1, h2⟩
      have hlt : i < M + 1 := by
        split_ifs at h2 with e
        · exact h2
        · have : c (b + 1) ≤ M := (hci _ _).2 (Nat.mul_le_mul_right _ (by omega))
          omega
      refine ⟨mem_range.2 hlt, (hplace i (mem_range.2 hlt)).2 ⟨h1, ?_⟩⟩
      split_ifs at h2 with e
      · exact Or.inr e
      · exact Or.inl h2
  rw [hset, Nat.card_Ico]
  have hdm := Nat.div_add_mod M n
  have hr := Nat.mod_lt M hn
  clear hplace hset
  clear_value c
  generalize M / n = a at *
  generalize M % n = r at *
  have hlow : ∀ k, c k + a ≤ c (k + 1) := by
    intro k
    by_contra hlt
    have h1 : c (k + 1) < c k + a := by omega
    have h2 := (hci (k + 1) (c (k + 1))).1 le_rfl
    have h3 : ¬ k * M ≤ n * (c k - 1) ∨ c k = 0 := by
      by_cases h0 : c k = 0
      · exact Or.inr h0
      · exact Or.inl fun h => by have := (hci k _).2 h; omega
    rcases h3 with h3 | h3
    · have h4 : n * (c (k + 1)) ≤ n * (c k - 1 + a) := Nat.mul_le_mul_left _ (by omega)
      rw [Nat.mul_add] at h4
      rw [Nat.add_mul, Nat.one_mul] at h2
      omega
    · have h4 : n * (c (k + 1) + 1) ≤ n * a := Nat.mul_le_mul_left _ (by omega)
      rw [Nat.mul_add] at h4
      rw [Nat.add_mul, Nat.one_mul] at h2
      omega
  have hupp : ∀ k, c (k + 1) ≤ c k + a + 1 := by
    intro k
    rw [hci, Nat.add_mul, Nat.one_mul, Nat.mul_add, Nat.mul_add, Nat.mul_one]
    have := (hci k (c k)).1 le_rfl
    omega
  split_ifs with e
  · have h1 : c (b + 1) = M := by
      have hb1 : b + 1 = n := by omega
      refine le_antisymm ((hci _ _).2 (by rw [hb1])) ?_
      have := (hci (b + 1) (c (b + 1))).1 le_rfl
      rw [hb1] at this
      rw [hb1]
      exact Nat.le_of_mul_le_mul_left this hn
    have h2 := hlow b
    have h3 : M ≤ c b + a := by
      have h4 := (hci b (c b)).1 le_rfl
      have hb1 : (b + 1) * M = n * M := by rw [show b + 1 = n by omega]
      rw [Nat.add_mul, Nat.one_mul] at hb1
      have h5 : n * M ≤ n * c b + M := by omega
      have h6 : n * M < n * (c b + a + 1) := by rw [Nat.mul_add, Nat.mul_add, Nat.mul_one]; omega
      have := Nat.lt_of_mul_lt_mul_left h6
      omega
    omega
  · have := hlow b
    have := hupp b
    omega

/-- **C246** Greater values never go to a lower bin, whatever the array; the bins are `0, …, n - 1`. -/
theorem C246_order (s : ℕ → ℝ) (N n : ℕ) (hn : 0 < n) (u v : ℝ) (h : u ≤ v) :
    quantileCut s N n u ≤ quantileCut s N n v ∧ quantileCut s N n v < n := by
  classical
  constructor
  · refine card_le_card fun k hk => ?_
    rw [mem_filter] at hk ⊢
    exact ⟨hk.1, hk.2.trans h⟩
  · have : quantileCut s N n v ≤ (Ico 1 n).card := card_le_card (filter_subset _ _)
    rw [Nat.card_Ico] at this
    omega

/-- **C246** With repeated values the bins can be as unequal as possible: of `0, 0, 0, 1` none goes to the first of two bins. -/
theorem C246_ties_violated : ∀ i < 4, quantileCut (fun i => if i = 3 then 1 else 0) 4 2 ((fun i => if i = 3 then 1 else 0) i) = 1 := by
  have hq : quantile (fun i => if i = 3 then 1 else 0) 4 (((1 : ℕ) : ℝ) / ((2 : ℕ) : ℝ)) = 0 := by
    have hf : ⌊(1 : ℝ) / 2 * (4 - 1)⌋₊ = 1 := by
      rw [Nat.floor_eq_iff (by norm_num)]; norm_num
    simp only [quantile]
    norm_num at hf ⊢
    rw [hf]
    norm_num
  intro i hi
  have hI : Ico 1 2 = {1} := rfl
  rw [quantileCut, hI, filter_singleton, hq, if_pos, card_singleton]
  show (0 : ℝ) ≤ if i = 3 then 1 else 0
  split_ifs <;> norm_num

end Verif.Func
