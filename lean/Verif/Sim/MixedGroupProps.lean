import Verif.Sim.Mixed
import Mathlib.Tactic

/-!
# C232: groupings of simulated mixed models are balanced, crossed and nested as asked for
-/

namespace Verif.Sim

/-- Observations of a level. -/
def members (nObs : ℕ) (f : ℕ → ℕ) (l : ℕ) : Finset ℕ := (Finset.range nObs).filter fun i => f i = l

theorem grouping_repeat {n a : ℕ} {f : ℕ → ℕ} (h : grouping n a "repeat" = some f) : 0 < a ∧ n = a * (n / a) ∧ ∀ i, f i = i / (n / a) := by
  unfold grouping at h
  by_cases h0 : a = 0
  · rw [if_pos h0] at h; cases h
  by_cases h1 : n % a ≠ 0
  · rw [if_neg h0, if_pos h1] at h; cases h
  rw [if_neg h0, if_neg h1] at h
  simp only [if_true, Option.some.injEq] at h
  exact ⟨Nat.pos_of_ne_zero h0, (Nat.mul_div_cancel' (Nat.dvd_of_mod_eq_zero (not_not.1 h1))).symm, fun i => by rw [← h]⟩

theorem grouping_tile {n b : ℕ} {f : ℕ → ℕ} (h : grouping n b "tile" = some f) : 0 < b ∧ n = b * (n / b) ∧ ∀ i, f i = i % b := by
  unfold grouping at h
  by_cases h0 : b = 0
  · rw [if_pos h0] at h; cases h
  by_cases h1 : n % b ≠ 0
  · rw [if_neg h0, if_pos h1] at h; cases h
  rw [if_neg h0, if_neg h1] at h
  simp only [show ("tile" = "repeat") = False by decide, if_false, if_true, Option.some.injEq] at h
  exact ⟨Nat.pos_of_ne_zero h0, (Nat.mul_div_cancel' (Nat.dvd_of_mod_eq_zero (not_not.1 h1))).symm, fun i => by rw [← h]⟩

theorem card_block {m : ℕ} (hm : 0 < m) {k c : ℕ} (hc : c < k) : ((Finset.range (k * m)).filter fun r => r / m = c).card = m := by
  conv_rhs => rw [← Finset.card_range m]
  refine (Finset.card_nbij' (fun r => r - c * m) (fun s => c * m + s) ?_ ?_ ?_ ?_)
  · intro r hr
    simp only [Finset.coe_filter, Finset.mem_range, Set.mem_ofPred_eq, Nat.div_eq_iff hm] at hr
    simp only [Finset.coe_range, Set.mem_Iio]
    have := hr.2; omega
  · intro s hs
    simp only [Finset.coe_range, Set.mem_Iio] at hs
    simp only [Finset.coe_filter, Finset.mem_range, Set.mem_ofPred_eq]
    refine ⟨?_, by rw [mul_comm c, Nat.mul_add_div hm, Nat.div_eq_of_lt hs, add_zero]⟩
    calc c * m + s < c * m + m := by omega
      _ = (c + 1) * m := by ring
      _ ≤ k * m := Nat.mul_le_mul_right _ hc
  · intro r hr
    simp only [Finset.coe_filter, Finset.mem_range, Set.mem_ofPred_eq, Nat.div_eq_iff hm] at hr
    have := hr.2; simp only; omega
  · intro s _; simp

/-- **C232** a repeated grouping has the levels asked for, each with the same number of observations. -/
theorem C232_repeat {n a : ℕ} {f : ℕ → ℕ} (h : grouping n a "repeat" = some f) {l : ℕ} (hl : l < a) : (members n f l).card = n / a := by
  obtain ⟨ha, hn, hf⟩ := grouping_repeat h
  simp only [members, hf]
  rcases Nat.eq_zero_or_pos (n / a) with h0 | h0
  · have : n = 0 := by rw [hn, h0, mul_zero]
    subst this; simp
  · have := card_block h0 hl
    rwa [← hn] at this

theorem card_mod {b c t : ℕ} (ht : t < b) (o : ℕ) (ho : b ∣ o) :
    ((Finset.range (b * c)).filter fun r => (o + r) % b = t).card = c := by
  conv_rhs => rw [← Finset.card_range c]
  have hb : 0 < b := by omega
  have e : ∀ r, (o + r) % b = r % b := fun r => by
    obtain ⟨d, rfl⟩ := ho; simp [Nat.mul_add_mod]
  simp only [e]
  refine (Finset.card_nbij' (fun r => r / b) (fun s => b * s + t) ?_ ?_ ?_ ?_)
  · intro r hr
    simp only [Finset.coe_filter, Finset.mem_range, Set.mem_ofPred_eq] at hr
    simp only [Finset.coe_range, Set.mem_Iio]
    exact Nat.div_lt_of_lt_mul hr.1
  · intro s hs
    simp only [Finset.coe_range, Set.mem_Iio] at hs
    simp only [Finset.coe_filter, Finset.mem_range, Set.mem_ofPred_eq]
    refine ⟨?_, by rw [Nat.mul_add_mod, Nat.mod_eq_of_lt ht]⟩
    calc b * s + t < b * s + b := by omega
      _ = b * (s + 1) := by ring
      _ ≤ b * c := Nat.mul_le_mul_left _ hs
  · intro r hr
    simp only [Finset.coe_filter, Finset.mem_range, Set.mem_ofPred_eq] at hr
    have := Nat.div_add_mod r b
    simp only; omega
  · intro s _
    simp only
    rw [Nat.mul_add_div hb, Nat.div_eq_of_lt ht, add_zero]

/-- **C232** so has a tiled one. -/
theorem C232_tile {n b : ℕ} {f : ℕ → ℕ} (h : grouping n b "tile" = some f) {t : ℕ} (ht : t < b) : (members n f t).card = n / b := by
  obtain ⟨hb, hn, hf⟩ := grouping_tile h
  simp only [members, hf]
  have := card_mod (c := n / b) ht 0 (dvd_zero b)
  rw [← hn] at this
  simpa using this

/-- **C232** it raises exactly when the observations cannot be shared out evenly, or the pattern is unknown. -/
theorem C232_raises (n a : ℕ) (c : String) : grouping n a c = none ↔ a = 0 ∨ ¬a ∣ n ∨ (c ≠ "repeat" ∧ c ≠ "tile") := by
  unfold grouping
  rw [Nat.dvd_iff_mod_eq_zero]
  by_cases h0 : a = 0
  · simp [h0]
  by_cases h1 : n % a = 0
  · by_cases h2 : c = "repeat"
    · simp [h0, h1, h2]
    · by_cases h3 : c = "tile" <;> simp [h0, h1, h2, h3]
  · simp [h0, h1]

/-- Every pair of levels is observed. -/
def Crossed (n a b : ℕ) (f g : ℕ → ℕ) : Prop := ∀ l < a, ∀ t < b, ∃ i < n, f i = l ∧ g i = t

/-- **C232** a repeated and a tiled grouping are crossed exactly when a level of the first is long enough to hold all levels of the second. -/
theorem C232_crossed_iff {n a b : ℕ} {f g : ℕ → ℕ} (hf : grouping n a "repeat" = some f) (hg : grouping n b "tile" = some g) :
    Crossed n a b f g ↔ b ≤ n / a := by
  obtain ⟨ha, hn, hf⟩ := grouping_repeat hf
  obtain ⟨hb, -, hg⟩ := grouping_tile hg
  constructor
  · intro h
    obtain ⟨i, hi, h1, h2⟩ := h 0 ha (b - 1) (by omega)
    rw [hf] at h1; rw [hg] at h2
    have hm : 0 < n / a := by
      rcases Nat.eq_zero_or_pos (n / a) with h0 | h0
      · rw [h0, mul_zero] at hn; omega
      · exact h0
    have h3 : i < n / a := by
      rcases Nat.div_eq_zero_iff.1 h1 with h | h
      · omega
      · exact h
    have := Nat.mod_le i b
    omega
  · intro hb' l hl t ht
    have hm : 0 < n / a := by omega
    set m := n / a
    -- the first observation of the block from which level `t` is reached
    let r := (t + (b - (m * l) % b)) % b
    have hr : r < b := Nat.mod_lt _ hb
    have hx : (m * l) % b < b := Nat.mod_lt _ hb
    refine ⟨m * l + r, ?_, ?_, ?_⟩
    · calc m * l + r < m * l + m := by omega
        _ = m * (l + 1) := by ring
        _ ≤ m * a := Nat.mul_le_mul_left _ hl
        _ = n := by rw [mul_comm]; exact hn.symm
    · rw [hf, Nat.mul_add_div hm, Nat.div_eq_of_lt (by omega), add_zero]
    · rw [hg, Nat.add_mod]
      simp only [r, Nat.mod_mod]
      rw [← Nat.add_mod, Nat.add_mod, Nat.add_mod_mod, ← Nat.mod_add_mod, Nat.mod_mod]
      rw [show (m * l) % b + (t + (b - (m * l) % b)) = t + b by omega, Nat.add_mod_right, Nat.mod_eq_of_lt ht]

/-- **C232** not every such pair is crossed: four observations, two levels by four. -/
theorem C232_crossed_violated : ∃ f g : ℕ → ℕ, grouping 4 2 "repeat" = some f ∧ grouping 4 4 "tile" = some g ∧ ¬Crossed 4 2 4 f g := by
  refine ⟨fun i => i / 2, fun i => i % 4, rfl, rfl, ?_⟩
  rw [C232_crossed_iff (n := 4) (a := 2) (b := 4) rfl rfl]; decide

/-- **C232** and balanced when the number of levels of the second divides the length. -/
theorem C232_balanced_partial {n a b : ℕ} {f g : ℕ → ℕ} (hf : grouping n a "repeat" = some f) (hg : grouping n b "tile" = some g)
    (hd : b ∣ n / a) {l t : ℕ} (hl : l < a) (ht : t < b) :
    ((Finset.range n).filter fun i => f i = l ∧ g i = t).card = n / a / b := by
  obtain ⟨ha, hn, hf⟩ := grouping_repeat hf
  obtain ⟨hb, -, hg⟩ := grouping_tile hg
  simp only [hf, hg]
  set m := n / a
  rcases Nat.eq_zero_or_pos m with h0 | hm
  · have : n = 0 := by rw [hn, h0, mul_zero]
    subst this; simp [h0]
  have hmb : b * (m / b) = m := Nat.mul_div_cancel' hd
  have := card_mod (c := m / b) ht (m * l) (hd.mul_right l)
  rw [hmb] at this
  rw [← this]
  refine Finset.card_nbij' (fun i => i - m * l) (fun r => m * l + r) ?_ ?_ ?_ ?_
  · intro i hi
    simp only [Finset.coe_filter, Finset.mem_range, Set.mem_ofPred_eq, Nat.div_eq_iff hm] at hi ⊢
    have h1 := hi.2.1; rw [mul_comm l] at h1
    have e : m * l + (i - m * l) = i := by omega
    exact ⟨by omega, by rw [e]; exact hi.2.2⟩
  · intro r hr
    simp only [Finset.coe_filter, Finset.mem_range, Set.mem_ofPred_eq] at hr ⊢
    refine ⟨?_, by rw [Nat.mul_add_div hm, Nat.div_eq_of_lt hr.1, add_zero], hr.2⟩
    calc m * l + r < m * l + m := by omega
      _ = m * (l + 1) := by ring
      _ ≤ m * a := Nat.mul_le_mul_left _ hl
      _ = n := by rw [mul_comm]; exact hn.symm
  · intro i hi
    simp only [Finset.coe_filter, Finset.mem_range, Set.mem_ofPred_eq, Nat.div_eq_iff hm] at hi
    have h1 := hi.2.1; rw [mul_comm l] at h1
    simp only; omega
  · intro r _; simp

example : grouping 12 2 "repeat" = some (fun i => i / 6) ∧ grouping 12 3 "tile" = some (fun i => i % 3) ∧ 3 ∣ 12 / 2 := ⟨rfl, rfl, by decide⟩

/-- **C232** two default groupings of the older simulator are never crossed: of equal sizes they are the same factor. -/
theorem C232_old_confounded_violated {m : ℕ} (hm : 0 < m) : ¬Crossed (2 * m) 2 2 (groupingOld m) (groupingOld m) := by
  intro h
  obtain ⟨i, -, h1, h2⟩ := h 0 (by omega) 1 (by omega)
  rw [h1] at h2; exact absurd h2 (by decide)

/-! ## Nested factors -/

theorem nested_some {n k : ℕ} {par f : ℕ → ℕ} (h : nested n k par = some f) :
    0 < n ∧ 0 < k ∧ (∀ i < n, k ∣ cnt n par (par i)) ∧ ∀ i, f i = par i * k + rank par i / (cnt n par (par i) / k) := by
  unfold nested at h
  by_cases h0 : n = 0 ∨ k = 0
  · rw [if_pos h0] at h; cases h
  rw [if_neg h0] at h
  simp only at h
  split_ifs at h with h1
  simp only [Option.some.injEq] at h
  push Not at h0
  refine ⟨by omega, by omega, fun i hi => Nat.dvd_of_mod_eq_zero (h1 _ ?_), fun i => by rw [← h]⟩
  have := Finset.le_sup (f := par) (Finset.mem_range.2 hi)
  exact Finset.mem_range.2 (by omega)

theorem rank_lt {n : ℕ} {par : ℕ → ℕ} {i : ℕ} (hi : i < n) : rank par i < cnt n par (par i) :=
  Nat.count_strict_mono (p := fun j => par j = par i) rfl hi

/-- The share of a child level. -/
theorem rank_div {n k : ℕ} {par : ℕ → ℕ} {i : ℕ} (hi : i < n) (hd : k ∣ cnt n par (par i)) :
    rank par i / (cnt n par (par i) / k) < k := by
  have := rank_lt (par := par) hi
  refine Nat.div_lt_of_lt_mul ?_
  rwa [Nat.div_mul_cancel hd]

/-- **C232** a nested factor determines its parent: level `c` lies in level `c / k`. -/
theorem C232_nested {n k : ℕ} {par f : ℕ → ℕ} (h : nested n k par = some f) {i : ℕ} (hi : i < n) : f i / k = par i := by
  obtain ⟨-, hk, hd, hf⟩ := nested_some h
  rw [hf, mul_comm, Nat.mul_add_div hk, Nat.div_eq_of_lt (rank_div hi (hd i hi)), add_zero]

/-- **C232** every parent level which occurs has exactly `k` child levels, all with the same number of observations. -/
theorem C232_nested_balanced {n k : ℕ} {par f : ℕ → ℕ} (h : nested n k par = some f) {p c : ℕ} (hp : ∃ i < n, par i = p) (hc : c < k) :
    (members n f (p * k + c)).card = cnt n par p / k := by
  obtain ⟨-, hk, hd, hf⟩ := nested_some h
  obtain ⟨i0, hi0, hpi⟩ := hp
  have hdp : k ∣ cnt n par p := by rw [← hpi]; exact hd i0 hi0
  have hpos : 0 < cnt n par p := by rw [← hpi]; exact lt_of_le_of_lt (Nat.zero_le _) (rank_lt hi0)
  set m := cnt n par p / k with hm
  have hkm : k * m = cnt n par p := Nat.mul_div_cancel' hdp
  have hm0 : 0 < m := Nat.pos_of_ne_zero fun h => by rw [h] at hkm; omega
  -- the members are the observations of the parent with rank in the block
  have e1 : members n f (p * k + c) = (members n par p).filter fun i => rank par i / m = c := by
    ext i
    simp only [members, Finset.mem_filter, Finset.mem_range]
    constructor
    · rintro ⟨hi, h2⟩
      have h3 := C232_nested h hi
      have h4 : (p * k + c) / k = p := by rw [mul_comm, Nat.mul_add_div hk, Nat.div_eq_of_lt hc, add_zero]
      have h5 : par i = p := by rw [← h3, h2, h4]
      refine ⟨⟨hi, h5⟩, ?_⟩
      rw [hf, h5] at h2
      exact Nat.add_left_cancel h2
    · rintro ⟨⟨hi, h5⟩, h2⟩
      refine ⟨hi, ?_⟩
      rw [hf, h5, ← hm, h2]
  -- ranks run through an initial segment once
  have inj : Set.InjOn (rank par) (members n par p : Set ℕ) := by
    intro i hi j hj hij
    simp only [members, Finset.coe_filter, Finset.mem_range, Set.mem_ofPred_eq] at hi hj
    simp only [rank, hi.2, hj.2] at hij
    exact Nat.count_injective (p := fun j => par j = p) hi.2 hj.2 hij
  have himg : (members n par p).image (rank par) = Finset.range (k * m) := by
    refine Finset.eq_of_subset_of_card_le ?_ ?_
    · intro r hr
      obtain ⟨i, hi, rfl⟩ := Finset.mem_image.1 hr
      simp only [members, Finset.mem_filter, Finset.mem_range] at hi
      rw [Finset.mem_range, hkm, ← hi.2]
      exact rank_lt hi.1
    · rw [Finset.card_image_of_injOn inj, Finset.card_range, hkm, cnt, Nat.count_eq_card_filter_range]
      exact le_rfl
  have hb := card_block hm0 hc
  rw [← himg, Finset.filter_image,
    Finset.card_image_of_injOn (inj.mono (by intro x hx; exact (Finset.mem_filter.1 hx).1))] at hb
  rw [e1, hb]

/-- **C232** it raises exactly when some parent level cannot be split evenly. -/
theorem C232_nested_raises {n k : ℕ} (hn : 0 < n) (hk : 0 < k) (par : ℕ → ℕ) : nested n k par = none ↔ ∃ i < n, ¬k ∣ cnt n par (par i) := by
  constructor
  · intro h
    unfold nested at h
    rw [if_neg (by omega)] at h
    simp only at h
    split_ifs at h with h1
    push Not at h1
    obtain ⟨p, hp, hc⟩ := h1
    have : ∃ i < n, par i = p := by
      by_contra hne
      push Not at hne
      refine hc ?_
      have : cnt n par p = 0 := by
        rw [cnt, Nat.count_eq_card_filter_range, Finset.card_eq_zero, Finset.filter_eq_empty_iff]
        exact fun i hi => hne i (Finset.mem_range.1 hi)
      rw [this, Nat.zero_mod]
    obtain ⟨i, hi, rfl⟩ := this
    exact ⟨i, hi, fun hd => hc (Nat.mod_eq_zero_of_dvd hd)⟩
  · rintro ⟨i, hi, hd⟩
    cases h : nested n k par with
    | none => rfl
    | some f => exact absurd ((nested_some h).2.2.1 i hi) hd

example : ∃ f, nested 8 2 (fun i => i / 4) = some f ∧ f 5 = 2 ∧ f 7 = 3 := ⟨_, rfl, by decide, by decide⟩

/-- **C232** observations which share a child level share the parent level. -/
theorem C232_nested_other {n k : ℕ} {par f : ℕ → ℕ} (h : nested n k par = some f) {i j : ℕ} (hi : i < n) (hj : j < n) (hij : f i = f j) : par i = par j := by
  rw [← C232_nested h hi, hij, C232_nested h hj]

end Verif.Sim
