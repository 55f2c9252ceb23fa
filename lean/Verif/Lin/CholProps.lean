import Verif.Lin.Chol
import Mathlib.Algebra.BigOperators.Intervals
import Mathlib.Tactic.Ring
import Mathlib.Tactic.FieldSimp
import Mathlib.Tactic.Linarith
import Mathlib.Tactic.IntervalCases
/-!
# Appending and deleting a row of a Cholesky factor (C46, C74)
-/
namespace Verif.Lin
open Real Finset

/-- Spec: `L` is the Cholesky factor of the leading `n` block of `A`. -/
structure IsChol (n : ℕ) (A L : ℕ → ℕ → ℝ) : Prop where
  low : ∀ i j, i < n → j < n → i < j → L i j = 0
  diag : ∀ i, i < n → 0 < L i i
  prod : ∀ i j, i < n → j < n → ∑ c ∈ range n, L i c * L j c = A i j

theorem solveLower_spec (L : ℕ → ℕ → ℝ) (x : ℕ → ℝ) (i : ℕ) (hd : ∀ r, r < i → L r r ≠ 0) :
    ∃ b, solveLower L x i = some b ∧
      ∀ r, r < i → ∑ c ∈ range (r + 1), L r c * b c = x r := by
  induction i with
  | zero => exact ⟨_, rfl, fun r hr => by omega⟩
  | succ i ih =>
    obtain ⟨b, h1, h2⟩ := ih fun r hr => hd r (by omega)
    have hi := hd i (by omega)
    refine ⟨fun r => if r = i then (x i - ∑ c ∈ range i, L i c * b c) / L i i else b r, ?_, ?_⟩
    · simp only [solveLower, h1, Option.bind_eq_bind, Option.bind_some, if_neg hi]
    · have e : ∀ m, m ≤ i → ∀ r, ∑ c ∈ range m, L r c *
          (if c = i then (x i - ∑ c ∈ range i, L i c * b c) / L i i else b c) =
          ∑ c ∈ range m, L r c * b c := by
        intro m hm r
        apply sum_congr rfl
        intro c hc
        rw [mem_range] at hc
        rw [if_neg (by omega)]
      intro r hr
      rcases Nat.lt_succ_iff_lt_or_eq.1 hr with h | h
      · rw [e _ (by omega)]; exact h2 r h
      · subst h
        rw [sum_range_succ, e _ le_rfl]
        simp only [if_true]
        rw [mul_div_cancel₀ _ hi]
        ring

/-- What `add_chol_row` needs of the new row: the Schur complement is positive. -/
theorem add_core (A L : ℕ → ℕ → ℝ) (i : ℕ) (hL : IsChol i A L) (hs : ∀ a b, A a b = A b a)
    (hz : ∀ r, r < i → L r i = 0) :
    ∃ b, solveLower L (A i) i = some b ∧ (∀ r, r < i → ∑ c ∈ range i, L r c * b c = A r i) ∧
      (0 < A i i - ∑ c ∈ range i, b c * b c →
        IsChol (i + 1) A fun r c => if r = i ∧ c = i then
          sqrt (A i i - ∑ c ∈ range i, b c * b c) else if r = i ∧ c < i then b c else L r c) := by
  obtain ⟨b, h1, h2⟩ := solveLower_spec L (A i) i fun r hr => (hL.diag r hr).ne'
  have h3 : ∀ r, r < i → ∑ c ∈ range i, L r c * b c = A r i := by
    intro r hr
    rw [hs r i, ← h2 r hr, ← sum_range_add_sum_Ico _ (show r + 1 ≤ i by omega)]
    rw [sum_eq_zero (s := Ico (r + 1) i), add_zero]
    intro c hc
    rw [mem_Ico] at hc
    rw [hL.low r c hr (by omega) (by omega), zero_mul]
  refine ⟨b, h1, h3, fun hp => ?_⟩
  set d := sqrt (A i i - ∑ c ∈ range i, b c * b c) with hd
  have hdd : d * d = A i i - ∑ c ∈ range i, b c * b c := mul_self_sqrt hp.le
  let M : ℕ → ℕ → ℝ := fun r c => if r = i ∧ c = i then d else if r = i ∧ c < i then b c else L r c
  have m1 : M i i = d := by simp [M]
  have m2 : ∀ c, c < i → M i c = b c := fun c hc => by
    simp only [M]; rw [if_neg (by omega), if_pos ⟨trivial, hc⟩]
  have m3 : ∀ r c, r < i → M r c = L r c := fun r c hr => by
    simp only [M]; rw [if_neg (by omega), if_neg (by omega)]
  change IsChol (i + 1) A M
  refine ⟨?_, ?_, ?_⟩
  · intro r c hr hc hrc
    rw [m3 r c (by omega)]
    rcases Nat.lt_succ_iff_lt_or_eq.1 hc with h | h
    · exact hL.low r c (by omega) h hrc
    · rw [h]; exact hz r (by omega)
  · intro r hr
    rcases Nat.lt_succ_iff_lt_or_eq.1 hr with h | h
    · rw [m3 r r h]; exact hL.diag r h
    · rw [h, m1]; exact sqrt_pos.2 hp
  · have key : ∀ r, r < i → ∑ c ∈ range (i + 1), M r c * M i c = A r i := by
      intro r hr
      rw [sum_range_succ, m3 r i hr, hz r hr, zero_mul, add_zero, ← h3 r hr]
      apply sum_congr rfl
      intro c hc
      rw [m3 r c hr, m2 c (mem_range.1 hc)]
    intro r s hr hs'
    rcases Nat.lt_succ_iff_lt_or_eq.1 hr with h | h <;>
      rcases Nat.lt_succ_iff_lt_or_eq.1 hs' with h' | h'
    · rw [sum_range_succ, m3 r i h, hz r h, zero_mul, add_zero, ← hL.prod r s h h']
      apply sum_congr rfl
      intro c _
      rw [m3 r c h, m3 s c h']
    · rw [h']; exact key r h
    · rw [h, hs i s, ← key s h']
      exact sum_congr rfl fun c _ => mul_comm _ _
    · rw [h, h', sum_range_succ, m1, hdd]
      rw [sum_congr rfl fun c hc => by rw [m2 c (mem_range.1 hc)]]
      ring

/-- The Schur complement of a positive definite bordered matrix is positive. -/
theorem schur_pos (A L : ℕ → ℕ → ℝ) (i : ℕ) (hL : IsChol i A L) (hs : ∀ a b, A a b = A b a)
    (b : ℕ → ℝ) (hb : ∀ r, r < i → ∑ c ∈ range i, L r c * b c = A r i)
    (hpd : ∀ x : ℕ → ℝ, (∃ r, r < i + 1 ∧ x r ≠ 0) →
      0 < ∑ r ∈ range (i + 1), ∑ c ∈ range (i + 1), x r * A r c * x c) :
    0 < A i i - ∑ c ∈ range i, b c * b c := by
  -- `x` with `Lᵀ x = -b` on the leading block
  have hx : ∀ m, m ≤ i → ∃ x : ℕ → ℝ, ∀ c, c < i → i - m ≤ c →
      ∑ r ∈ range i, x r * L r c = - b c := by
    intro m
    induction m with
    | zero => intro _; exact ⟨fun _ => 0, fun c h1 h2 => by omega⟩
    | succ m ih =>
      intro hm
      obtain ⟨x, hx⟩ := ih (by omega)
      obtain ⟨d, hd⟩ : ∃ d, d = i - (m + 1) := ⟨_, rfl⟩
      have hdi : d < i := by omega
      have hL0 := (hL.diag d hdi).ne'
      let S := ∑ r ∈ range i, x r * L r d + b d
      refine ⟨fun r => x r - (if r = d then S / L d d else 0), ?_⟩
      intro c hc hmc
      have e : ∑ r ∈ range i, (x r - (if r = d then S / L d d else 0)) * L r c =
          ∑ r ∈ range i, x r * L r c - S / L d d * L d c := by
        simp only [sub_mul, sum_sub_distrib, ite_mul, zero_mul]
        rw [sum_ite_eq' (range i) d, if_pos (mem_range.2 hdi)]
      rw [e]
      rcases Nat.lt_or_ge d c with h | h
      · rw [hL.low d c hdi hc h, mul_zero, sub_zero]
        exact hx c hc (by omega)
      · have : c = d := by omega
        subst this
        rw [div_mul_cancel₀ _ hL0]
        simp only [S]
        ring
  obtain ⟨x, hx⟩ := hx i le_rfl
  replace hx : ∀ c, c < i → ∑ r ∈ range i, x r * L r c = - b c := fun c hc => hx c hc (by omega)
  let y : ℕ → ℝ := fun r => if r = i then 1 else x r
  have hy : ∀ r, r < i → y r = x r := fun r hr => by simp only [y]; rw [if_neg (by omega)]
  have hyi : y i = 1 := by simp [y]
  have h := hpd y ⟨i, by omega, by rw [hyi]; exact one_ne_zero⟩
  have e1 : ∑ r ∈ range i, x r * A r i = - ∑ c ∈ range i, b c * b c := by
    have : ∑ r ∈ range i, x r * A r i = ∑ r ∈ range i, ∑ c ∈ range i, x r * L r c * b c := by
      apply sum_congr rfl
      intro r hr
      rw [← hb r (mem_range.1 hr), mul_sum]
      exact sum_congr rfl fun c _ => by ring
    rw [this, sum_comm, ← sum_neg_distrib]
    apply sum_congr rfl
    intro c hc
    rw [← sum_mul, hx c (mem_range.1 hc)]
    ring
  have e2 : ∑ r ∈ range i, ∑ c ∈ range i, x r * A r c * x c = ∑ c ∈ range i, b c * b c := by
    have : ∑ r ∈ range i, ∑ c ∈ range i, x r * A r c * x c =
        ∑ r ∈ range i, ∑ c ∈ range i, ∑ d ∈ range i, (x r * L r d) * (x c * L c d) := by
      apply sum_congr rfl
      intro r hr
      apply sum_congr rfl
      intro c hc
      rw [← hL.prod r c (mem_range.1 hr) (mem_range.1 hc), mul_sum, sum_mul]
      exact sum_congr rfl fun d _ => by ring
    rw [this]
    have : ∀ r, ∑ c ∈ range i, ∑ d ∈ range i, (x r * L r d) * (x c * L c d) =
        ∑ d ∈ range i, (x r * L r d) * (- b d) := by
      intro r
      rw [sum_comm]
      apply sum_congr rfl
      intro d hd
      rw [← mul_sum, hx d (mem_range.1 hd)]
    simp only [this]
    rw [sum_comm]
    apply sum_congr rfl
    intro d hd
    rw [← sum_mul, hx d (mem_range.1 hd)]
    ring
  have e3 : ∑ r ∈ range (i + 1), ∑ c ∈ range (i + 1), y r * A r c * y c =
      A i i - ∑ c ∈ range i, b c * b c := by
    rw [sum_range_succ]
    simp only [sum_range_succ _ i, hyi]
    rw [sum_add_distrib]
    have f1 : ∑ r ∈ range i, ∑ c ∈ range i, y r * A r c * y c = ∑ c ∈ range i, b c * b c := by
      rw [← e2]
      apply sum_congr rfl
      intro r hr
      apply sum_congr rfl
      intro c hc
      rw [hy r (mem_range.1 hr), hy c (mem_range.1 hc)]
    have f2 : ∑ r ∈ range i, y r * A r i * 1 = - ∑ c ∈ range i, b c * b c := by
      rw [← e1]
      apply sum_congr rfl
      intro r hr
      rw [hy r (mem_range.1 hr), mul_one]
    have f3 : ∑ c ∈ range i, 1 * A i c * y c = - ∑ c ∈ range i, b c * b c := by
      rw [← e1]
      apply sum_congr rfl
      intro r hr
      rw [hy r (mem_range.1 hr), hs i r]
      ring
    rw [f1, f2, f3]
    ring
  rw [e3] at h
  exact h

/-- Spec: positive definite on the leading block. -/
def PDOn (n : ℕ) (A : ℕ → ℕ → ℝ) : Prop :=
  ∀ x : ℕ → ℝ, (∃ i, i < n ∧ x i ≠ 0) →
    0 < ∑ i ∈ range n, ∑ j ∈ range n, x i * A i j * x j

/-- C46: `add_chol_row` turns the factor of the leading `i` block into the factor of the leading
`i+1` block, changing nothing outside row `i`. -/
theorem C46_add (A L : ℕ → ℕ → ℝ) (i : ℕ) (hL : IsChol i A L) (hs : ∀ a b, A a b = A b a)
    (hz : ∀ r, r < i → L r i = 0) (hpd : PDOn (i + 1) A) :
    ∃ M, addCholRow A L i = some M ∧ IsChol (i + 1) A M ∧
      ∀ r c, (r ≠ i ∨ i < c) → M r c = L r c := by
  obtain ⟨b, h1, h2, h3⟩ := add_core A L i hL hs hz
  have hp := schur_pos A L i hL hs b h2 hpd
  refine ⟨_, ?_, h3 hp, ?_⟩
  · simp only [addCholRow, h1, Option.bind_eq_bind, Option.bind_some]
    rw [if_neg (not_lt.2 hp.le)]
  · intro r c h
    rw [if_neg (by omega), if_neg (by omega)]

/-- Building the whole factor row by row from nothing, as the callers do. -/
theorem C46_build (A : ℕ → ℕ → ℝ) (n : ℕ) (hs : ∀ a b, A a b = A b a)
    (hpd : ∀ i, i ≤ n → PDOn i A) :
    ∃ L, (List.range n).foldlM (fun L i => addCholRow A L i) (fun _ _ => 0) = some L ∧
      IsChol n A L ∧ ∀ r c, (n ≤ r ∨ r < c) → L r c = 0 := by
  induction n with
  | zero =>
    refine ⟨fun _ _ => 0, rfl, ⟨fun i j h => by omega, fun i h => by omega,
      fun i j h => by omega⟩, fun _ _ _ => rfl⟩
  | succ n ih =>
    obtain ⟨L, h1, h2, h3⟩ := ih fun i hi => hpd i (by omega)
    obtain ⟨M, h4, h5, h6⟩ := C46_add A L n h2 hs (fun r hr => h3 r n (Or.inr hr))
      (hpd (n + 1) le_rfl)
    refine ⟨M, ?_, h5, ?_⟩
    · rw [List.range_succ, List.foldlM_append, h1]
      simp only [Option.bind_eq_bind, Option.bind_some, List.foldlM_cons, List.foldlM_nil, h4]
      rfl
    · intro r c h
      by_cases hr : r = n
      · rw [h6 r c (by omega)]; exact h3 r c (by omega)
      · rw [h6 r c (by omega)]; exact h3 r c (by omega)

/-- `lars.chol_update` is `add_chol_row` on the Gram matrix of the active set. -/
theorem C74_update (A L : ℕ → ℕ → ℝ) (i : ℕ) :
    lnCholUpdate L (A i i) (A i) i = addCholRow A L i := by
  rw [lnCholUpdate]
  split_ifs with h h'
  · simp only [addCholRow, pow_two]
  · have : i = 0 := by omega
    subst this
    simp [addCholRow, solveLower, h']
  · have : i = 0 := by omega
    subst this
    simp [addCholRow, solveLower, h']

/-! ## Deleting a row -/

theorem sum_two (n t : ℕ) (h h' : ℕ → ℝ) (ht : t + 1 < n)
    (h1 : ∀ c, c ≠ t → c ≠ t + 1 → h c = h' c) (h2 : h t + h (t + 1) = h' t + h' (t + 1)) :
    ∑ c ∈ range n, h c = ∑ c ∈ range n, h' c := by
  rw [← sub_eq_zero, ← sum_sub_distrib]
  rw [← sum_subset (s₁ := {t, t + 1})]
  · rw [sum_pair (by omega)]
    linarith
  · intro c hc
    simp only [mem_insert, mem_singleton] at hc
    rw [mem_range]; omega
  · intro c _ hc
    simp only [mem_insert, mem_singleton, not_or] at hc
    rw [h1 c hc.1 hc.2, sub_self]

/-- What holds of the working array before pass `t`. -/
structure DInv (n k : ℕ) (L : ℕ → ℕ → ℝ) (t : ℕ) (M : ℕ → ℕ → ℝ) : Prop where
  prod : ∀ i j, i < n - 1 → j < n - 1 →
    ∑ c ∈ range n, M i c * M j c = ∑ c ∈ range n, L (skip k i) c * L (skip k j) c
  low : ∀ i c, i < t → i < n - 1 → i < c → c < n → M i c = 0
  band : ∀ i c, t ≤ i → i < n - 1 → i + 1 < c → c < n → M i c = 0
  diag : ∀ i, i < t → i < n - 1 → 0 < M i i
  sup : ∀ i, t ≤ i → i < n - 1 → 0 < M i (i + 1)

theorem down_step (n k : ℕ) (L : ℕ → ℕ → ℝ) (t : ℕ) (M : ℕ → ℕ → ℝ) (ht : t < n - 1)
    (h : DInv n k L t M) : ∃ M', downStep n M t = some M' ∧ DInv n k L (t + 1) M' := by
  have hb := h.sup t le_rfl ht
  have hv : 0 < M t t ^ 2 + M t (t + 1) ^ 2 := by nlinarith [sq_nonneg (M t t), mul_pos hb hb]
  set v := sqrt (M t t ^ 2 + M t (t + 1) ^ 2) with hvd
  have hvp : 0 < v := sqrt_pos.2 hv
  have hvv : v * v = M t t ^ 2 + M t (t + 1) ^ 2 := mul_self_sqrt hv.le
  obtain ⟨c, hc⟩ : ∃ c, c = M t t / v := ⟨_, rfl⟩
  obtain ⟨s, hs⟩ : ∃ s, s = M t (t + 1) / v := ⟨_, rfl⟩
  have hcs : c * c + s * s = 1 := by
    rw [hc, hs]
    rw [div_mul_div_comm, div_mul_div_comm, ← add_div, hvv, ← pow_two, ← pow_two]
    exact div_self hv.ne'
  have hr1 : c * M t t + s * M t (t + 1) = v := by
    rw [hc, hs]; field_simp; linarith
  have hr2 : c * M t (t + 1) - s * M t t = 0 := by
    rw [hc, hs]; field_simp; ring
  -- the uniform rotation
  let R : ℕ → ℕ → ℝ := fun i j =>
    if j = t then c * M i t + s * M i (t + 1)
    else if j = t + 1 then c * M i (t + 1) - s * M i t else M i j
  have hst : downStep n M t = some fun i j => if i = t ∧ j = t then v
      else if i = t ∧ j = t + 1 then 0
      else if t ≤ i ∧ i < n - 1 ∧ j = t then c * M i t + s * M i (t + 1)
      else if t ≤ i ∧ i < n - 1 ∧ j = t + 1 then c * M i (t + 1) - s * M i t
      else M i j := by
    simp only [downStep]
    rw [if_neg hvp.ne', hc, hs]
  refine ⟨_, hst, ?_⟩
  set M' : ℕ → ℕ → ℝ := fun i j => if i = t ∧ j = t then v
      else if i = t ∧ j = t + 1 then 0
      else if t ≤ i ∧ i < n - 1 ∧ j = t then c * M i t + s * M i (t + 1)
      else if t ≤ i ∧ i < n - 1 ∧ j = t + 1 then c * M i (t + 1) - s * M i t
      else M i j with hM'
  have hMR : ∀ i j, i < n - 1 → M' i j = R i j := by
    intro i j hi
    simp only [hM', R]
    by_cases hjt : j = t
    · rw [if_pos hjt]
      by_cases hit : i = t
      · rw [if_pos ⟨hit, hjt⟩, hit, hr1]
      · rw [if_neg (by omega), if_neg (by omega)]
        by_cases hle : t ≤ i
        · rw [if_pos ⟨hle, hi, hjt⟩]
        · rw [if_neg (by omega), if_neg (by omega), hjt,
            h.low i t (by omega) hi (by omega) (by omega),
            h.low i (t + 1) (by omega) hi (by omega) (by omega)]
          ring
    · rw [if_neg hjt, if_neg (by omega)]
      by_cases hj1 : j = t + 1
      · rw [if_pos hj1]
        by_cases hit : i = t
        · rw [if_pos ⟨hit, hj1⟩, hit, hr2]
        · rw [if_neg (by omega), if_neg (by omega)]
          by_cases hle : t ≤ i
          · rw [if_pos ⟨hle, hi, hj1⟩]
          · rw [if_neg (by omega), hj1, h.low i t (by omega) hi (by omega) (by omega),
              h.low i (t + 1) (by omega) hi (by omega) (by omega)]
            ring
      · rw [if_neg hj1, if_neg (by omega), if_neg (by omega), if_neg (by omega)]
  have rt : ∀ i, R i t = c * M i t + s * M i (t + 1) := fun i => by simp [R]
  have rt1 : ∀ i, R i (t + 1) = c * M i (t + 1) - s * M i t := fun i => by simp [R]
  have ro : ∀ i j, j ≠ t → j ≠ t + 1 → R i j = M i j := fun i j h1 h2 => by
    simp only [R]; rw [if_neg h1, if_neg h2]
  constructor
  · intro i j hi hj
    rw [← h.prod i j hi hj]
    rw [sum_congr rfl fun c _ => by rw [hMR i c hi, hMR j c hj]]
    apply sum_two n t _ _ (by omega)
    · intro c h1 h2
      rw [ro i c h1 h2, ro j c h1 h2]
    · rw [rt, rt, rt1, rt1]
      linear_combination (M i t * M j t + M i (t + 1) * M j (t + 1)) * hcs
  · intro i d hi hi' hd hdn
    rcases Nat.lt_succ_iff_lt_or_eq.1 hi with h1 | h1
    · rw [hMR i d hi']
      by_cases e1 : d = t
      · rw [e1, rt, h.low i t h1 hi' h1 (by omega), h.low i (t + 1) h1 hi' (by omega) (by omega)]
        ring
      by_cases e2 : d = t + 1
      · rw [e2, rt1, h.low i t h1 hi' h1 (by omega),
          h.low i (t + 1) h1 hi' (by omega) (by omega)]
        ring
      rw [ro i d e1 e2]
      exact h.low i d h1 hi' hd hdn
    · subst h1
      rw [hMR i d hi']
      by_cases e2 : d = i + 1
      · rw [e2, rt1]; exact hr2
      · rw [ro i d (by omega) e2]
        exact h.band i d le_rfl hi' (by omega) hdn
  · intro i d hi hi' hd hdn
    rw [hMR i d hi', ro i d (by omega) (by omega)]
    exact h.band i d (by omega) hi' hd hdn
  · intro i hi hi'
    rcases Nat.lt_succ_iff_lt_or_eq.1 hi with h1 | h1
    · rw [hMR i i hi', ro i i (by omega) (by omega)]
      exact h.diag i h1 hi'
    · subst h1
      rw [hMR i i hi', rt, hr1]; exact hvp
  · intro i hi hi'
    rw [hMR i (i + 1) hi', ro i (i + 1) (by omega) (by omega)]
    exact h.sup i (by omega) hi'

theorem down_loop (n k : ℕ) (L : ℕ → ℕ → ℝ) (m t : ℕ) (M : ℕ → ℕ → ℝ) (ht : t + m ≤ n - 1)
    (h : DInv n k L t M) :
    ∃ M', (List.range' t m).foldlM (downStep n) M = some M' ∧ DInv n k L (t + m) M' := by
  induction m generalizing t M with
  | zero => exact ⟨M, rfl, h⟩
  | succ m ih =>
    obtain ⟨M1, h1, h2⟩ := down_step n k L t M (by omega) h
    obtain ⟨M2, h3, h4⟩ := ih (t + 1) M1 (by omega) h2
    refine ⟨M2, ?_, ?_⟩
    · rw [List.range'_succ, List.foldlM_cons, h1]
      exact h3
    · rw [show t + (m + 1) = t + 1 + m by omega]; exact h4

/-- C46: `chol_downdate` leaves in the leading block the factor of the matrix with row and
column `k` removed; the last row and column keep their old contents. -/
theorem C46_downdate (n k : ℕ) (hk : k < n) (A L : ℕ → ℕ → ℝ) (hL : IsChol n A L) :
    ∃ M, cholDowndate n L k = some M ∧
      IsChol (n - 1) (fun i j => A (skip k i) (skip k j)) M ∧
      ∀ i j, (n - 1 ≤ i ∨ n - 1 ≤ j) → M i j = L i j := by
  have hsk : ∀ i, i < n - 1 → skip k i < n := fun i hi => by
    simp only [skip]; split_ifs <;> omega
  have h0 : DInv n k L k fun i j => L (skip k i) j := by
    constructor
    · intro i j _ _; rfl
    · intro i c hi hi' hc hcn
      simp only [skip, if_pos hi]
      exact hL.low i c (by omega) hcn hc
    · intro i c hi hi' hc hcn
      simp only [skip, if_neg (not_lt.2 hi)]
      exact hL.low (i + 1) c (by omega) hcn hc
    · intro i hi hi'
      simp only [skip, if_pos hi]
      exact hL.diag i (by omega)
    · intro i hi hi'
      simp only [skip, if_neg (not_lt.2 hi)]
      exact hL.diag (i + 1) (by omega)
  obtain ⟨M, h1, h2⟩ := down_loop n k L (n - 1 - k) k _ (by omega) h0
  rw [show k + (n - 1 - k) = n - 1 by omega] at h2
  refine ⟨fun i j => if i < n - 1 ∧ j < n - 1 then M i j else L i j, ?_, ?_, ?_⟩
  · simp only [cholDowndate, h1, Option.bind_eq_bind, Option.bind_some]
  · refine ⟨?_, ?_, ?_⟩
    · intro i j hi hj hij
      rw [if_pos ⟨hi, hj⟩]
      exact h2.low i j hi hi hij (by omega)
    · intro i hi
      rw [if_pos ⟨hi, hi⟩]
      exact h2.diag i hi hi
    · intro i j hi hj
      rw [← hL.prod _ _ (hsk i hi) (hsk j hj), ← h2.prod i j hi hj]
      obtain ⟨m, rfl⟩ : ∃ m, n = m + 1 := ⟨n - 1, by omega⟩
      rw [Nat.add_sub_cancel] at *
      rw [sum_range_succ (fun c => M i c * M j c) m, h2.low i m hi hi hi (by omega), zero_mul,
        add_zero]
      apply sum_congr rfl
      intro c hc
      rw [mem_range] at hc
      rw [if_pos ⟨hi, hc⟩, if_pos ⟨hj, hc⟩]
  · intro i j h
    simp only
    rw [if_neg (by omega)]

/-- LARS calls `chol_downdate` on the full `n_var × n_var` array, whose rows from the number of
active variables on are still zero when a variable is first dropped.  Then a pass divides zero by
zero, and the (compiled) call fails: dropping a variable from an active set of `m < n` variables
never succeeds. -/
theorem C74_drop_violated (n m k : ℕ) (hk : k < m) (hm : m < n) (L : ℕ → ℕ → ℝ)
    (h0 : ∀ i j, i < n → j < n → (m ≤ i ∨ m ≤ j) → L i j = 0) :
    cholDowndate n L k = none := by
  -- the first passes behave as on the leading block extended by a zero row
  have step : ∀ t M, t < n - 1 → (∀ i c, i < n - 1 → m - 1 ≤ i → c < n → M i c = 0) →
      ∀ M', downStep n M t = some M' → t < m - 1 →
      (∀ i c, i < n - 1 → m - 1 ≤ i → c < n → M' i c = 0) := by
    intro t M ht hz M' hM' htm i c hi hmi hc
    simp only [downStep] at hM'
    split_ifs at hM' with hv
    have := Option.some.inj hM'
    rw [← this]
    simp only
    rw [if_neg (by omega), if_neg (by omega)]
    split_ifs
    · rw [hz i t hi hmi (by omega), hz i (t + 1) hi hmi (by omega)]; ring
    · rw [hz i t hi hmi (by omega), hz i (t + 1) hi hmi (by omega)]; ring
    · exact hz i c hi hmi hc
  have loop : ∀ r t M, t + r = n - 1 → t ≤ m - 1 →
      (∀ i c, i < n - 1 → m - 1 ≤ i → c < n → M i c = 0) →
      (List.range' t r).foldlM (downStep n) M = none := by
    intro r
    induction r with
    | zero => intro t M h1 h2; omega
    | succ r ih =>
      intro t M h1 h2 hz
      rw [List.range'_succ, List.foldlM_cons]
      rcases Nat.lt_or_ge t (m - 1) with h | h
      · rcases hd : downStep n M t with _ | M'
        · rfl
        · exact ih (t + 1) M' (by omega) (by omega) (step t M (by omega) hz M' hd h)
      · have e1 := hz t t (by omega) h (by omega)
        have e2 := hz t (t + 1) (by omega) h (by omega)
        have : downStep n M t = none := by
          simp only [downStep]
          rw [if_pos (by rw [e1, e2]; simp)]
        rw [this]
        rfl
  have := loop (n - 1 - k) k (fun i j => L (skip k i) j) (by omega) (by omega) (by
    intro i c hi hmi hc
    have : skip k i = i + 1 := by simp only [skip]; rw [if_neg (by omega)]
    simp only [this]
    exact h0 (i + 1) c (by omega) hc (Or.inl (by omega)))
  simp only [cholDowndate, this]
  rfl

/-- Witness for the hypotheses: the identity of order one inside a 2×2 array. -/
example : IsChol 1 (fun i j => if i = j then 1 else 0)
    (fun i j => if i = 0 ∧ j = 0 then 1 else 0) :=
  ⟨fun i j hi hj hij => by omega, fun i hi => by have : i = 0 := by omega
                                                 subst this; norm_num,
   fun i j hi hj => by
    have h1 : i = 0 := by omega
    have h2 : j = 0 := by omega
    subst h1 h2; simp⟩

example : PDOn 1 (fun i j => if i = j then 1 else 0) := by
  rintro x ⟨i, hi, hx⟩
  have h1 : i = 0 := by omega
  subst h1
  simpa using hx

end Verif.Lin
