import Verif.Cov.Acov
import Verif.Vec.Props
import Mathlib.Data.List.ProdSigma
import Mathlib.Analysis.Calculus.Deriv.Inv
import Mathlib.Analysis.Calculus.Deriv.Add
import Mathlib.Analysis.SpecialFunctions.Sqrt

namespace Verif.Cov
open Verif.Vec

/-! ### Entries -/

section
variable {p : ℕ}

theorem code_div {i j : ℕ} (hi : i < p) : (j * p + i) / p = j := by
  rw [mul_comm, Nat.mul_add_div (by omega), Nat.div_eq_of_lt hi, add_zero]

theorem code_mod {i j : ℕ} (hi : i < p) : (j * p + i) % p = i := by rw [mul_comm, Nat.mul_add_mod, Nat.mod_eq_of_lt hi]

theorem code_inj {i j g h : ℕ} (hi : i < p) (hg : g < p) : j * p + i = h * p + g ↔ j = h ∧ i = g := by
  constructor
  · intro e
    have h1 := congrArg (· / p) e
    have h2 := congrArg (· % p) e
    simp only [code_div hi, code_div hg, code_mod hi, code_mod hg] at h1 h2
    exact ⟨h1, h2⟩
  · rintro ⟨rfl, rfl⟩; rfl

theorem code_lt {i j : ℕ} (hi : i < p) (hj : j < p) : j * p + i < p * p := by rw [← pow_two]; exact cell_lt_sq p j i hj hi

theorem sum_code (f : ℕ → ℝ) : ∑ k ∈ Finset.range (p * p), f k = ∑ h ∈ Finset.range p, ∑ g ∈ Finset.range p, f (h * p + g) := by
  have : ∀ m, ∑ k ∈ Finset.range (m * p), f k = ∑ h ∈ Finset.range m, ∑ g ∈ Finset.range p, f (h * p + g) := by
    intro m
    induction m with
    | zero => simp
    | succ m ih => rw [Nat.succ_mul, Finset.sum_range_add, ih, Finset.sum_range_succ]
  exact this p

theorem nodup_grid4 (p : ℕ) : (grid4 p).Nodup := List.nodup_range.product (List.nodup_range.product (List.nodup_range.product List.nodup_range))

theorem mem_grid4 {i j g h : ℕ} : (i, j, g, h) ∈ grid4 p ↔ i < p ∧ j < p ∧ g < p ∧ h < p := by
  simp [grid4, List.pair_mem_product]

theorem coo_grid (c : ℕ × ℕ × ℕ × ℕ → Bool) (v : ℝ) {i j g h : ℕ} (hi : i < p) (hj : j < p) (hg : g < p) (hh : h < p) :
    cooEntry (((grid4 p).filter c).map fun t => (v, t.1 + t.2.1 * p, t.2.2.1 + t.2.2.2 * p)) (j * p + i) (h * p + g) = if c (i, j, g, h) then v else 0 := by
  rw [cooEntry, List.filter_map, List.map_map, List.filter_filter]
  have e : (grid4 p).filter (fun a => ((fun e : ℝ × ℕ × ℕ => decide (e.2.1 = j * p + i ∧ e.2.2 = h * p + g)) ∘ fun t : ℕ × ℕ × ℕ × ℕ => (v, t.1 + t.2.1 * p, t.2.2.1 + t.2.2.2 * p)) a && c a) =
      (grid4 p).filter (fun a => decide (a = (i, j, g, h)) && c (i, j, g, h)) := by
    refine List.filter_congr fun a ha => ?_
    obtain ⟨i', j', g', h'⟩ := a
    obtain ⟨a1, a2, a3, a4⟩ := mem_grid4.1 ha
    have k1 : i' + j' * p = j * p + i ↔ j' = j ∧ i' = i := by rw [add_comm]; exact code_inj a1 hi
    have k2 : g' + h' * p = h * p + g ↔ h' = h ∧ g' = g := by rw [add_comm]; exact code_inj a3 hg
    simp only [Function.comp, k1, k2, Prod.mk.injEq]
    by_cases hc : (j' = j ∧ i' = i) ∧ h' = h ∧ g' = g
    · obtain ⟨⟨rfl, rfl⟩, rfl, rfl⟩ := hc
      simp
    · have : ¬ (i' = i ∧ j' = j ∧ g' = g ∧ h' = h) := fun ⟨b1, b2, b3, b4⟩ => hc ⟨⟨b2, b1⟩, b4, b3⟩
      rw [decide_eq_false hc, decide_eq_false this, Bool.false_and, Bool.false_and]
  rw [e]
  cases hc : c (i, j, g, h)
  · simp
  · have : (grid4 p).count (i, j, g, h) = 1 := List.count_eq_one_of_mem (nodup_grid4 p) (mem_grid4.2 ⟨hi, hj, hg, hh⟩)
    simp only [Bool.and_true, List.filter_eq, this]
    simp

theorem coo_append (l m : List (ℝ × ℕ × ℕ)) (r c : ℕ) : cooEntry (l ++ m) r c = cooEntry l r c + cooEntry m r c := by
  simp [cooEntry]

theorem patD_entry {i j g h : ℕ} (hi : i < p) (hj : j < p) (hg : g < p) (hh : h < p) : cooEntry (patD p) (j * p + i) (h * p + g) = if i = j ∧ j = g ∧ g = h then 1 else 0 := by
  rw [patD, coo_grid _ _ hi hj hg hh]
  simp

theorem patS_entry {i j g h : ℕ} (hi : i < p) (hj : j < p) (hg : g < p) (hh : h < p) :
    cooEntry (patS p) (j * p + i) (h * p + g) = ((if i = g ∧ j = h then 1 else 0) + (if i = h ∧ j = g then 1 else 0)) / 2 := by
  rw [patS, coo_append, coo_grid _ _ hi hj hg hh, coo_grid _ _ hi hj hg hh]
  simp only [decide_eq_true_eq, decide_eq_false_iff_not]
  by_cases h1 : i = g ∧ j = h <;> by_cases h2 : i = h ∧ j = g
  · obtain ⟨rfl, rfl⟩ := h1
    obtain ⟨rfl, _⟩ := h2
    simp
  · obtain ⟨rfl, rfl⟩ := h1
    have : i ≠ j := fun e => h2 ⟨e, e.symm⟩
    simp [this, this.symm]
  · obtain ⟨rfl, rfl⟩ := h2
    have : i ≠ j := fun e => h1 ⟨e, e.symm⟩
    simp [this, this.symm]
  · rw [if_neg, if_neg, if_neg h1, if_neg h2]
    · norm_num
    · rintro ⟨⟨e1, e2⟩ | ⟨e1, e2⟩, _⟩
      · exact h1 ⟨e1, e2.symm⟩
      · exact h2 ⟨e1, e2⟩
    · rintro ⟨e1, e2, e3⟩
      exact h1 ⟨e1.trans e2, e2.trans e3⟩

theorem patK_entry {i j n : ℕ} (hi : i < p) (hn : n < p) : cooEntry (patK p) (j * p + i) n = if i = n ∧ j = n then 1 else 0 := by
  rw [cooEntry, patK, List.filter_map, List.map_map]
  have e : (List.range p).filter ((fun e : ℝ × ℕ × ℕ => decide (e.2.1 = j * p + i ∧ e.2.2 = n)) ∘ fun n => (1, n * (p + 1), n)) =
      (List.range p).filter (fun a => decide (a = n) && decide (i = n ∧ j = n)) := by
    refine List.filter_congr fun a ha => ?_
    have ha' := List.mem_range.1 ha
    have k1 : a * (p + 1) = j * p + i ↔ a = j ∧ a = i := by rw [mul_add, mul_one]; exact code_inj ha' hi
    simp only [Function.comp, k1]
    rw [← Bool.decide_and]
    refine decide_eq_decide.2 ⟨?_, ?_⟩
    · rintro ⟨⟨rfl, rfl⟩, rfl⟩; exact ⟨rfl, rfl, rfl⟩
    · rintro ⟨rfl, rfl, rfl⟩; exact ⟨⟨rfl, rfl⟩, rfl⟩
  rw [e]
  by_cases hc : i = n ∧ j = n
  · have : (List.range p).count n = 1 := List.count_eq_one_of_mem List.nodup_range (List.mem_range.2 hn)
    simp only [hc, and_self, decide_true, Bool.and_true, List.filter_eq, this]
    simp
  · rw [if_neg hc]
    simp [hc]

theorem nmat_entry {i j g h : ℕ} (hi : i < p) (hj : j < p) (hg : g < p) : nmatM p (j * p + i) (h * p + g) / 2 = ((if i = g ∧ j = h then 1 else 0) + (if i = h ∧ j = g then 1 else 0)) / 2 := by
  have hk : cooEntry (kmat (R := ℝ) p p) (j * p + i) (h * p + g) = if i = h ∧ j = g then 1 else 0 := by
    rw [kmat_eq, cooEntry_rows, code_mod hi, code_div hi]
    simp only [code_lt hi hj, true_and, code_inj hj hg]
  rw [nmatM, hk, eyeM]
  simp only [code_inj hi hg]
  rw [add_comm]
  simp only [and_comm]

theorem pick (f : ℕ → ℕ → ℝ) {i j : ℕ} (hi : i < p) (hj : j < p) : ∑ h ∈ Finset.range p, ∑ g ∈ Finset.range p, (if i = g ∧ j = h then 1 else 0) * f h g = f j i := by
  rw [Finset.sum_eq_single j, Finset.sum_eq_single i]
  · simp
  · intro g _ hg; rw [if_neg fun h => hg h.1.symm, zero_mul]
  · intro h; exact absurd (Finset.mem_range.2 hi) h
  · intro h _ hh
    exact Finset.sum_eq_zero fun g _ => by rw [if_neg fun h => hh h.2.symm, zero_mul]
  · intro h; exact absurd (Finset.mem_range.2 hj) h

theorem pick' (f : ℕ → ℕ → ℝ) {i j : ℕ} (hi : i < p) (hj : j < p) : ∑ h ∈ Finset.range p, ∑ g ∈ Finset.range p, (if i = h ∧ j = g then 1 else 0) * f h g = f i j := by
  rw [← pick f hj hi]
  simp only [and_comm]

/-- A symmetriser on the left averages two rows. -/
theorem sym_row {M : ℕ → ℕ → ℝ} (hM : ∀ {i j g h : ℕ}, i < p → j < p → g < p → h < p → M (j * p + i) (h * p + g) = ((if i = g ∧ j = h then 1 else 0) + (if i = h ∧ j = g then 1 else 0)) / 2)
    (B : ℕ → ℕ → ℝ) {i j : ℕ} (c : ℕ) (hi : i < p) (hj : j < p) : mm (p * p) M B (j * p + i) c = (B (j * p + i) c + B (i * p + j) c) / 2 := by
  rw [mm, sum_code]
  have e : ∀ h ∈ Finset.range p, ∀ g ∈ Finset.range p, M (j * p + i) (h * p + g) * B (h * p + g) c =
      ((if i = g ∧ j = h then 1 else 0) * B (h * p + g) c + (if i = h ∧ j = g then 1 else 0) * B (h * p + g) c) / 2 := by
    intro h hh g hg
    rw [hM hi hj (Finset.mem_range.1 hg) (Finset.mem_range.1 hh)]
    ring
  rw [Finset.sum_congr rfl fun h hh => Finset.sum_congr rfl (e h hh)]
  simp only [← Finset.sum_div, Finset.sum_add_distrib]
  rw [pick (fun h g => B (h * p + g) c) hi hj, pick' (fun h g => B (h * p + g) c) hi hj]

theorem kron_entry (A B : ℕ → ℕ → ℝ) {i j g h : ℕ} (hi : i < p) (hg : g < p) : kronM p A B (j * p + i) (h * p + g) = A j h * B i g := by
  rw [kronM, code_div hi, code_div hg, code_mod hi, code_mod hg]

/-- Multiplying by the pattern matrix of the diagonal on the right keeps the columns of the diagonal. -/
theorem patD_col (M : ℕ → ℕ → ℝ) (r : ℕ) {g h : ℕ} (hg : g < p) (hh : h < p) :
    tr (mm (p * p) (tr (cooEntry (patD p))) (tr M)) r (h * p + g) = if g = h then M r (h * p + g) else 0 := by
  rw [tr, mm, sum_code]
  have e : ∀ b ∈ Finset.range p, ∀ a ∈ Finset.range p, tr (cooEntry (patD p)) (h * p + g) (b * p + a) * tr M (b * p + a) r =
      (if g = a ∧ h = b then 1 else 0) * (if g = h then M r (b * p + a) else 0) := by
    intro b hb a ha
    rw [tr, tr, patD_entry (Finset.mem_range.1 ha) (Finset.mem_range.1 hb) hg hh]
    by_cases h1 : a = b ∧ b = g ∧ g = h
    · obtain ⟨rfl, rfl, rfl⟩ := h1; simp
    · rw [if_neg h1, zero_mul]
      by_cases h2 : g = a ∧ h = b
      · rw [if_neg (c := g = h) fun h3 => h1 ⟨by omega, by omega, h3⟩, mul_zero]
      · rw [if_neg h2, zero_mul]
  rw [Finset.sum_congr rfl fun b hb => Finset.sum_congr rfl (e b hb), pick (fun b a => if g = h then M r (b * p + a) else 0) hg hh]

/-- Multiplying by `Kd` on the right takes the columns of the diagonal. -/
theorem patK_col (M : ℕ → ℕ → ℝ) (r : ℕ) {n : ℕ} (hn : n < p) : tr (mm (p * p) (tr (cooEntry (patK p))) (tr M)) r n = M r (n * p + n) := by
  rw [tr, mm, sum_code]
  have e : ∀ b ∈ Finset.range p, ∀ a ∈ Finset.range p, tr (cooEntry (patK p)) n (b * p + a) * tr M (b * p + a) r = (if n = a ∧ n = b then 1 else 0) * M r (b * p + a) := by
    intro b hb a ha
    rw [tr, tr, patK_entry (Finset.mem_range.1 ha) hn]
    simp only [eq_comm]
  rw [Finset.sum_congr rfl fun b hb => Finset.sum_congr rfl (e b hb), pick (fun b a => M r (b * p + a)) hn hn]

end

section
variable {p : ℕ} {S : ℕ → ℕ → ℝ}

/-- The row of `A` at a position, as an operator. -/
theorem neuA_row (S : ℕ → ℕ → ℝ) (x : ℕ → ℝ) {i j : ℕ} (hi : i < p) (hj : j < p) : ∑ k ∈ Finset.range (p * p), neuA p S (j * p + i) k * x k =
    wts S i * wts S j * x (j * p + i) - (scaleDiag S (wts S) i j * (wts S j ^ 2 * x (j * p + j)) + scaleDiag S (wts S) j i * (wts S i ^ 2 * x (i * p + i))) / 2 := by
  rw [sum_code]
  have e : ∀ h ∈ Finset.range p, ∀ g ∈ Finset.range p, neuA p S (j * p + i) (h * p + g) * x (h * p + g) =
      (if i = g ∧ j = h then 1 else 0) * (wts S h * wts S g * x (h * p + g)) -
      ((if j = g ∧ j = h then 1 else 0) * (scaleDiag S (wts S) i g * (wts S h * wts S g * x (h * p + g))) +
       (if i = g ∧ i = h then 1 else 0) * (scaleDiag S (wts S) j g * (wts S h * wts S g * x (h * p + g)))) / 2 := by
    intro h hh g hg
    have hh' := Finset.mem_range.1 hh
    have hg' := Finset.mem_range.1 hg
    simp only [neuA]
    rw [patD_col _ _ hg' hh', sym_row (M := fun i j => nmatM p i j / 2) (fun a b c _ => nmat_entry a b c) _ _ hi hj, kron_entry _ _ hi hg', kron_entry _ _ hj hg', code_div hg', code_mod hg', eyeM]
    simp only [code_inj hi hg', eyeM]
    by_cases h1 : g = h
    · subst h1
      by_cases h2 : j = g <;> by_cases h3 : i = g <;> simp [h2, h3] <;> ring
    · have h4 : ¬ (j = g ∧ j = h) := fun ⟨a, b⟩ => h1 (a.symm.trans b)
      have h5 : ¬ (i = g ∧ i = h) := fun ⟨a, b⟩ => h1 (a.symm.trans b)
      rw [if_neg h1, if_neg h4, if_neg h5]
      simp only [and_comm (a := j = h)]
      ring
  rw [Finset.sum_congr rfl fun h hh => Finset.sum_congr rfl (e h hh)]
  simp only [Finset.sum_sub_distrib, ← Finset.sum_div, Finset.sum_add_distrib]
  rw [pick (fun h g => wts S h * wts S g * x (h * p + g)) hi hj, pick (fun h g => scaleDiag S (wts S) i g * (wts S h * wts S g * x (h * p + g))) hj hj,
    pick (fun h g => scaleDiag S (wts S) j g * (wts S h * wts S g * x (h * p + g))) hi hi]
  ring

/-- The covariance of two sample correlations for normal data (Pearson and Filon). -/
noncomputable def pf (R : ℕ → ℕ → ℝ) (i j k l : ℕ) : ℝ :=
  R i k * R j l + R i l * R j k - R i j * (R i k * R i l + R j k * R j l) - R k l * (R i k * R j k + R i l * R j l) +
  R i j * R k l * (R i k ^ 2 + R i l ^ 2 + R j k ^ 2 + R j l ^ 2) / 2

/-- The correlation matrix of a covariance matrix. -/
noncomputable def corrOf (S : ℕ → ℕ → ℝ) (i j : ℕ) : ℝ := S i j / √(S i i * S j j)

theorem scale_corr (hp : ∀ i, i < p → 0 < S i i) {i j : ℕ} (hi : i < p) (hj : j < p) : scaleDiag S (wts S) i j = corrOf S i j := by
  have h1 := Real.sqrt_pos.2 (hp i hi)
  have h2 := Real.sqrt_pos.2 (hp j hj)
  rw [scaleDiag, wts, wts, corrOf, Real.sqrt_mul (hp i hi).le]
  field_simp

theorem vecAt_code (E : ℕ → ℕ → ℝ) {i j : ℕ} (hi : i < p) : vecAt p E (j * p + i) = E i j := by rw [vecAt, code_mod hi, code_div hi]

theorem corrOf_symm (hs : ∀ i j, S i j = S j i) (i j : ℕ) : corrOf S i j = corrOf S j i := by rw [corrOf, corrOf, hs, mul_comm]

/-- **C131** `A` is the derivative of the correlations with respect to the covariances. -/
theorem C131_jacobian (hp : ∀ i, i < p → 0 < S i i) (hs : ∀ i j, S i j = S j i) (E : ℕ → ℕ → ℝ) {i j : ℕ} (hi : i < p) (hj : j < p) :
    HasDerivAt (fun t : ℝ => corrOf (fun a b => S a b + t * E a b) i j) (∑ k ∈ Finset.range (p * p), neuA p S (j * p + i) k * vecAt p E k) 0 := by
  rw [neuA_row S _ hi hj, vecAt_code E hi, vecAt_code E hj, vecAt_code E hi, scale_corr hp hi hj, scale_corr hp hj hi, corrOf_symm hs j i]
  have hd : ∀ a b, HasDerivAt (fun t : ℝ => S a b + t * E a b) (E a b) 0 := fun a b =>
    (((hasDerivAt_id (0 : ℝ)).mul_const (E a b)).const_add (S a b)).congr_deriv (one_mul _)
  have h1 := hp i hi
  have h2 := hp j hj
  have hq := ((hd i i).fun_mul (hd j j)).sqrt (by simp; exact ⟨h1.ne', h2.ne'⟩)
  have := (hd i j).fun_div hq (by simp only [zero_mul, add_zero]; exact (Real.sqrt_pos.2 (by positivity)).ne')
  refine this.congr_deriv ?_
  simp only [zero_mul, add_zero]
  rw [wts, wts, corrOf, Real.sqrt_mul h1.le]
  have q1 := Real.sqrt_pos.2 h1
  have q2 := Real.sqrt_pos.2 h2
  have e1 := Real.sq_sqrt h1.le
  have e2 := Real.sq_sqrt h2.le
  obtain ⟨a, ha⟩ : ∃ a, a = √(S i i) := ⟨_, rfl⟩
  obtain ⟨b, hb⟩ : ∃ b, b = √(S j j) := ⟨_, rfl⟩
  rw [← ha] at q1 e1 ⊢
  rw [← hb] at q2 e2 ⊢
  rw [← e1, ← e2]
  field_simp
  ring

theorem neu_V {i j k l : ℕ} (S : ℕ → ℕ → ℝ) (hi : i < p) (hj : j < p) (hk : k < p) :
    2 * mm (p * p) (fun i j => nmatM p i j / 2) (kronM p S S) (j * p + i) (l * p + k) + vecAt p S (j * p + i) * vecAt p S (l * p + k) =
    S i k * S j l + S i l * S j k + S i j * S k l := by
  rw [sym_row (M := fun i j => nmatM p i j / 2) (fun a b c _ => nmat_entry a b c) _ _ hi hj, kron_entry _ _ hi hk, kron_entry _ _ hj hk, vecAt_code _ hi, vecAt_code _ hk]
  ring

theorem S_corr (hp : ∀ i, i < p → 0 < S i i) {i j : ℕ} (hi : i < p) (hj : j < p) : S i j = √(S i i) * √(S j j) * corrOf S i j := by
  have h1 := Real.sqrt_pos.2 (hp i hi)
  have h2 := Real.sqrt_pos.2 (hp j hj)
  rw [corrOf, Real.sqrt_mul (hp i hi).le]
  field_simp

/-- **C131** `corr_acov_neudecker` has the asymptotic covariances of sample correlations from normal data. -/
theorem C131_neudecker (hp : ∀ i, i < p → 0 < S i i) (hs : ∀ i j, S i j = S j i) {i j k l : ℕ} (hi : i < p) (hj : j < p) (hk : k < p) (hl : l < p) :
    neudecker p S (j * p + i) (l * p + k) = pf (corrOf S) i j k l := by
  simp only [neudecker]
  rw [mm]
  have e : ∀ m, ∀ V : ℕ → ℕ → ℝ, mm (p * p) (neuA p S) V (j * p + i) m * tr (neuA p S) m (l * p + k) = neuA p S (l * p + k) m * (∑ a ∈ Finset.range (p * p), neuA p S (j * p + i) a * V a m) := by
    intro m V; rw [mm, tr, mul_comm]
  rw [Finset.sum_congr rfl fun m _ => e m _, neuA_row S _ hk hl, neuA_row S _ hi hj, neuA_row S _ hi hj, neuA_row S _ hi hj]
  simp only [neu_V S hi hj hk, neu_V S hi hj hl, neu_V S hj hj hk, neu_V S hj hj hl, neu_V S hi hi hk, neu_V S hi hi hl]
  rw [scale_corr hp hi hj, scale_corr hp hj hi, scale_corr hp hk hl, scale_corr hp hl hk, corrOf_symm hs j i, corrOf_symm hs l k, pf]
  have d1 := Real.mul_self_sqrt (hp i hi).le
  have d2 := Real.mul_self_sqrt (hp j hj).le
  have d3 := Real.mul_self_sqrt (hp k hk).le
  have d4 := Real.mul_self_sqrt (hp l hl).le
  have q1 := Real.sqrt_pos.2 (hp i hi)
  have q2 := Real.sqrt_pos.2 (hp j hj)
  have q3 := Real.sqrt_pos.2 (hp k hk)
  have q4 := Real.sqrt_pos.2 (hp l hl)
  have r1 := S_corr hp hi hk
  have r2 := S_corr hp hi hl
  have r3 := S_corr hp hj hk
  have r4 := S_corr hp hj hl
  have r5 := S_corr hp hi hj
  have r6 := S_corr hp hk hl
  simp only [wts]
  generalize √(S i i) = a at *
  generalize √(S j j) = b at *
  generalize √(S k k) = c at *
  generalize √(S l l) = d at *
  generalize corrOf S i k = R1 at *
  generalize corrOf S i l = R2 at *
  generalize corrOf S j k = R3 at *
  generalize corrOf S j l = R4 at *
  generalize corrOf S i j = R5 at *
  generalize corrOf S k l = R6 at *
  rw [r1, r2, r3, r4, r5, r6, ← d1, ← d2, ← d3, ← d4]
  field_simp
  ring

/-- **C131** In particular the variance of a correlation is `(1 - rho²)²`, and the diagonal does not vary. -/
theorem C131_variance (hp : ∀ i, i < p → 0 < S i i) (hs : ∀ i j, S i j = S j i) {i j k : ℕ} (hi : i < p) (hj : j < p) (hk : k < p) :
    neudecker p S (j * p + i) (j * p + i) = (1 - corrOf S i j ^ 2) ^ 2 ∧ neudecker p S (i * p + i) (k * p + j) = 0 := by
  have h1 : ∀ a, a < p → corrOf S a a = 1 := by
    intro a ha
    rw [corrOf, Real.sqrt_mul_self (hp a ha).le, div_self (hp a ha).ne']
  rw [C131_neudecker hp hs hi hj hi hj, C131_neudecker hp hs hi hi hj hk, pf, pf, h1 i hi, h1 j hj, corrOf_symm hs j i]
  constructor <;> ring

theorem patK_row (B : ℕ → ℕ → ℝ) (n : ℕ) {m : ℕ} (hm : m < p) : mm (p * p) (tr (cooEntry (patK p))) B m n = B (m * p + m) n := patK_col (tr B) n hm

theorem browneA_row (R : ℕ → ℕ → ℝ) (y : ℕ → ℝ) {i j : ℕ} (hi : i < p) (hj : j < p) :
    ∑ n ∈ Finset.range p, tr (mm (p * p) (tr (cooEntry (patK p))) (tr (mm (p * p) (cooEntry (patS p)) (kronM p R eyeM)))) (j * p + i) n * y n = (R j i * y i + R i j * y j) / 2 := by
  have e : ∀ n ∈ Finset.range p, tr (mm (p * p) (tr (cooEntry (patK p))) (tr (mm (p * p) (cooEntry (patS p)) (kronM p R eyeM)))) (j * p + i) n * y n =
      ((if i = n then R j n * y n else 0) + (if j = n then R i n * y n else 0)) / 2 := by
    intro n hn
    have hn' := Finset.mem_range.1 hn
    rw [patK_col _ _ hn', sym_row patS_entry _ _ hi hj, kron_entry _ _ hi hn', kron_entry _ _ hj hn', eyeM, eyeM]
    split_ifs <;> ring
  rw [Finset.sum_congr rfl e, ← Finset.sum_div, Finset.sum_add_distrib, Finset.sum_ite_eq, Finset.sum_ite_eq, if_pos (Finset.mem_range.2 hi), if_pos (Finset.mem_range.2 hj)]

theorem browne_G (R : ℕ → ℕ → ℝ) (kurt : ℝ) {i j k l : ℕ} (hi : i < p) (hj : j < p) (hk : k < p) :
    kurt * (2 * mm (p * p) (cooEntry (patS p)) (kronM p R R) (j * p + i) (l * p + k)) + (kurt - 1) * (vecAt p R (j * p + i) * vecAt p R (l * p + k)) =
    kurt * (R i k * R j l + R i l * R j k) + (kurt - 1) * (R i j * R k l) := by
  rw [sym_row patS_entry _ _ hi hj, kron_entry _ _ hi hk, kron_entry _ _ hj hk, vecAt_code _ hi, vecAt_code _ hk]
  ring

theorem browne_core (R G : ℕ → ℕ → ℝ) {i j k l : ℕ} (hi : i < p) (hj : j < p) (hk : k < p) (hl : l < p) :
    let A := tr (mm (p * p) (tr (cooEntry (patK p))) (tr (mm (p * p) (cooEntry (patS p)) (kronM p R eyeM))))
    let B := tr (mm (p * p) (tr (cooEntry (patK p))) (tr G))
    let C := mm (p * p) (tr (cooEntry (patK p))) B
    G (j * p + i) (l * p + k) - mm p A (tr B) (j * p + i) (l * p + k) - tr (mm p A (tr B)) (j * p + i) (l * p + k) + mm p (mm p A C) (tr A) (j * p + i) (l * p + k) =
    G (j * p + i) (l * p + k) - (R j i * G (l * p + k) (i * p + i) + R i j * G (l * p + k) (j * p + j)) / 2 - (R l k * G (j * p + i) (k * p + k) + R k l * G (j * p + i) (l * p + l)) / 2 +
    (R l k * ((R j i * G (i * p + i) (k * p + k) + R i j * G (j * p + j) (k * p + k)) / 2) + R k l * ((R j i * G (i * p + i) (l * p + l) + R i j * G (j * p + j) (l * p + l)) / 2)) / 2 := by
  intro A B C
  have hB : ∀ c n, n < p → B c n = G c (n * p + n) := fun c n hn => patK_col G c hn
  have hC : ∀ m n, m < p → n < p → C m n = G (m * p + m) (n * p + n) := fun m n hm hn => (patK_row B n hm).trans (hB _ _ hn)
  have h1 : ∀ {a b : ℕ} (c : ℕ), a < p → b < p → mm p A (tr B) (b * p + a) c = (R b a * G c (a * p + a) + R a b * G c (b * p + b)) / 2 := by
    intro a b c ha hb
    rw [← hB c a ha, ← hB c b hb]
    exact browneA_row R (fun n => B c n) ha hb
  have h2 : mm p (mm p A C) (tr A) (j * p + i) (l * p + k) = ∑ n ∈ Finset.range p, A (l * p + k) n * ∑ m ∈ Finset.range p, A (j * p + i) m * C m n :=
    Finset.sum_congr rfl fun n _ => mul_comm _ _
  rw [h2, browneA_row R (fun n => ∑ m ∈ Finset.range p, A (j * p + i) m * C m n) hk hl, browneA_row R (fun m => C m k) hi hj, browneA_row R (fun m => C m l) hi hj,
    hC _ _ hi hk, hC _ _ hj hk, hC _ _ hi hl, hC _ _ hj hl, h1 _ hi hj, tr, h1 _ hk hl]

/-- **C131** `corr_acov_browne` multiplies them by the relative kurtosis. -/
theorem C131_browne (hp : ∀ i, i < p → 0 < S i i) (hs : ∀ i j, S i j = S j i) (kurt : ℝ) {i j k l : ℕ} (hi : i < p) (hj : j < p) (hk : k < p) (hl : l < p) :
    browne p S kurt (j * p + i) (l * p + k) = kurt * pf (corrOf S) i j k l ∧ browne p S kurt (j * p + i) (l * p + k) = kurt * neudecker p S (j * p + i) (l * p + k) := by
  rw [C131_neudecker hp hs hi hj hk hl]
  refine (and_self_iff).2 ?_
  have hR : ∀ a b, a < p → b < p → scaleDiag S (wts S) a b = corrOf S a b := fun a b ha hb => scale_corr hp ha hb
  have hRs : ∀ a b, scaleDiag S (wts S) a b = scaleDiag S (wts S) b a := by intro a b; rw [scaleDiag, scaleDiag, hs]; ring
  have hR1 : ∀ a, a < p → scaleDiag S (wts S) a a = 1 := by
    intro a ha
    rw [hR a a ha ha, corrOf, Real.sqrt_mul_self (hp a ha).le, div_self (hp a ha).ne']
  have hpf : pf (corrOf S) i j k l = pf (scaleDiag S (wts S)) i j k l := by
    simp only [pf, hR _ _ hi hj, hR _ _ hi hk, hR _ _ hi hl, hR _ _ hj hk, hR _ _ hj hl, hR _ _ hk hl]
  rw [hpf]
  simp only [browne]
  obtain ⟨R, eR⟩ : ∃ R, R = scaleDiag S (wts S) := ⟨_, rfl⟩
  rw [← eR] at hRs hR1 ⊢
  refine (browne_core R (fun i j => kurt * (2 * mm (p * p) (cooEntry (patS p)) (kronM p R R) i j) + (kurt - 1) * (vecAt p R i * vecAt p R j)) hi hj hk hl).trans ?_
  simp only [browne_G R kurt hi hj hk, browne_G R kurt hk hl hi, browne_G R kurt hk hl hj, browne_G R kurt hi hj hl, browne_G R kurt hi hi hk, browne_G R kurt hi hi hl,
    browne_G R kurt hj hj hk, browne_G R kurt hj hj hl]
  rw [pf, hRs j i, hRs l k, hRs k i, hRs k j, hRs l i, hRs l j, hR1 i hi, hR1 j hj, hR1 k hk, hR1 l hl]
  ring

/-- **C131** `cov_sample_cov` has the asymptotic covariances of sample covariances of the heterogeneous kurtosis theory. -/
theorem C131_cov (S : ℕ → ℕ → ℝ) (kurt : ℕ → ℝ) {r s k l : ℕ} (h1 : s ≤ r) (h2 : r < p) (h3 : l ≤ k) (h4 : k < p) :
    let C := fun i j => (√(kurt i) + √(kurt j)) / 2 * S i j
    covSampleCov p S kurt (colOff p s + (r - s)) (colOff p l + (k - l)) = C r k * C s l + C r l * C s k + C r s * C k l - S r s * S k l := by
  intro C
  have hC : (fun i j => (1 / 2 * (√(kurt j) + √(kurt i))) * S i j) = C := by
    funext i j; simp only [C]; ring
  have g1 : ∀ X : ℕ → ℕ → ℝ, ∀ {r s : ℕ}, s ≤ r → r < p → (vech X p).getD (colOff p s + (r - s)) 0 = X r s := by
    intro X r s h1 h2
    rw [List.getD_eq_getElem?_getD, vech_getElem? X p r s h1 h2]; rfl
  have hD : ∀ (X : ℕ → ℕ → ℝ) (c : ℕ) {r s : ℕ}, s ≤ r → r < p → mm (p ^ 2) (cooEntry (dpmat (R := ℝ) p)) X (colOff p s + (r - s)) c = (X (s * p + r) c + X (r * p + s) c) / 2 :=
    fun X c r s h1 h2 => dp_matVec p r s h1 h2 fun k => X k c
  have h5 : s < p := lt_of_le_of_lt h1 h2
  have h6 : l < p := lt_of_le_of_lt h3 h4
  simp only [covSampleCov, hC]
  rw [tr, hD _ _ h3 h4, tr, tr, hD _ _ h1 h2, hD _ _ h1 h2, kron_entry _ _ h2 h4, kron_entry _ _ h5 h4, kron_entry _ _ h2 h6, kron_entry _ _ h5 h6]
  simp only [mm, tr, Finset.sum_range_succ, Finset.sum_range_zero, eyeM, g1 C h1 h2, g1 S h1 h2, g1 C h3 h4, g1 S h3 h4]
  norm_num
  ring

/-- **C131** With relative kurtosis one these are the covariances for normal data, and the variance of a sample variance is
`(3 kurt - 1) S²`. -/
theorem C131_cov_normal (S : ℕ → ℕ → ℝ) (kurt : ℕ → ℝ) {r s k l : ℕ} (h1 : s ≤ r) (h2 : r < p) (h3 : l ≤ k) (h4 : k < p) :
    covSampleCov p S (fun _ => 1) (colOff p s + (r - s)) (colOff p l + (k - l)) = S r k * S s l + S r l * S s k ∧
    (0 ≤ kurt r → covSampleCov p S kurt (colOff p r + (r - r)) (colOff p r + (r - r)) = (3 * kurt r - 1) * S r r ^ 2) := by
  refine ⟨?_, fun h0 => ?_⟩
  · rw [C131_cov S _ h1 h2 h3 h4]
    simp only [Real.sqrt_one]
    ring
  · rw [C131_cov S kurt le_rfl h2 le_rfl h2]
    have := Real.sq_sqrt h0
    linear_combination 3 * S r r ^ 2 * this

example : neudecker 2 (fun i j => if i = j then 2 else 1) (1 * 2 + 0) (1 * 2 + 0) = (1 - 1 / 4) ^ 2 := by
  rw [(C131_variance (S := fun i j => if i = j then 2 else 1) (p := 2) (fun i _ => by simp) (fun i j => by simp [eq_comm]) (by norm_num : 0 < 2) (by norm_num : 1 < 2) (by norm_num : 1 < 2)).1, corrOf]
  norm_num

end

end Verif.Cov
