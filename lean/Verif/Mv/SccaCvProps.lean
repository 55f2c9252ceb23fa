import Verif.Mv.SccaCv
import Verif.Eln.FoldProps
import Mathlib.Tactic.FieldSimp
import Mathlib.Tactic.Linarith
import Mathlib.Tactic.LinearCombination
import Mathlib.Tactic.FinCases
import Mathlib.Algebra.BigOperators.Fin

namespace Verif.Mv.SccaCv

variable {n : ℕ}

theorem cmean_affine (hn : 0 < n) (x : Fin n → ℝ) (a b : ℝ) : cmean (fun i => a * x i + b) = a * cmean x + b := by
  have hn' : (n : ℝ) ≠ 0 := by exact_mod_cast hn.ne'
  simp only [cmean, Finset.sum_add_distrib, ← Finset.mul_sum, Finset.sum_const, Finset.card_univ, Fintype.card_fin, nsmul_eq_mul]
  field_simp

theorem cstd_affine (hn : 0 < n) (x : Fin n → ℝ) (a b : ℝ) (ha : 0 < a) : cstd (fun i => a * x i + b) = a * cstd x := by
  rw [cstd, cmean_affine hn]
  have : ∀ i, (a * x i + b - (a * cmean x + b)) ^ 2 = a ^ 2 * (x i - cmean x) ^ 2 := fun i => by ring
  simp only [this, ← Finset.mul_sum]
  rw [mul_div_assoc, Real.sqrt_mul (sq_nonneg a), Real.sqrt_sq ha.le, cstd]

theorem cstd_centre (hn : 0 < n) (x : Fin n → ℝ) : cstd (fun i => x i - cmean x) = cstd x := by
  have := cstd_affine hn x 1 (-cmean x) one_pos
  simpa [sub_eq_add_neg] using this

theorem stdize_eq (hn : 0 < n) (x : Fin n → ℝ) : stdize x = if cstd x = 0 then none else some fun i => (x i - cmean x) / cstd x := by
  rw [stdize]
  simp only [cstd_centre hn]

theorem cstd_sq (x : Fin n → ℝ) : cstd x ^ 2 = (∑ i, (x i - cmean x) ^ 2) / n :=
  Real.sq_sqrt (div_nonneg (Finset.sum_nonneg fun _ _ => sq_nonneg _) (Nat.cast_nonneg n))

/-- **C251** A standardised column has mean zero and mean square one; it fails exactly for a constant column. -/
theorem C251_standard (hn : 0 < n) (x : Fin n → ℝ) :
    (stdize x = none ↔ ∀ i, x i = cmean x) ∧ ∀ z, stdize x = some z → ∑ i, z i = 0 ∧ ∑ i, z i ^ 2 = n := by
  have hn' : (n : ℝ) ≠ 0 := by exact_mod_cast hn.ne'
  rw [stdize_eq hn]
  constructor
  · have : cstd x = 0 ↔ ∀ i, x i = cmean x := by
      rw [cstd, Real.sqrt_eq_zero (div_nonneg (Finset.sum_nonneg fun _ _ => sq_nonneg _) (Nat.cast_nonneg n)), div_eq_zero_iff, or_iff_left hn',
        Finset.sum_eq_zero_iff_of_nonneg fun _ _ => sq_nonneg _]
      simp [sub_eq_zero]
    by_cases h : cstd x = 0
    · rw [if_pos h]; exact ⟨fun _ => this.1 h, fun _ => rfl⟩
    · rw [if_neg h]; exact ⟨(nomatch ·), fun hh => absurd (this.2 hh) h⟩
  · intro z hz
    split_ifs at hz with h
    injection hz with hz
    subst hz
    constructor
    · rw [← Finset.sum_div, Finset.sum_sub_distrib, Finset.sum_const, Finset.card_univ, Fintype.card_fin, nsmul_eq_mul, cmean, mul_div_cancel₀ _ hn', sub_self,
        zero_div]
    · simp only [div_pow]
      rw [← Finset.sum_div, cstd_sq, div_div_eq_mul_div]
      have hs : ∑ i, (x i - cmean x) ^ 2 ≠ 0 := by
        intro h0
        apply h
        rw [cstd, h0, zero_div, Real.sqrt_zero]
      exact mul_div_cancel_left₀ _ hs

/-- **C251** The correlation is between minus one and one, and one of a column with itself. -/
theorem C251_corr_range (hn : 0 < n) (x y : Fin n → ℝ) (r : ℝ) (h : corrCol x y = some r) : |r| ≤ 1 ∧ ((stdize x).isSome → corrCol x x = some 1) := by
  have hn' : (n : ℝ) ≠ 0 := by exact_mod_cast hn.ne'
  have hpos : (0 : ℝ) < n := by exact_mod_cast hn
  constructor
  · rw [corrCol] at h
    cases hx : stdize x with
    | none => rw [hx] at h; cases h
    | some a =>
      cases hy : stdize y with
      | none => rw [hx, hy] at h; cases h
      | some b =>
        rw [hx, hy] at h
        have h' : (∑ i, a i * b i) / (n : ℝ) = r := by injection h
        obtain ⟨-, ha⟩ := (C251_standard hn x).2 a hx
        obtain ⟨-, hb⟩ := (C251_standard hn y).2 b hy
        have cs := Finset.sum_mul_sq_le_sq_mul_sq Finset.univ a b
        rw [ha, hb] at cs
        rw [← h', abs_div, abs_of_pos hpos, div_le_one hpos]
        exact abs_le_of_sq_le_sq (by nlinarith) hpos.le
  · intro hs
    obtain ⟨a, ha⟩ := Option.isSome_iff_exists.1 hs
    obtain ⟨-, h2⟩ := (C251_standard hn x).2 a ha
    have : ∑ i, a i * a i = n := by rw [← h2]; exact Finset.sum_congr rfl fun i _ => by ring
    rw [corrCol, ha]
    show some ((∑ i, a i * a i) / (n : ℝ)) = some 1
    rw [this, div_self hn']

/-- **C251** Units and origins do not matter for standardised columns and correlations. -/
theorem C251_units (hn : 0 < n) (x y : Fin n → ℝ) (a b c d : ℝ) (ha : 0 < a) (hc : 0 < c) :
    stdize (fun i => a * x i + b) = stdize x ∧ corrCol (fun i => a * x i + b) (fun i => c * y i + d) = corrCol x y := by
  have key : ∀ (x : Fin n → ℝ) (a b : ℝ), 0 < a → stdize (fun i => a * x i + b) = stdize x := by
    intro x a b ha
    rw [stdize_eq hn, stdize_eq hn, cstd_affine hn x a b ha, cmean_affine hn]
    by_cases h : cstd x = 0
    · rw [if_pos (by rw [h, mul_zero]), if_pos h]
    · rw [if_neg (mul_ne_zero ha.ne' h), if_neg h]
      congr 1
      funext i
      have := ha.ne'
      field_simp
      ring
  exact ⟨key x a b ha, by rw [corrCol, corrCol, key x a b ha, key y c d hc]⟩

/-- **C251** The folds: with at least two, every observation is in one test set and in the fitting sets of the others. -/
theorem C251_folds (N k : ℕ) (hk : 2 ≤ k) : ∃ fs, folds N k = some fs ∧ fs.length = k ∧ (fs.map Prod.snd).flatten = List.range N ∧
    ∀ f ∈ fs, (f.1 ++ f.2).Perm (List.range N) := by
  have e : folds N k = some ((List.range k).map fun i => (((List.range k).filter (· ≠ i)).flatMap (Verif.Eln.part (List.range N) k), Verif.Eln.part (List.range N) k i)) := by
    rw [folds, Verif.Eln.arraySplit_eq _ (by omega)]
    exact Verif.Eln.foldPairs_eq _ hk
  refine ⟨_, e, by simp, ?_, ?_⟩
  · rw [List.map_map, ← List.flatMap_def]
    exact Verif.Eln.part_flat (List.range N) (by omega)
  · intro f hf
    obtain ⟨i, hi, rfl⟩ := List.mem_map.1 hf
    have := Verif.Eln.pair_perm (Verif.Eln.part (List.range N) k) (List.mem_range.1 hi)
    rwa [Verif.Eln.part_flat (List.range N) (by omega)] at this

/-- **C251** With one variable on each side the score of a test fold is the correlation of the fold, up to the signs of the weights: own moments do no
harm there. -/
theorem C251_single_partial (hn : 0 < n) (x y : Fin n → ℝ) (u v : ℝ) (hu : 0 < u) (hv : 0 < v) (hx : (stdize x).isSome) (hy : (stdize y).isSome) :
    testCorr (fun _ : Fin 1 => x) (fun _ : Fin 1 => y) (fun _ => u) (fun _ => v) = corrCol x y := by
  have key : ∀ (x : Fin n → ℝ) (u : ℝ), 0 < u → (stdize x).isSome → ∃ a b, 0 < a ∧ foldScore (fun _ : Fin 1 => x) (fun _ => u) = some fun i => a * x i + b := by
    intro x u hu hx
    have hs : cstd x ≠ 0 := by
      intro h
      rw [stdize_eq hn, if_pos h] at hx
      cases hx
    have hpos : 0 < cstd x := lt_of_le_of_ne (Real.sqrt_nonneg _) (Ne.symm hs)
    refine ⟨u / cstd x, -(cmean x * u / cstd x), div_pos hu hpos, ?_⟩
    rw [foldScore, if_pos fun _ => hx, stdize_eq hn, if_neg hs]
    congr 1
    funext i
    simp only [Option.getD_some, Fin.sum_univ_one]
    field_simp
    ring
  obtain ⟨a, b, ha, e1⟩ := key x u hu hx
  obtain ⟨c, d, hc, e2⟩ := key y v hv hy
  rw [testCorr, e1, e2]
  exact (C251_units hn x y a b c d ha hc).2

/-! ### Two variables -/

/-- A test fold of two variables. -/
def tx : Fin 2 → Fin 4 → ℝ := ![![2, -2, 0, 0], ![0, 0, 1, -1]]
def ty : Fin 1 → Fin 4 → ℝ := ![![1, -1, 1, -1]]

theorem tx0 : cmean (tx 0) = 0 ∧ cstd (tx 0) = √2 := by
  have h : cmean (tx 0) = 0 := by simp [cmean, tx, Fin.sum_univ_four]
  refine ⟨h, ?_⟩
  rw [cstd, h]; congr 1; simp [tx, Fin.sum_univ_four]; norm_num

theorem tx1 : cmean (tx 1) = 0 ∧ cstd (tx 1) = √(1 / 2) := by
  have h : cmean (tx 1) = 0 := by simp [cmean, tx, Fin.sum_univ_four]
  refine ⟨h, ?_⟩
  rw [cstd, h]; congr 1; simp [tx, Fin.sum_univ_four]; norm_num

theorem ty0 : cmean (ty 0) = 0 ∧ cstd (ty 0) = 1 := by
  have h : cmean (ty 0) = 0 := by simp [cmean, ty, Fin.sum_univ_four]
  refine ⟨h, ?_⟩
  rw [cstd, h, Real.sqrt_eq_one]; simp [ty, Fin.sum_univ_four]; norm_num

/-- **C251** A test fold is scaled by its own standard deviations: the weights are applied to other variables than those they were fitted for.  Here
the fold scores a correlation of one, while the same weights on the same rows in the scale of a fitting set with unit standard deviations score less. -/
theorem C251_scale_violated :
    testCorr tx ty (fun _ => 1) (fun _ => 1) = some 1 ∧ corrCol (fun i => tx 0 i + tx 1 i) (ty 0) = some (3 / √10) ∧ (3 / √10 : ℝ) < 1 := by
  have s2 : √(1 / 2 : ℝ) = √2 / 2 := by
    rw [Real.sqrt_eq_iff_mul_self_eq (by norm_num) (by positivity)]
    have := Real.mul_self_sqrt (show (0 : ℝ) ≤ 2 by norm_num)
    nlinarith
  have r2 : (0 : ℝ) < √2 := Real.sqrt_pos.2 (by norm_num)
  have q2 := Real.mul_self_sqrt (show (0 : ℝ) ≤ 2 by norm_num)
  have n4 : 0 < 4 := by norm_num
  have e0 : stdize (tx 0) = some fun i => tx 0 i / √2 := by
    rw [stdize_eq n4, tx0.1, tx0.2, if_neg r2.ne']; simp
  have e1 : stdize (tx 1) = some fun i => tx 1 i / (√2 / 2) := by
    rw [stdize_eq n4, tx1.1, tx1.2, s2, if_neg (by positivity)]; simp
  have ey : stdize (ty 0) = some (ty 0) := by
    rw [stdize_eq n4, ty0.1, ty0.2, if_neg one_ne_zero]; simp
  have f1 : foldScore tx (fun _ => 1) = some fun i => √2 * ty 0 i + 0 := by
    rw [foldScore, if_pos]
    · congr 1
      funext i
      rw [Fin.sum_univ_two, e0, e1]
      simp only [Option.getD_some, mul_one, add_zero]
      have a : (2 : ℝ) / √2 = √2 := by rw [div_eq_iff r2.ne', q2]
      have b : (1 : ℝ) / (√2 / 2) = √2 := by rw [div_eq_iff (by positivity)]; linarith
      fin_cases i
      · show (2 : ℝ) / √2 + 0 / (√2 / 2) = √2 * 1; rw [a]; ring
      · show (-2 : ℝ) / √2 + 0 / (√2 / 2) = √2 * -1; rw [neg_div, a]; ring
      · show (0 : ℝ) / √2 + 1 / (√2 / 2) = √2 * 1; rw [b]; ring
      · show (0 : ℝ) / √2 + -1 / (√2 / 2) = √2 * -1; rw [neg_div, b]; ring
    · intro j
      fin_cases j
      · show (stdize (tx 0)).isSome = true; rw [e0]; rfl
      · show (stdize (tx 1)).isSome = true; rw [e1]; rfl
  have f2 : foldScore ty (fun _ => 1) = some fun i => 1 * ty 0 i + 0 := by
    rw [foldScore, if_pos]
    · congr 1
      funext i
      rw [Fin.sum_univ_one, ey]
      simp
    · intro j
      rw [Subsingleton.elim j 0, ey]; rfl
  have cy : corrCol (ty 0) (ty 0) = some 1 := by
    rw [corrCol, ey]
    show some ((∑ i, ty 0 i * ty 0 i) / ((4 : ℕ) : ℝ)) = some 1
    congr 1
    simp [ty, Fin.sum_univ_four]; norm_num
  refine ⟨?_, ?_, ?_⟩
  · rw [testCorr, f1, f2]
    exact ((C251_units n4 (ty 0) (ty 0) (√2) 0 1 0 r2 one_pos).2).trans cy
  · have hm : cmean (fun i => tx 0 i + tx 1 i) = 0 := by simp [cmean, tx, Fin.sum_univ_four]
    have hs : cstd (fun i => tx 0 i + tx 1 i) = √10 / 2 := by
      rw [cstd, hm, Real.sqrt_eq_iff_mul_self_eq (by positivity) (by positivity)]
      have := Real.mul_self_sqrt (show (0 : ℝ) ≤ 10 by norm_num)
      simp [tx, Fin.sum_univ_four]
      nlinarith
    have r10 : (0 : ℝ) < √10 := Real.sqrt_pos.2 (by norm_num)
    have e : stdize (fun i => tx 0 i + tx 1 i) = some fun i => (tx 0 i + tx 1 i) / (√10 / 2) := by
      rw [stdize_eq n4, hm, hs, if_neg (by positivity)]; simp
    rw [corrCol, e, ey]
    show some ((∑ i, (tx 0 i + tx 1 i) / (√10 / 2) * ty 0 i) / ((4 : ℕ) : ℝ)) = some (3 / √10)
    congr 1
    simp [tx, ty, Fin.sum_univ_four]
    field_simp
    norm_num
  · rw [div_lt_one (Real.sqrt_pos.2 (by norm_num))]
    exact Real.lt_sqrt_of_sq_lt (by norm_num)

/-- **C251** The starting weights do depend on the origins: the matrix whose singular vectors they are is made of the raw columns. -/
theorem C251_start_violated : ∃ (X X' Y : Fin 1 → Fin 2 → ℝ), stdize (X 0) = stdize (X' 0) ∧ 0 < startS X Y 0 0 ∧ startS X' Y 0 0 < 0 := by
  refine ⟨fun _ => ![0, 1], fun _ => ![-2, -1], fun _ => ![1, 2], ?_, ?_, ?_⟩
  · have := (C251_units (show 0 < 2 by norm_num) ![0, 1] ![0, 1] 1 (-2) 1 0 one_pos one_pos).1
    rw [← this]
    congr 1
    funext i
    fin_cases i <;> norm_num
  · simp [startS, Fin.sum_univ_two]
  · simp [startS, Fin.sum_univ_two]

/-- **C251** A test fold of one observation has no score. -/
theorem C251_single_violated {p q : ℕ} [NeZero p] (X : Fin p → Fin 1 → ℝ) (Y : Fin q → Fin 1 → ℝ) (wx : Fin p → ℝ) (wy : Fin q → ℝ) : testCorr X Y wx wy = none := by
  have h : foldScore X wx = none := by
    rw [foldScore, if_neg]
    intro hh
    have := hh 0
    rw [(C251_standard one_pos (X 0)).1.2 fun i => by rw [Subsingleton.elim i 0]; simp [cmean]] at this
    cases this
  rw [testCorr, h]; rfl

end Verif.Mv.SccaCv
