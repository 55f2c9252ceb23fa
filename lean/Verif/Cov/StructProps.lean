import Verif.Cov.Struct
import Verif.Like.LeverageProps
import Mathlib.Algebra.BigOperators.Intervals
import Mathlib.Algebra.Order.Chebyshev

namespace Verif.Cov
open Matrix Verif.Like

/-- The leading `n × n` part. -/
def mat (n : ℕ) (R : ℕ → ℕ → ℝ) : Matrix (Fin n) (Fin n) ℝ := Matrix.of fun i j => R i j

/-! ### Assignments -/

theorem assign_of_not_mem {l : List ((ℕ × ℕ) × ℝ)} {R : ℕ → ℕ → ℝ} {i j : ℕ} (h : (i, j) ∉ l.map Prod.fst) : assign R l i j = R i j := by
  induction l generalizing R with
  | nil => rfl
  | cons e l ih =>
    simp only [List.map_cons, List.mem_cons, not_or] at h
    rw [assign, List.foldl_cons, ← assign, ih h.2]
    refine if_neg fun he => h.1 ?_
    rw [he.1, he.2]

theorem assign_of_mem {l : List ((ℕ × ℕ) × ℝ)} {R : ℕ → ℕ → ℝ} {i j : ℕ} {v : ℝ} (hn : (l.map Prod.fst).Nodup) (h : ((i, j), v) ∈ l) : assign R l i j = v := by
  induction l generalizing R with
  | nil => simp at h
  | cons e l ih =>
    rw [List.map_cons, List.nodup_cons] at hn
    rw [assign, List.foldl_cons, ← assign]
    rcases List.mem_cons.1 h with h | h
    · subst h
      rw [assign_of_not_mem hn.1]
      exact if_pos ⟨rfl, rfl⟩
    · exact ih hn.2 h

theorem mem_triu1 {n i j : ℕ} : (i, j) ∈ triu1 n ↔ i < j ∧ j < n := by
  simp only [triu1, List.mem_flatMap, List.mem_range, List.mem_map, List.mem_range'_1, Prod.mk.injEq]
  constructor
  · rintro ⟨a, ha, b, hb, rfl, rfl⟩; omega
  · intro h; exact ⟨i, by omega, j, by omega, rfl, rfl⟩

theorem mem_tril1 {n i j : ℕ} : (i, j) ∈ tril1 n ↔ j < i ∧ i < n := by
  simp only [tril1, List.mem_flatMap, List.mem_range, List.mem_map, Prod.mk.injEq]
  constructor
  · rintro ⟨a, ha, b, hb, rfl, rfl⟩; omega
  · intro h; exact ⟨i, by omega, j, by omega, rfl, rfl⟩

theorem nodup_flat {f : ℕ → List ℕ} {l : List ℕ} (hl : l.Nodup) (hf : ∀ i, (f i).Nodup) : (l.flatMap fun i => (f i).map fun j => (i, j)).Nodup := by
  induction l with
  | nil => simp
  | cons a l ih =>
    rw [List.nodup_cons] at hl
    rw [List.flatMap_cons, List.nodup_append]
    refine ⟨(hf a).map fun x y h => (Prod.mk.injEq _ _ _ _ ▸ h).2, ih hl.2, fun x hx y hy hxy => ?_⟩
    subst hxy
    obtain ⟨b, -, rfl⟩ := List.mem_map.1 hx
    obtain ⟨c, hc, hd⟩ := List.mem_flatMap.1 hy
    obtain ⟨d, -, he⟩ := List.mem_map.1 hd
    rw [Prod.mk.injEq] at he
    exact hl.1 (he.1 ▸ hc)

theorem nodup_triu1 (n : ℕ) : (triu1 n).Nodup := nodup_flat List.nodup_range fun i => List.nodup_range'

theorem nodup_tril1 (n : ℕ) : (tril1 n).Nodup := nodup_flat List.nodup_range fun i => List.nodup_range

/-! ### Antedependence and autoregression -/

/-- The correlations of a Markov sequence whose neighbours have correlations `rho`. -/
def anteS (rho : ℕ → ℝ) (i j : ℕ) : ℝ := ∏ l ∈ Finset.Ico (min i j) (max i j), rho l

theorem anteS_symm (rho : ℕ → ℝ) (i j : ℕ) : anteS rho i j = anteS rho j i := by rw [anteS, anteS, min_comm, max_comm]

theorem anteS_self (rho : ℕ → ℝ) (i : ℕ) : anteS rho i i = 1 := by simp [anteS]

/-- Its factor. -/
noncomputable def anteL (rho : ℕ → ℝ) (i k : ℕ) : ℝ :=
  if k ≤ i then (∏ l ∈ Finset.Ico k i, rho l) * (if k = 0 then 1 else √(1 - rho (k - 1) ^ 2)) else 0

theorem anteL_sq {rho : ℕ → ℝ} {n : ℕ} (h : ∀ l, l + 1 < n → |rho l| ≤ 1) : ∀ i < n, ∑ k ∈ Finset.range (i + 1), anteL rho i k ^ 2 = 1 := by
  intro i
  induction i with
  | zero => intro _; simp [anteL]
  | succ i ih =>
    intro hi
    rw [Finset.sum_range_succ]
    have h1 : ∀ k ∈ Finset.range (i + 1), anteL rho (i + 1) k ^ 2 = rho i ^ 2 * anteL rho i k ^ 2 := by
      intro k hk
      have hk : k ≤ i := Nat.lt_succ_iff.1 (Finset.mem_range.1 hk)
      rw [anteL, anteL, if_pos hk, if_pos (by omega), Finset.prod_Ico_succ_top hk]
      ring
    have h2 : anteL rho (i + 1) (i + 1) ^ 2 = 1 - rho i ^ 2 := by
      have := abs_le.1 (h i hi)
      simp only [anteL, le_refl, if_true, Finset.Ico_self, Finset.prod_empty, one_mul, Nat.succ_ne_zero, if_false, Nat.add_sub_cancel]
      exact Real.sq_sqrt (by nlinarith)
    rw [Finset.sum_congr rfl h1, ← Finset.mul_sum, ih (by omega), h2]
    ring

theorem anteL_mul {rho : ℕ → ℝ} {n : ℕ} (h : ∀ l, l + 1 < n → |rho l| ≤ 1) {i j : ℕ} (hij : i ≤ j) (hj : j < n) :
    ∑ k ∈ Finset.range n, anteL rho i k * anteL rho j k = anteS rho i j := by
  have h1 : ∑ k ∈ Finset.range n, anteL rho i k * anteL rho j k = ∑ k ∈ Finset.range (i + 1), anteL rho i k * anteL rho j k := by
    refine (Finset.sum_subset (Finset.range_subset_range.2 (by omega)) fun k _ hk => ?_).symm
    rw [anteL, if_neg (by simpa using hk), zero_mul]
  have h2 : ∀ k ∈ Finset.range (i + 1), anteL rho i k * anteL rho j k = (∏ l ∈ Finset.Ico i j, rho l) * anteL rho i k ^ 2 := by
    intro k hk
    have hk : k ≤ i := Nat.lt_succ_iff.1 (Finset.mem_range.1 hk)
    simp only [anteL]
    rw [if_pos hk, if_pos (hk.trans hij), ← Finset.prod_Ico_consecutive rho hk hij]
    ring
  rw [h1, Finset.sum_congr rfl h2, ← Finset.mul_sum, anteL_sq h i (by omega), mul_one, anteS, min_eq_left hij, max_eq_right hij]

theorem anteS_gram {rho : ℕ → ℝ} {n : ℕ} (h : ∀ l, l + 1 < n → |rho l| ≤ 1) : mat n (anteS rho) = mat n (anteL rho) * (mat n (anteL rho))ᵀ := by
  ext i j
  rw [Matrix.mul_apply]
  simp only [mat, Matrix.of_apply, Matrix.transpose_apply]
  rw [Finset.sum_fin_eq_sum_range]
  have e : ∀ k ∈ Finset.range n, (if hk : k < n then anteL rho i k * anteL rho j k else 0) = anteL rho i k * anteL rho j k :=
    fun k hk => dif_pos (Finset.mem_range.1 hk)
  rw [Finset.sum_congr rfl e]
  rcases le_total (i : ℕ) j with hij | hij
  · exact (anteL_mul h hij j.2).symm
  · rw [anteS_symm, ← anteL_mul h hij i.2]
    exact Finset.sum_congr rfl fun k _ => mul_comm _ _

/-- **C129** The correlations of a Markov sequence form a positive semidefinite matrix. -/
theorem C129_ante_psd {rho : ℕ → ℝ} {n : ℕ} (h : ∀ l, l + 1 < n → |rho l| ≤ 1) : (mat n (anteS rho)).PosSemidef := by
  rw [anteS_gram h, ← Matrix.conjTranspose_eq_transpose_of_trivial]
  exact posSemidef_self_mul_conjTranspose _

/-- **C129** It is positive definite when neighbours are not collinear. -/
theorem C129_ante_pd {rho : ℕ → ℝ} {n : ℕ} (h : ∀ l, l + 1 < n → |rho l| < 1) : (mat n (anteS rho)).PosDef := by
  have hp := C129_ante_psd (rho := rho) (n := n) fun l hl => (h l hl).le
  refine hp.posDef_iff_isUnit.2 ((isUnit_iff_isUnit_det _).2 ?_)
  have hL : IsUnit (mat n (anteL rho)).det := by
    refine unit_chol (fun i j hij => ?_) fun i => ?_
    · exact if_neg (by have : (i : ℕ) < j := hij; omega)
    · simp only [mat, Matrix.of_apply, anteL, le_refl, if_true, Finset.Ico_self, Finset.prod_empty, one_mul]
      split_ifs with h0
      · exact one_pos
      · have := abs_lt.1 (h (i - 1) (by have := i.2; omega))
        exact Real.sqrt_pos.2 (by nlinarith)
  rw [anteS_gram fun l hl => (h l hl).le, det_mul, det_transpose]
  exact hL.mul hL

theorem ar1_eq (rho : ℝ) (i j : ℕ) : ar1Corr rho i j = anteS (fun _ => rho) i j := by simp [ar1Corr, anteS]

/-- **C129** `get_ar1_corr` is a correlation matrix with the correlation `rho` to the power of the lag. -/
theorem C129_ar1 (n : ℕ) {rho : ℝ} (h : |rho| ≤ 1) : (∀ i, ar1Corr rho i i = 1) ∧ (∀ i k, ar1Corr rho i (i + k) = rho ^ k) ∧ (mat n (ar1Corr rho)).PosSemidef ∧
    (|rho| < 1 → (mat n (ar1Corr rho)).PosDef) := by
  have e : ar1Corr rho = anteS fun _ => rho := by funext i j; exact ar1_eq rho i j
  refine ⟨fun i => by simp [ar1Corr], fun i k => by simp [ar1Corr], ?_, fun h1 => ?_⟩ <;> rw [e]
  · exact C129_ante_psd fun _ _ => h
  · exact C129_ante_pd fun _ _ => h1

example : (mat 5 (ar1Corr (1 / 2))).PosDef := (C129_ar1 5 (by norm_num [abs_of_pos])).2.2.2 (by norm_num [abs_of_pos])

/-- The list `r` of the code goes through the pairs above the diagonal row by row. -/
theorem ante_r (rho : List ℝ) : (List.range (rho.length + 1 - 1)).flatMap (fun i => cumprod (rho.drop i)) =
    (triu1 (rho.length + 1)).map fun p => anteS (fun l => rho.getD l 0) p.1 p.2 := by
  rw [triu1, List.map_flatMap, List.range_succ, List.flatMap_append]
  simp only [List.flatMap_cons, List.flatMap_nil, List.append_nil, Nat.sub_self, List.range'_zero, List.map_nil, Nat.add_sub_cancel, List.map_map]
  have key : ∀ i ∈ List.range rho.length, cumprod (rho.drop i) =
      (List.range' (i + 1) (rho.length + 1 - (i + 1))).map ((fun p : ℕ × ℕ => anteS (fun l => rho.getD l 0) p.1 p.2) ∘ fun j => (i, j)) := by
    intro i hi
    have hi : i < rho.length := List.mem_range.1 hi
    rw [cumprod, List.length_drop, List.range'_eq_map_range, List.map_map, show rho.length + 1 - (i + 1) = rho.length - i by omega]
    refine List.map_congr_left fun k hk => ?_
    have hk : k < rho.length - i := List.mem_range.1 hk
    simp only [Function.comp, anteS]
    rw [min_eq_left (by omega), max_eq_right (by omega), show i + 1 + k = i + (k + 1) by ring]
    have : ∀ m ≤ rho.length - i, ((rho.drop i).take m).prod = ∏ l ∈ Finset.Ico i (i + m), rho.getD l 0 := by
      intro m
      induction m with
      | zero => intro _; simp
      | succ m ih =>
        intro hm
        rw [List.take_succ_eq_append_getElem (by rw [List.length_drop]; omega), List.prod_append, ih (by omega), ← Nat.add_assoc,
          Finset.prod_Ico_succ_top (by omega), List.prod_singleton, List.getElem_drop, List.getD_eq_getElem _ _ (by omega)]
    exact this (k + 1) (by omega)
  rw [List.flatMap_def, List.flatMap_def, List.map_congr_left key]

theorem zip_keys {l : List (ℕ × ℕ)} {r : List ℝ} {p : ℕ × ℕ} (h : p ∈ (l.zip r).map Prod.fst) : p ∈ l := by
  obtain ⟨⟨q, v⟩, he, rfl⟩ := List.mem_map.1 h
  exact (List.of_mem_zip he).1

/-- **C129** Below the diagonal `get_antedependence1_corr` has the products of the correlations between. -/
theorem C129_ante_lower (rho : List ℝ) {i j : ℕ} (hj : j < i) (hi : i < rho.length + 1) : anteCorr rho i j = anteS (fun l => rho.getD l 0) i j := by
  rw [anteCorr, assign_of_not_mem, ante_r]
  · refine assign_of_mem ?_ ?_
    · rw [List.map_fst_zip (by simp)]
      exact (nodup_triu1 _).map Prod.swap_injective
    · obtain ⟨k, hk, e⟩ := List.mem_iff_getElem.1 (mem_triu1.2 ⟨hj, hi⟩)
      rw [List.mem_iff_getElem]
      refine ⟨k, by simpa using hk, ?_⟩
      simp only [List.getElem_zip, List.getElem_map, e, Prod.swap_prod_mk, anteS_symm _ j i]
  · intro h
    obtain ⟨⟨a, b⟩, hq, he⟩ := List.mem_map.1 (zip_keys h)
    rw [mem_tril1] at hq
    simp only [Prod.swap_prod_mk, Prod.mk.injEq] at he
    omega

/-- **C129** With up to three variables it is the correlation matrix of the Markov sequence. -/
theorem C129_ante_partial (rho : List ℝ) (h : rho.length ≤ 2) {i j : ℕ} (hi : i < rho.length + 1) (hj : j < rho.length + 1) :
    anteCorr rho i j = anteS (fun l => rho.getD l 0) i j := by
  rcases lt_trichotomy j i with h1 | h1 | h1
  · exact C129_ante_lower rho h1 hi
  · subst h1
    rw [anteS_self, anteCorr, assign_of_not_mem, assign_of_not_mem]
    · exact if_pos rfl
    all_goals
      intro h
      obtain ⟨⟨a, b⟩, hq, he⟩ := List.mem_map.1 (zip_keys h)
      first | rw [mem_tril1] at hq | rw [mem_triu1] at hq
      simp only [Prod.swap_prod_mk, Prod.mk.injEq] at he
      omega
  · match rho, h with
    | [], _ => simp at hj; omega
    | [a], _ =>
      have e1 : i = 0 := by simp at hj; omega
      have e2 : j = 1 := by simp at hj; omega
      subst e1 e2
      simp [anteCorr, tril1, triu1, assign, cumprod, List.range_succ, anteS]
    | [a, b], _ =>
      simp only [List.length_cons, List.length_nil] at hj
      have : (i = 0 ∧ j = 1) ∨ (i = 0 ∧ j = 2) ∨ (i = 1 ∧ j = 2) := by omega
      rcases this with ⟨rfl, rfl⟩ | ⟨rfl, rfl⟩ | ⟨rfl, rfl⟩ <;>
        simp [anteCorr, tril1, triu1, assign, cumprod, List.range_succ, anteS, List.range'_succ, Finset.prod_Ico_eq_prod_range, Finset.prod_range_succ]

/-- **C129** Violated: with four or more variables the values above the diagonal are in the wrong order: the second
and third variable have the correlation of the first and fourth, and the matrix is not symmetric. -/
theorem C129_ante_violated (a b c : ℝ) (l : List ℝ) : anteCorr (a :: b :: c :: l) 1 2 = a * b * c ∧ anteCorr (a :: b :: c :: l) 2 1 = b := by
  constructor
  · rw [anteCorr]
    refine assign_of_mem ?_ ?_
    · have hlen : ∀ rho : List ℝ, ((tril1 (rho.length + 1)).map Prod.swap).length ≤ ((List.range (rho.length + 1 - 1)).flatMap fun i => cumprod (rho.drop i)).length := by
        intro rho
        rw [ante_r, List.length_map, List.length_map]
        have hsub : (tril1 (rho.length + 1)).map Prod.swap ⊆ triu1 (rho.length + 1) := by
          intro ⟨x, y⟩ h
          obtain ⟨⟨u, v⟩, hq, he⟩ := List.mem_map.1 h
          rw [mem_tril1] at hq
          simp only [Prod.swap_prod_mk, Prod.mk.injEq] at he
          rw [mem_triu1]; omega
        have := (List.subperm_of_subset ((nodup_tril1 (rho.length + 1)).map Prod.swap_injective) hsub).length_le
        rwa [List.length_map] at this
      rw [List.map_fst_zip (hlen _)]
      exact (nodup_tril1 _).map Prod.swap_injective
    · have e1 : (tril1 ((a :: b :: c :: l).length + 1)).map Prod.swap = (0, 1) :: (0, 2) :: (1, 2) ::
          (((List.range (l.length + 1)).map (· + 3)).flatMap fun i => (List.range i).map fun j => (i, j)).map Prod.swap := by
        simp only [tril1, List.length_cons]
        rw [show l.length + 1 + 1 + 1 + 1 = 3 + (l.length + 1) by ring, List.range_add, List.flatMap_append]
        simp [List.range_succ, List.flatMap_append, add_comm]
      have e2 : ∃ t, (List.range ((a :: b :: c :: l).length + 1 - 1)).flatMap (fun i => cumprod ((a :: b :: c :: l).drop i)) = a :: (a * b) :: (a * b * c) :: t := by
        simp only [List.length_cons, Nat.add_sub_cancel]
        rw [List.range_succ_eq_map, List.flatMap_cons, List.drop_zero, cumprod, List.length_cons, List.length_cons, List.length_cons, List.range_succ_eq_map,
          List.range_succ_eq_map, List.range_succ_eq_map]
        simp only [List.map_cons, List.cons_append]
        exact ⟨_, by simp [mul_assoc]; rfl⟩
      obtain ⟨t, ht⟩ := e2
      rw [e1, ht]
      simp
  · rw [C129_ante_lower _ (by omega) (by simp)]
    simp [anteS]

/-! ### Exchangeable correlations -/

theorem exch_quad (n : ℕ) (c : ℝ) (x : Fin n → ℝ) : x ⬝ᵥ (mat n (fun i j => if i = j then 1 else c) *ᵥ x) = (1 - c) * ∑ i, x i ^ 2 + c * (∑ i, x i) ^ 2 := by
  have e : mat n (fun i j => if i = j then 1 else c) *ᵥ x = fun i => (1 - c) * x i + c * ∑ j, x j := by
    ext i
    simp only [mulVec, dotProduct, mat, of_apply]
    rw [Finset.mul_sum, ← Finset.add_sum_erase _ _ (Finset.mem_univ i), ← Finset.add_sum_erase Finset.univ (fun j => c * x j) (Finset.mem_univ i), if_pos rfl]
    have : ∑ j ∈ Finset.univ.erase i, (if (i : ℕ) = j then 1 else c) * x j = ∑ j ∈ Finset.univ.erase i, c * x j := by
      refine Finset.sum_congr rfl fun j hj => ?_
      rw [if_neg fun h => (Finset.ne_of_mem_erase hj) (Fin.ext h.symm)]
    rw [this]; ring
  rw [e]
  simp only [dotProduct, mul_add, Finset.sum_add_distrib]
  rw [← Finset.sum_mul, sq (∑ i, x i)]
  congr 1
  · rw [Finset.mul_sum]; exact Finset.sum_congr rfl fun i _ => by ring
  · ring

theorem exch_entry {n : ℕ} {c : ℝ} {R : ℕ → ℕ → ℝ} (h : exchCorr n c = some R) {i j : ℕ} (hi : i < n) (hj : j < n) : R i j = if i = j then 1 else c := by
  simp only [exchCorr] at h
  split_ifs at h with h1 h2
  rw [← Option.some.inj h]
  have hk : ∀ l : List (ℕ × ℕ), (l.map fun p => (p, c)).map Prod.fst = l := fun l => by rw [List.map_map]; exact List.map_id _
  rcases lt_trichotomy i j with hij | hij | hij
  · rw [if_neg hij.ne]
    exact assign_of_mem (by rw [hk]; exact nodup_triu1 n) (List.mem_map.2 ⟨(i, j), mem_triu1.2 ⟨hij, hj⟩, rfl⟩)
  · subst hij
    rw [assign_of_not_mem, assign_of_not_mem, if_pos rfl]
    · exact if_pos rfl
    · rw [hk, mem_tril1]; omega
    · rw [hk, mem_triu1]; omega
  · rw [if_neg hij.ne', assign_of_not_mem]
    · exact assign_of_mem (by rw [hk]; exact nodup_tril1 n) (List.mem_map.2 ⟨(i, j), mem_tril1.2 ⟨hij, hi⟩, rfl⟩)
    · rw [hk, mem_triu1]; omega

/-- **C129** Whenever `get_exchangeable_corr` returns, it returns the exchangeable correlation matrix, positive
semidefinite, and definite strictly between the bounds. -/
theorem C129_exchangeable {n : ℕ} {c : ℝ} {R : ℕ → ℕ → ℝ} (h : exchCorr n c = some R) (hn : 2 ≤ n) : mat n R = mat n (fun i j => if i = j then 1 else c) ∧ (mat n R).PosSemidef ∧
    (-1 / ((n : ℝ) - 1) < c → c < 1 → (mat n R).PosDef) := by
  have hm : mat n R = mat n (fun i j => if i = j then 1 else c) := by ext i j; exact exch_entry h i.2 j.2
  have hb : -1 / ((n : ℝ) - 1) ≤ c ∧ c ≤ 1 := by
    simp only [exchCorr] at h
    split_ifs at h with h1 h2
    push Not at h2
    exact h2
  have hn' : (0 : ℝ) < n - 1 := by
    have : (2 : ℝ) ≤ n := by exact_mod_cast hn
    linarith
  have hs : (mat n (fun i j => if i = j then 1 else c)).IsHermitian := by
    ext i j
    simp only [mat, conjTranspose_apply, of_apply, star_trivial, eq_comm]
  have hq : ∀ x : Fin n → ℝ, 0 ≤ 1 - c → 0 ≤ 1 + (n - 1) * c → min (1 - c) (1 + (n - 1) * c) * ∑ i, x i ^ 2 ≤ (1 - c) * ∑ i, x i ^ 2 + c * (∑ i, x i) ^ 2 := by
    intro x h1 h2
    have hs0 : 0 ≤ ∑ i, x i ^ 2 := Finset.sum_nonneg fun i _ => sq_nonneg _
    have hcs : (∑ i, x i) ^ 2 ≤ n * ∑ i, x i ^ 2 := by
      have := sq_sum_le_card_mul_sum_sq (s := Finset.univ) (f := x)
      simpa using this
    rcases le_total 0 c with hc | hc
    · have := mul_le_mul_of_nonneg_right (min_le_left (1 - c) (1 + (n - 1) * c)) hs0
      nlinarith [mul_nonneg hc (sq_nonneg (∑ i, x i))]
    · have := mul_le_mul_of_nonneg_right (min_le_right (1 - c) (1 + (n - 1) * c)) hs0
      nlinarith [mul_le_mul_of_nonpos_left hcs hc]
  have h2 : 0 ≤ 1 + (n - 1) * c := by
    have := (div_le_iff₀ hn').1 hb.1
    linarith
  refine ⟨hm, ?_, fun hl hu => ?_⟩ <;> rw [hm]
  · refine PosSemidef.of_dotProduct_mulVec_nonneg hs fun x => ?_
    rw [star_trivial, exch_quad]
    exact le_trans (mul_nonneg (le_min (by linarith [hb.2]) h2) (Finset.sum_nonneg fun i _ => sq_nonneg _)) (hq x (by linarith [hb.2]) h2)
  · refine PosDef.of_dotProduct_mulVec_pos hs fun x hx => ?_
    rw [star_trivial, exch_quad]
    have h3 : 0 < 1 + (n - 1) * c := by
      have := (div_lt_iff₀ hn').1 hl
      linarith
    refine lt_of_lt_of_le (mul_pos (lt_min (by linarith) h3) ?_) (hq x (by linarith) h2)
    obtain ⟨i, hi⟩ := Function.ne_iff.1 hx
    exact Finset.sum_pos' (fun i _ => sq_nonneg _) ⟨i, Finset.mem_univ i, by have : x i ≠ 0 := hi; positivity⟩

/-- **C129** With two or more variables it returns exactly between the bounds. -/
theorem C129_exchangeable_iff {n : ℕ} {c : ℝ} (hn : 2 ≤ n) : (exchCorr n c).isSome ↔ -1 / ((n : ℝ) - 1) ≤ c ∧ c ≤ 1 := by
  simp only [exchCorr]
  rw [if_neg (by omega)]
  split_ifs with h
  · simp only [Option.isSome_none, Bool.false_eq_true, false_iff, not_and_or, not_le]; exact h
  · simp only [Option.isSome_some, true_iff]; push Not at h; exact h

/-- **C129** Violated: for one variable, the default, the bound divides by zero. -/
theorem C129_exchangeable_violated (c : ℝ) : exchCorr 1 c = none := if_pos rfl

/-! ### Banded and Toeplitz correlations -/

theorem mdep_step {n i : ℕ} {v : List ℝ} {R : ℕ → ℕ → ℝ} (hi : 1 ≤ i) (hv : v.length = n - i) : ∃ R', mdepStep n i v R = some R' ∧
    ∀ a b, a < n → b < n → R' a b = if max a b - min a b = i then v.getD (min a b) 0 else R a b := by
  refine ⟨_, by rw [mdepStep, bcast, if_pos hv]; rfl, fun a b ha hb => ?_⟩
  have hlow : (diagLow n i).length = v.length := by simp [diagLow, hv]
  have hup : (diagUp n i).length = v.length := by simp [diagUp, hv]
  have nlow : (diagLow n i).Nodup := List.nodup_range.map fun x y h => (Prod.mk.injEq _ _ _ _ ▸ h).2
  have nup : (diagUp n i).Nodup := List.nodup_range.map fun x y h => (Prod.mk.injEq _ _ _ _ ▸ h).1
  have mlow : ∀ p : ℕ × ℕ, p ∈ diagLow n i ↔ p.1 = p.2 + i ∧ p.1 < n := by
    rintro ⟨x, y⟩
    simp only [diagLow, List.mem_map, List.mem_range, Prod.mk.injEq]
    constructor
    · rintro ⟨z, hz, rfl, rfl⟩; omega
    · rintro ⟨h1, h2⟩; exact ⟨y, by omega, by omega, rfl⟩
  have mup : ∀ p : ℕ × ℕ, p ∈ diagUp n i ↔ p.2 = p.1 + i ∧ p.2 < n := by
    rintro ⟨x, y⟩
    simp only [diagUp, List.mem_map, List.mem_range, Prod.mk.injEq]
    constructor
    · rintro ⟨z, hz, rfl, rfl⟩; omega
    · rintro ⟨h1, h2⟩; exact ⟨x, by omega, rfl, by omega⟩
  have zlow : ∀ k (hk : k < n - i), ((k + i, k), v.getD k 0) ∈ (diagLow n i).zip v := by
    intro k hk
    rw [List.mem_iff_getElem]
    refine ⟨k, by simp [diagLow, hv, hk], ?_⟩
    simp [diagLow, List.getElem?_eq_getElem (show k < v.length by omega)]
  have zup : ∀ k (hk : k < n - i), ((k, k + i), v.getD k 0) ∈ (diagUp n i).zip v := by
    intro k hk
    rw [List.mem_iff_getElem]
    refine ⟨k, by simp [diagUp, hv, hk], ?_⟩
    simp [diagUp, List.getElem?_eq_getElem (show k < v.length by omega)]
  beta_reduce
  by_cases h : max a b - min a b = i
  · rw [if_pos h]
    rcases le_total a b with hab | hab
    · rw [max_eq_right hab, min_eq_left hab] at h
      rw [min_eq_left hab]
      refine assign_of_mem (by rw [List.map_fst_zip hup.le]; exact nup) ?_
      have := zup a (by omega)
      rwa [show a + i = b by omega] at this
    · rw [max_eq_left hab, min_eq_right hab] at h
      rw [min_eq_right hab, assign_of_not_mem]
      · refine assign_of_mem (by rw [List.map_fst_zip hlow.le]; exact nlow) ?_
        have := zlow b (by omega)
        rwa [show b + i = a by omega] at this
      · intro hm
        have := (mup _).1 (zip_keys hm)
        simp only at this; omega
  · rw [if_neg h, assign_of_not_mem, assign_of_not_mem]
    · intro hm
      have := (mlow _).1 (zip_keys hm)
      simp only at this
      rw [max_eq_left (by omega), min_eq_right (by omega)] at h; omega
    · intro hm
      have := (mup _).1 (zip_keys hm)
      simp only at this
      rw [max_eq_right (by omega), min_eq_left (by omega)] at h; omega

theorem mdep_loop {n : ℕ} (vs : List (List ℝ)) : ∀ (i : ℕ) (R : ℕ → ℕ → ℝ), 1 ≤ i → (∀ k (hk : k < vs.length), (vs[k]).length = n - (i + k)) →
    ∃ R', mdepLoop n i vs R = some R' ∧ ∀ a b, a < n → b < n →
      R' a b = if i ≤ max a b - min a b ∧ max a b - min a b < i + vs.length then (vs.getD (max a b - min a b - i) []).getD (min a b) 0 else R a b := by
  induction vs with
  | nil =>
    intro i R hi _
    refine ⟨R, rfl, fun a b _ _ => (if_neg ?_).symm⟩
    simp only [List.length_nil]; omega
  | cons v vs ih =>
    intro i R hi hlen
    obtain ⟨R1, h1, e1⟩ := mdep_step (v := v) (R := R) hi (hlen 0 (by simp) : v.length = n - (i + 0))
    obtain ⟨R2, h2, e2⟩ := ih (i + 1) R1 (by omega) fun k hk => by
      have := hlen (k + 1) (by simpa using hk)
      rw [List.getElem_cons_succ] at this
      rw [this]; congr 1; omega
    refine ⟨R2, by rw [mdepLoop, h1, Option.bind_some, h2], fun a b ha hb => ?_⟩
    rw [e2 a b ha hb, e1 a b ha hb]
    generalize max a b - min a b = t
    simp only [List.length_cons]
    by_cases c1 : t = i
    · subst c1
      rw [if_neg (by omega), if_pos rfl, if_pos (by omega), Nat.sub_self, List.getD_cons_zero]
    · by_cases c2 : i + 1 ≤ t ∧ t < i + 1 + vs.length
      · rw [if_pos c2, if_pos (by omega), show t - i = (t - (i + 1)) + 1 by omega, List.getD_cons_succ]
      · rw [if_neg c2, if_neg c1, if_neg (by omega)]

/-- **C129** `get_mdependent_corr` of diagonals of falling lengths is the symmetric matrix with those diagonals. -/
theorem C129_mdependent {v : List ℝ} {vs : List (List ℝ)} (h : ∀ k (hk : k < (v :: vs).length), ((v :: vs)[k]).length = v.length - k) :
    ∃ R, mdepCorr (v :: vs) = some (v.length + 1, R) ∧ ∀ a b, a < v.length + 1 → b < v.length + 1 →
      R a b = if a = b then 1 else if max a b - min a b ≤ vs.length + 1 then ((v :: vs).getD (max a b - min a b - 1) []).getD (min a b) 0 else 0 := by
  have hm : ((v :: vs).map List.length).max? = some v.length := by
    rw [List.max?_eq_some_iff]
    refine ⟨by simp, fun x hx => ?_⟩
    obtain ⟨w, hw, rfl⟩ := List.mem_map.1 hx
    obtain ⟨k, hk, rfl⟩ := List.mem_iff_getElem.1 hw
    rw [h k hk]; omega
  obtain ⟨R, hR, e⟩ := mdep_loop (n := v.length + 1) (v :: vs) 1 eye le_rfl fun k hk => by rw [h k hk]; omega
  refine ⟨R, by rw [mdepCorr, hm]; simp only [hR, Option.map_some], fun a b ha hb => ?_⟩
  rw [e a b ha hb]
  by_cases hab : a = b
  · subst hab
    rw [if_neg (by simp), if_pos rfl]; exact if_pos rfl
  · rw [if_neg hab]
    have h1 : 1 ≤ max a b - min a b := by
      rcases le_total a b with h | h <;> simp [h] <;> omega
    simp only [List.length_cons]
    by_cases h2 : max a b - min a b ≤ vs.length + 1
    · rw [if_pos ⟨h1, by omega⟩, if_pos h2]
    · rw [if_neg (by omega), if_neg h2]; exact if_neg hab

example : ∀ k (hk : k < [[0.3, 0.3, 0.3], [0.1, (0.1 : ℝ)]].length), ([[0.3, 0.3, 0.3], [0.1, (0.1 : ℝ)]][k]).length = [(0.3 : ℝ), 0.3, 0.3].length - k := by
  intro k hk
  have : k = 0 ∨ k = 1 := by simp at hk; omega
  rcases this with rfl | rfl <;> rfl

theorem toep_mdep (c : ℝ) : mat 3 (toepCorr [c, 0]) = !![1, c, 0; c, 1, c; 0, c, 1] := by
  ext i j
  fin_cases i <;> fin_cases j <;> simp [mat, toepCorr]

theorem band_not_psd : ¬ (!![1, 9 / 10, 0; 9 / 10, 1, 9 / 10; 0, 9 / 10, (1 : ℝ)]).PosSemidef := by
  intro h
  have := h.dotProduct_mulVec_nonneg ![1, -1, 1]
  simp [mulVec, dotProduct, Fin.sum_univ_three] at this
  norm_num at this

/-- **C129** `get_toeplitz_corr` is symmetric with unit diagonal and `rho` along the diagonals. -/
theorem C129_toeplitz_partial (rho : List ℝ) (i j : ℕ) : toepCorr rho i j = toepCorr rho j i ∧ toepCorr rho i i = 1 ∧ ∀ k, toepCorr rho i (i + (k + 1)) = rho.getD k 0 := by
  refine ⟨by rw [toepCorr, toepCorr, max_comm, min_comm], by simp [toepCorr], fun k => ?_⟩
  rw [toepCorr, max_eq_right (by omega), min_eq_left (by omega), Nat.add_sub_cancel_left, List.getD_cons_succ]

/-- **C129** Violated: nothing makes it positive semidefinite. -/
theorem C129_toeplitz_violated : ¬ (mat 3 (toepCorr [9 / 10, 0])).PosSemidef := by rw [toep_mdep]; exact band_not_psd

/-- **C129** Violated: nor is the result of `get_mdependent_corr`. -/
theorem C129_mdependent_violated : ∃ R, mdepCorr [[9 / 10, 9 / 10]] = some (3, R) ∧ ¬ (mat 3 R).PosSemidef := by
  obtain ⟨R, h, e⟩ := C129_mdependent (v := [9 / 10, 9 / 10]) (vs := []) fun k hk => by
    have : k = 0 := by simpa using hk
    subst this; rfl
  refine ⟨R, h, fun hp => band_not_psd ?_⟩
  convert hp using 1
  ext i j
  fin_cases i <;> fin_cases j <;> simp [mat, e]

/-! ### Factor and spatial structures -/

/-- **C129** `get_factor_cov` is positive semidefinite for positive semidefinite `Phi` and nonnegative `Psi`. -/
theorem C129_factor {n k : ℕ} {A Phi : ℕ → ℕ → ℝ} {Psi : ℕ → ℝ} (h : (mat k Phi).PosSemidef) (hp : ∀ i < n, 0 ≤ Psi i) : (mat n (factorCov k A Phi Psi)).PosSemidef := by
  have e : mat n (factorCov k A Phi Psi) = (Matrix.of fun (i : Fin n) (a : Fin k) => A i a) * mat k Phi * (Matrix.of fun (i : Fin n) (a : Fin k) => A i a)ᴴ +
      diagonal fun i : Fin n => Psi i := by
    ext i j
    simp only [mat, factorCov, of_apply, Matrix.add_apply, Matrix.mul_apply, diagonal_apply, conjTranspose_apply, star_trivial, Finset.sum_range, Fin.ext_iff]
  rw [e]
  exact (h.mul_mul_conjTranspose_same _).add (PosSemidef.diagonal fun i => hp i i.2)

/-- **C129** The condensed vector of a distance matrix gives the same correlations as the matrix. -/
theorem C129_spatial {f : ℝ → ℝ} (hf : f 0 = 1) {n : ℕ} {D : ℕ → ℕ → ℝ} (hs : ∀ i j, D i j = D j i) (h0 : ∀ i, D i i = 0) {i j : ℕ} (hi : i < n) (hj : j < n) :
    spatialVec f n (fun k => ((triu1 n).map fun p => D p.1 p.2).getD k 0) i j = spatialSq f D i j := by
  have key : ∀ a b, a < b → b < n → ((triu1 n).map fun p => D p.1 p.2).getD ((triu1 n).idxOf (a, b)) 0 = D a b := by
    intro a b hab hb
    have hlt : (triu1 n).idxOf (a, b) < (triu1 n).length := List.idxOf_lt_length_iff.2 (mem_triu1.2 ⟨hab, hb⟩)
    rw [List.getD_eq_getElem _ _ (by rwa [List.length_map]), List.getElem_map, List.getElem_idxOf]
  rw [spatialVec, squareform, spatialSq]
  rcases lt_trichotomy i j with h | h | h
  · rw [if_pos h, if_neg h.ne, add_zero, key i j h hj]
  · subst h
    rw [if_neg (lt_irrefl _), if_neg (lt_irrefl _), if_pos rfl, h0, hf, zero_add]
  · rw [if_neg h.not_gt, if_pos h, if_neg h.ne', add_zero, key j i h hi, hs]

/-- **C129** The three functions of the distance are one at distance zero. -/
theorem C129_spatial_zero (rho theta s : ℝ) : powerFn rho 0 = 1 ∧ expFn theta 0 = 1 ∧ gaussFn s 0 = 1 := by simp [powerFn, expFn, gaussFn]

/-- **C129** Violated: the Gaussian structure is not Gaussian in the distance but the exponential structure over again. -/
theorem C129_spatial_violated {s : ℝ} (hs : s ≠ 0) : gaussFn s = expFn (s ^ 2) ∧ ∀ d, gaussFn s d = Real.exp (-d ^ 2 / s ^ 2) ↔ d = 0 ∨ d = 1 := by
  refine ⟨rfl, fun d => ?_⟩
  rw [gaussFn, Real.exp_eq_exp, div_left_inj' (pow_ne_zero 2 hs)]
  constructor
  · intro h
    have : d * (d - 1) = 0 := by linarith
    rcases mul_eq_zero.1 this with h | h
    · exact Or.inl h
    · exact Or.inr (by linarith)
  · rintro (rfl | rfl) <;> norm_num

end Verif.Cov
