import Verif.Transf.CholCov
import Verif.Transf.CovCorrProps
import Verif.Transf.UcholProps
/-! # The strictly lower positions inside the half-vectorised matrix -/
namespace Verif.Transf
open Verif.Np Verif.Vec Verif.Index Verif.Lin Real

variable {n : ℕ}

theorem lowerTri_zero_map (n : ℕ) : (List.range (matSizeToHvSize n)).map
    (fun p => (hvRow n p, hvCol n p)) = lowerTri n 0 := by
  have e1 := (C02_vech_order (fun i _ : ℕ => i) n).2
  have e2 := (C02_vech_order (fun _ j : ℕ => j) n).2
  have hl : (lowerTri n 0).length = matSizeToHvSize n := by
    have h : (vech (fun i _ : ℕ => i) n).length = (lowerTri n 0).length := by rw [e1]; simp
    rw [← h]; unfold vech; rw [List.length_map, length_npTriu_zero]; rfl
  apply List.ext_getElem
  · simp [hl]
  · intro k h1 h2
    have hk : k < matSizeToHvSize n := by simpa using h1
    simp only [List.getElem_map, List.getElem_range, hvRow, hvCol, e1, e2]
    rw [List.getD_eq_getElem _ _ (by simpa using h2), List.getD_eq_getElem _ _ (by simpa using h2)]
    simp

theorem lowerTri_one_filter (n : ℕ) :
    (lowerTri n 0).filter (fun c => decide (c.1 ≠ c.2)) = lowerTri n 1 := by
  unfold lowerTri
  rw [List.filter_flatMap]
  refine List.flatMap_congr fun s hs => ?_
  rw [List.mem_range] at hs
  rw [show n - (s + 0) = (n - (s + 1)) + 1 by omega, List.range'_succ, List.map_cons,
    List.filter_cons_of_neg (by simp), List.filter_eq_self.2]
  intro c hc
  simp only [List.mem_map, List.mem_range'_1] at hc
  obtain ⟨r, h, rfl⟩ := hc
  simp; omega

theorem tril_map_cells (n : ℕ) :
    (trilInds n).map (fun p => (hvRow n p, hvCol n p)) = lowerTri n 1 := by
  rw [← lowerTri_one_filter, ← lowerTri_zero_map, List.filter_map]
  rfl

theorem tril_nodup (n : ℕ) : (trilInds n).Nodup := List.nodup_range.filter _

theorem tril_length (n : ℕ) : (trilInds n).length = n * (n - 1) / 2 := by
  have h := congrArg List.length (tril_map_cells n)
  have e1 := congrArg List.length (C03_vecl_order (fun i _ : ℕ => i) n).2
  rw [List.length_map] at h e1
  rw [h, ← e1]; unfold vecl; rw [List.length_map, length_npTriu_one]

theorem tril_two (n : ℕ) : 2 * (trilInds n).length = n * (n - 1) := by
  rw [tril_length]
  have := Nat.even_iff.1 (Nat.even_mul_pred_self n)
  omega

/-- Element `pos n r s` of `tril_inds` is the position of cell `(r, s)`. -/
theorem tril_get {r s : ℕ} (h1 : s < r) (h2 : r < n) :
    ∃ k : ℕ, pos n r s = (k : ℤ) ∧ (trilInds n)[k]? = some (hp n r s) := by
  obtain ⟨k, e, h⟩ := C03_vecl_forwards_position n r s h1 h2
  refine ⟨k, e, ?_⟩
  rw [← tril_map_cells, List.getElem?_map, Option.map_eq_some_iff] at h
  obtain ⟨p, hp', hc⟩ := h
  have hm := (mem_tril.1 (List.mem_of_getElem? hp')).1
  obtain ⟨r', s', a, b, rfl⟩ := hp_surj hm
  rw [hvRow_hp a b, hvCol_hp a b] at hc
  simp only [Prod.mk.injEq] at hc
  obtain ⟨rfl, rfl⟩ := hc
  exact hp'

theorem mem_tril_hp {r s : ℕ} (h1 : s < r) (h2 : r < n) : hp n r s ∈ trilInds n := by
  obtain ⟨k, _, h⟩ := tril_get h1 h2
  exact List.mem_of_getElem? h

theorem tril_cell {p : ℕ} (h : p ∈ trilInds n) : ∃ r s, s < r ∧ r < n ∧ p = hp n r s := by
  obtain ⟨h1, h2⟩ := mem_tril.1 h
  obtain ⟨r, s, a, b, rfl⟩ := hp_surj h1
  refine ⟨r, s, lt_of_le_of_ne a ?_, b, rfl⟩
  rintro rfl
  exact h2 (mem_diagInds.2 ⟨s, b, rfl⟩)

theorem idxOf_tril {r s : ℕ} (h1 : s < r) (h2 : r < n) :
    (((trilInds n).idxOf (hp n r s) : ℕ) : ℤ) = pos n r s := by
  obtain ⟨k, e, h⟩ := tril_get h1 h2
  rw [e]
  obtain ⟨hk, h'⟩ := List.getElem?_eq_some_iff.1 h
  rw [← h', (tril_nodup n).idxOf_getElem]

/-- The masked entries as the half-vectorisation of the strictly lower triangle. -/
theorem tril_map_vecl (x : ℕ → ℝ) : (trilInds n).map x = vecl (fun r s => x (hp n r s)) n := by
  rw [(C03_vecl_order _ n).2, ← tril_map_cells, List.map_map]
  refine List.map_congr_left fun p hp' => ?_
  obtain ⟨r, s, a, b, rfl⟩ := tril_cell hp'
  simp [hvRow_hp a.le b, hvCol_hp a.le b]

theorem vecl_getD (A : ℕ → ℕ → ℝ) {r s : ℕ} (h1 : s < r) (h2 : r < n) :
    (vecl A n).getD ((trilInds n).idxOf (hp n r s)) 0 = A r s := by
  obtain ⟨k, e, h⟩ := C03_vecl_element A n r s h1 h2
  have := idxOf_tril h1 h2
  rw [show (trilInds n).idxOf (hp n r s) = k by
    change (_ : ℤ) = veclIndsForwards _ _ _ at this; omega, List.getD_eq_getElem?_getD, h]
  rfl

theorem idxOf_lt {p : ℕ} (h : p ∈ trilInds n) : (trilInds n).idxOf p < (trilInds n).length :=
  List.idxOf_lt_length_of_mem h

theorem gather_idxOf {p : ℕ} (h : p ∈ trilInds n) (x : ℕ → ℝ) :
    gatherN (trilInds n) x ((trilInds n).idxOf p) = x p := by
  rw [gatherN, List.getD_eq_getElem _ _ (idxOf_lt h), List.getElem_idxOf]

theorem zArr_gather_pos {r s : ℕ} (h1 : s < r) (h2 : r < n) (x : ℕ → ℝ) :
    zArr (gatherN (trilInds n) x) (pos n r s) = x (hp n r s) := by
  rw [zArr, ← idxOf_tril h1 h2, Int.toNat_natCast, gather_idxOf (mem_tril_hp h1 h2)]

theorem maskSet_gather {f g : (ℕ → ℝ) → ℕ → ℝ} (x : ℕ → ℝ)
    (h : ∀ k, k < (trilInds n).length →
      g (f (gatherN (trilInds n) x)) k = gatherN (trilInds n) x k)
    (hg : ∀ a b : ℕ → ℝ, (∀ k, k < (trilInds n).length → a k = b k) →
      ∀ k, k < (trilInds n).length → g a k = g b k) : odMap n g (odMap n f x) = x := by
  funext p
  unfold odMap maskSet
  by_cases hp' : p ∈ trilInds n
  · rw [if_pos hp']
    rw [hg _ (f (gatherN (trilInds n) x)) (fun k hk => ?_) _ (idxOf_lt hp'), h _ (idxOf_lt hp'),
      gather_idxOf hp']
    · unfold gatherN
      beta_reduce
      rw [List.getD_eq_getElem _ _ hk, if_pos (List.getElem_mem hk), (tril_nodup n).idxOf_getElem]
  · rw [if_neg hp', if_neg hp']

/-! ## locality of the stick-breaking loops -/

theorem rvsAux_congr {x y : ℤ → ℝ} {κ : ℕ → ℤ} {j : ℕ} (h : ∀ l, l ≤ j → x (κ l) = y (κ l)) :
    rvsAux x κ j = rvsAux y κ j := by
  induction j with
  | zero => simp [rvsAux, aux, h 0 le_rfl]
  | succ j ih =>
    have e := ih fun l hl => h l (by omega)
    unfold rvsAux at e ⊢
    simp only [aux, e, h (j + 1) le_rfl]

theorem rowSum_congr {x y : ℤ → ℝ} {κ : ℕ → ℤ} {j : ℕ} (h : ∀ l, l < j → x (κ l) = y (κ l)) :
    rowSum x κ j = rowSum y κ j :=
  Finset.sum_congr rfl fun l hl => by rw [h l (Finset.mem_range.1 hl)]

theorem ucRvs_local {m : ℕ} (hm : 2 * m = n * (n - 1)) {x y : ℤ → ℝ}
    (h : ∀ k : ℤ, 0 ≤ k → k < m → x k = y k) {i j : ℕ} (hj : j < i) (hi : i < n) :
    ucRvs m x (pos n i j) = ucRvs m y (pos n i j) := by
  have e : ∀ l, l < i → x (pos n i l) = y (pos n i l) := fun l hl =>
    h _ (pos_range hm hl hi).1 (pos_range hm hl hi).2
  cases j with
  | zero => rw [rvs_zero hm x hj hi, rvs_zero hm y hj hi, e 0 hj]
  | succ j =>
    rw [rvs_succ hm x hj hi, rvs_succ hm y hj hi, e _ hj,
      rvsAux_congr fun l hl => e l (by omega)]

theorem ucFwd_local {m : ℕ} (hm : 2 * m = n * (n - 1)) {x y : ℤ → ℝ}
    (h : ∀ k : ℤ, 0 ≤ k → k < m → x k = y k) {i j : ℕ} (hj : j < i) (hi : i < n) :
    ucFwd m x (pos n i j) = ucFwd m y (pos n i j) := by
  have e : ∀ l, l < i → x (pos n i l) = y (pos n i l) := fun l hl =>
    h _ (pos_range hm hl hi).1 (pos_range hm hl hi).2
  cases j with
  | zero => rw [fwd_zero hm x hj hi, fwd_zero hm y hj hi, e 0 hj]
  | succ j =>
    rw [fwd_succ hm x hj hi, fwd_succ hm y hj hi, e _ hj, fwdAux_eq, fwdAux_eq,
      rowSum_congr fun l hl => e l (by omega)]

theorem zArr_congr {m : ℕ} {a b : ℕ → ℝ} (h : ∀ k, k < m → a k = b k) (k : ℤ) (_ : 0 ≤ k)
    (h1 : k < m) : zArr a k = zArr b k := h _ (by omega)

theorem ucRvsN_local (hn : 1 ≤ n) (a b : ℕ → ℝ) (h : ∀ k, k < (trilInds n).length → a k = b k) (k : ℕ)
    (hk : k < (trilInds n).length) :
    ucRvsN (trilInds n).length a k = ucRvsN (trilInds n).length b k := by
  obtain ⟨i, j, hj, hi, e⟩ := pos_surj (tril_two n) hn k (by omega) (by omega)
  unfold ucRvsN
  rw [← e]
  exact ucRvs_local (tril_two n) (zArr_congr h) hj hi

theorem ucFwdN_local (hn : 1 ≤ n) (a b : ℕ → ℝ) (h : ∀ k, k < (trilInds n).length → a k = b k) (k : ℕ)
    (hk : k < (trilInds n).length) :
    ucFwdN (trilInds n).length a k = ucFwdN (trilInds n).length b k := by
  obtain ⟨i, j, hj, hi, e⟩ := pos_surj (tril_two n) hn k (by omega) (by omega)
  unfold ucFwdN
  rw [← e]
  exact ucFwd_local (tril_two n) (zArr_congr h) hj hi

theorem zArr_ucFwdN {m : ℕ} (a : ℕ → ℝ) {k : ℤ} (h : 0 ≤ k) : zArr (ucFwdN m a) k = ucFwd m (zArr a) k := by
  rw [zArr, ucFwdN, Int.toNat_of_nonneg h]

theorem zArr_ucRvsN {m : ℕ} (a : ℕ → ℝ) {k : ℤ} (h : 0 ≤ k) : zArr (ucRvsN m a) k = ucRvs m (zArr a) k := by
  rw [zArr, ucRvsN, Int.toNat_of_nonneg h]

end Verif.Transf
