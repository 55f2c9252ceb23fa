import Verif.Vec.Apply
import Verif.Vec.Props

namespace Verif.Vec
open Verif.Np Verif.Index

variable {R : Type*}

/-! ### Specification -/

/-- The two results are arrays of the same size with the same entries. -/
def ArrEq (A B : Arr R) : Prop := A.rows = B.rows ∧ A.cols = B.cols ∧ Agree A.rows A.cols A.entry B.entry

/-- `out = D' A`. -/
def IsDupLeft [CommRing R] (n : ℕ) (A out : Arr R) : Prop :=
  out.rows = n * (n + 1) / 2 ∧ out.cols = A.cols ∧
    ∀ i j, i < out.rows → j < out.cols → out.entry i j = ∑ k ∈ Finset.range (n ^ 2), cooEntry (dmat n) k i * A.entry k j

/-- `out = A D`. -/
def IsDupRight [CommRing R] (n : ℕ) (A out : Arr R) : Prop :=
  out.rows = A.rows ∧ out.cols = n * (n + 1) / 2 ∧
    ∀ i j, i < out.rows → j < out.cols → out.entry i j = ∑ k ∈ Finset.range (n ^ 2), A.entry i k * cooEntry (dmat n) k j

theorem tril_lt (n : ℕ) : ∀ ij ∈ trilIndices n 0 true, ij.2 * n + ij.1 < n ^ 2 ∧ ij.1 * n + ij.2 < n ^ 2 := by
  intro ij h
  obtain ⟨c, hc, e⟩ := List.mem_iff_getElem.1 h
  have hlen : (trilIndices n 0 true).length = n * (n + 1) / 2 := by simp [trilIndices, length_npTriu_zero]
  obtain ⟨r, s, h1, h2, rfl⟩ := exists_cell n c (by omega)
  have h3 := triu_getElem? n r s h1 h2
  have h4 : (trilIndices n 0 true)[colOff n s + (r - s)]? = some (r, s) := by
    simp only [trilIndices, if_true, List.getElem?_map, zero_mul, h3, Option.map_some, Prod.swap_prod_mk]
  rw [List.getElem?_eq_getElem hc, e] at h4
  rw [Option.some.inj h4]
  exact ⟨cell_lt_sq n s r (by omega) h2, cell_lt_sq n r s h2 (by omega)⟩

theorem tril_length (n : ℕ) : (trilIndices n 0 true).length = n * (n + 1) / 2 := by simp [trilIndices, length_npTriu_zero]

/-! ### The index versions -/

/-- **C242** `arr[rl] + arr[cl]` with the diagonal halved is `D' A`. -/
theorem C242_left [Field R] [CharZero R] (n : ℕ) (A : Arr R) (h : A.rows = n ^ 2) : ∃ out, dmatPre1 A n = some out ∧ IsDupLeft n A out := by
  refine ⟨_, if_pos fun ij hij => by rw [h]; exact tril_lt n ij hij, tril_length n, rfl, fun i j hi _ => ?_⟩
  have hi' : i < n * (n + 1) / 2 := by rw [← tril_length n]; exact hi
  show (applyDmat1 (fun k => A.entry k j) n).getD i 0 = _
  rw [C06_apply_dmat, List.getD_eq_getElem?_getD, List.getElem?_map, List.getElem?_range hi']
  rfl

/-- **C242** `arr[:, rl] + arr[:, cl]` with the diagonal halved is `A D`. -/
theorem C242_right [Field R] [CharZero R] (n : ℕ) (A : Arr R) (h : A.cols = n ^ 2) : ∃ out, dmatPost1 A n = some out ∧ IsDupRight n A out := by
  refine ⟨_, if_pos fun ij hij => by rw [h]; exact tril_lt n ij hij, rfl, tril_length n, fun i j _ hj => ?_⟩
  have hj' : j < n * (n + 1) / 2 := by rw [← tril_length n]; exact hj
  show (applyDmat1 (fun k => A.entry i k) n).getD j 0 = _
  rw [C06_apply_dmat, List.getD_eq_getElem?_getD, List.getElem?_map, List.getElem?_range hj', Option.map_some, Option.getD_some, matVec]
  exact Finset.sum_congr rfl fun k _ => mul_comm _ _

/-- **C242** Both sides of an `n^2` by `n^2` array: `D' A D`, for `apply_dmat1` and `apply_dmat3` with their own guess of the size. -/
theorem C242_both [Field R] [CharZero R] (n : ℕ) (A : Arr R) (hr : A.rows = n ^ 2) (hc : A.cols = n ^ 2) :
    ∃ B out, IsDupLeft n A B ∧ IsDupRight n B out ∧ applyDmat1A A none true true = some out ∧ applyDmat3A A none true true = some out := by
  obtain ⟨B, h1, h2⟩ := C242_left n A hr
  obtain ⟨out, h3, h4⟩ := C242_right n B (by rw [h2.2.1, hc])
  have hs : Nat.sqrt (n ^ 2) = n := Nat.sqrt_eq' n
  refine ⟨B, out, h2, h4, ?_, ?_⟩
  · rw [applyDmat1A, Option.getD_none, hr, hs, dmatFlags, if_pos rfl, h1, Option.bind_eq_bind, Option.bind_some]; exact h3
  · rw [applyDmat3A, Option.getD_none, hc, hs, dmatFlags, if_pos rfl, h1, Option.bind_eq_bind, Option.bind_some]; exact h3

/-- **C242** The left side alone for `apply_dmat1` and the right side alone for `apply_dmat3`. -/
theorem C242_one_partial [Field R] [CharZero R] (n : ℕ) (A : Arr R) :
    (A.rows = n ^ 2 → ∃ out, applyDmat1A A none true false = some out ∧ IsDupLeft n A out) ∧
      (A.cols = n ^ 2 → ∃ out, applyDmat3A A none false true = some out ∧ IsDupRight n A out) := by
  have hs : Nat.sqrt (n ^ 2) = n := Nat.sqrt_eq' n
  refine ⟨fun h => ?_, fun h => ?_⟩
  · obtain ⟨B, h1, h2⟩ := C242_left n A h
    refine ⟨B, ?_, h2⟩
    rw [applyDmat1A, Option.getD_none, h, hs, dmatFlags, if_pos rfl, h1, Option.bind_eq_bind, Option.bind_some]
    rfl
  · obtain ⟨B, h1, h2⟩ := C242_right n A h
    refine ⟨B, ?_, h2⟩
    rw [applyDmat3A, Option.getD_none, h, hs, dmatFlags]
    exact h1

/-- A row of four ones and a column of four ones. -/
def rowOnes : Arr ℚ := ⟨1, 4, fun _ _ => 1⟩
def colOnes : Arr ℚ := ⟨4, 1, fun _ _ => 1⟩

/-- **C242** On the other side the size is guessed from the wrong axis: `apply_dmat1(arr, pre_mult=False, post_mult=True)` reads the number of
rows and `apply_dmat3(arr)` the number of columns, and both return one entry, without an error, where three are due. -/
theorem C242_size_violated :
    (∃ out, applyDmat1A rowOnes none false true = some out ∧ out.cols = 1 ∧ ¬ IsDupRight 2 rowOnes out) ∧
      (∃ out, applyDmat1A rowOnes (some 2) false true = some out ∧ IsDupRight 2 rowOnes out) ∧
      (∃ out, applyDmat3A colOnes none true false = some out ∧ out.rows = 1 ∧ ¬ IsDupLeft 2 colOnes out) ∧
      ∃ out, applyDmat3A colOnes (some 2) true false = some out ∧ IsDupLeft 2 colOnes out := by
  have hs1 : Nat.sqrt 1 = 1 := by decide +kernel
  refine ⟨?_, ?_, ?_, ?_⟩
  · obtain ⟨out, h1, h2⟩ : ∃ out, dmatPost1 rowOnes 1 = some out ∧ out.cols = 1 := by
      have h : (dmatPost1 rowOnes 1).map Arr.cols = some 1 := by decide +kernel
      exact Option.map_eq_some_iff.1 h
    refine ⟨out, ?_, h2, fun h => ?_⟩
    · rw [applyDmat1A, Option.getD_none, show rowOnes.rows = 1 from rfl, hs1, dmatFlags]; exact h1
    · have := h.2.1; rw [h2] at this; revert this; decide
  · obtain ⟨out, h1, h2⟩ := C242_right 2 rowOnes rfl
    refine ⟨out, ?_, h2⟩
    rw [applyDmat1A, Option.getD_some, dmatFlags]; exact h1
  · obtain ⟨out, h1, h2⟩ : ∃ out, dmatPre1 colOnes 1 = some out ∧ out.rows = 1 := by
      have h : (dmatPre1 colOnes 1).map Arr.rows = some 1 := by decide +kernel
      exact Option.map_eq_some_iff.1 h
    refine ⟨out, ?_, h2, fun h => ?_⟩
    · rw [applyDmat3A, Option.getD_none, show colOnes.cols = 1 from rfl, hs1, dmatFlags, if_pos rfl, h1]; rfl
    · have := h.1; rw [h2] at this; revert this; decide
  · obtain ⟨out, h1, h2⟩ := C242_left 2 colOnes rfl
    refine ⟨out, ?_, h2⟩
    rw [applyDmat3A, Option.getD_some, dmatFlags, if_pos rfl, h1]; rfl

/-! ### The matrix versions -/

theorem half_lt {n : ℕ} (hn : 2 ≤ n) : n * (n + 1) / 2 < n ^ 2 := by
  rw [Nat.div_lt_iff_lt_mul (by omega)]
  nlinarith

/-- **C242** With the matrix: `apply_dmat2_pre` and `apply_pre` give `D' A`; `DuplicationMatrix.apply_post` gives `A D`; so does
`apply_dmat2_post` when told not to transpose. -/
theorem C242_matrix_partial [CommRing R] (n : ℕ) (A : Arr R) :
    (A.rows = n ^ 2 → ∃ out, applyDmat2Pre A none none true = some out ∧ IsDupLeft n A out) ∧
      (A.cols = n ^ 2 → (∃ out, dupPost n A none true = some out ∧ IsDupRight n A out) ∧
        ∃ out, applyDmat2Post A none none false = some out ∧ IsDupRight n A out) := by
  have hs : Nat.sqrt (n ^ 2) = n := Nat.sqrt_eq' n
  refine ⟨fun h => ?_, fun h => ⟨?_, ?_⟩⟩
  · refine ⟨⟨n * (n + 1) / 2, A.cols, fun i j => ∑ k ∈ Finset.range (n ^ 2), cooEntry (dmat n) k i * A.entry k j⟩, ?_, rfl, rfl,
      fun _ _ _ _ => rfl⟩
    rw [applyDmat2Pre, Option.getD_none, Option.getD_none, h, hs, if_pos rfl, Arr.dot, if_pos (by rw [h]; rfl)]
    rfl
  · refine ⟨⟨A.rows, n * (n + 1) / 2, fun i j => ∑ k ∈ Finset.range (n ^ 2), cooEntry (dmat n) k j * A.entry i k⟩, ?_, rfl, rfl, fun i j _ _ => ?_⟩
    · rw [dupPost, Option.getD_none, if_pos rfl, Arr.dot, if_pos (by show n ^ 2 = A.cols; rw [h])]
      rfl
    · simp only
      exact Finset.sum_congr rfl fun k _ => mul_comm _ _
  · refine ⟨⟨A.rows, n * (n + 1) / 2, fun i j => ∑ k ∈ Finset.range (n ^ 2), A.entry i k * cooEntry (dmat n) k j⟩, ?_, rfl, rfl, fun _ _ _ _ => rfl⟩
    rw [applyDmat2Post, Option.getD_none, Option.getD_none, h, hs, if_neg (by decide), Arr.dot, if_pos (by rw [h]; rfl), h]
    rfl

/-- **C242** As called by default, `apply_dmat2_post` raises for every array with `n^2` columns, `n ≥ 2`: it multiplies by the transposed
matrix. -/
theorem C242_post_violated [CommRing R] (n : ℕ) (hn : 2 ≤ n) (A : Arr R) (h : A.cols = n ^ 2) : applyDmat2Post A none none true = none := by
  have hs : Nat.sqrt (n ^ 2) = n := Nat.sqrt_eq' n
  have := half_lt hn
  rw [applyDmat2Post, Option.getD_none, Option.getD_none, h, hs, if_pos rfl, Arr.dot, if_neg]
  show ¬ A.cols = n * (n + 1) / 2
  omega

/-- **C242** `apply_dmat2_pre_post` by default is `D' A D`. -/
theorem C242_pre_post_partial [CommRing R] (n m : ℕ) (A : Arr R) (hr : A.rows = n ^ 2) (hc : A.cols = m ^ 2) :
    ∃ B out, IsDupLeft n A B ∧ IsDupRight m B out ∧ applyDmat2PrePost A none none none none true false = some out := by
  have hs : ∀ n, Nat.sqrt (n ^ 2) = n := Nat.sqrt_eq'
  refine ⟨⟨n * (n + 1) / 2, m ^ 2, fun i j => ∑ k ∈ Finset.range (n ^ 2), cooEntry (dmat n) k i * A.entry k j⟩,
    ⟨n * (n + 1) / 2, m * (m + 1) / 2, fun i j => ∑ l ∈ Finset.range (m ^ 2),
      cooEntry (dmat m) l j * ∑ k ∈ Finset.range (n ^ 2), cooEntry (dmat n) k i * A.entry k l⟩,
    ⟨rfl, hc.symm, fun _ _ _ _ => rfl⟩, ⟨rfl, rfl, fun i j _ _ => by
      simp only; exact Finset.sum_congr rfl fun k _ => mul_comm _ _⟩, ?_⟩
  have hD : (if n = m then ((dmatA n : Arr R), (dmatA n : Arr R)) else (dmatA n, dmatA m)) = (dmatA n, dmatA m) := by
    by_cases e : n = m
    · rw [if_pos e, e]
    · rw [if_neg e]
  rw [applyDmat2PrePost]
  simp only [Option.getD_none, hr, hc, hs, hD, if_true, Bool.false_eq_true, if_false]
  have h1 : (dmatA n : Arr R).tr.dot A = some ⟨n * (n + 1) / 2, A.cols, fun i j => ∑ k ∈ Finset.range (n ^ 2), cooEntry (dmat n) k i * A.entry k j⟩ := by
    rw [Arr.dot, if_pos (by rw [hr]; rfl)]; rfl
  rw [h1, Option.bind_eq_bind, Option.bind_some, Arr.dot, if_pos (by show m ^ 2 = A.cols; rw [hc])]
  rfl

/-- **C242** The method `DuplicationMatrix.apply_pre_post` raises by default for every array with `n^2` columns, `n ≥ 2`: its right factor is not the transpose that the function takes. -/
theorem C242_method_violated [CommRing R] (n : ℕ) (hn : 2 ≤ n) (A : Arr R) (hc : A.cols = n ^ 2) :
    dupPrePost n A none none true false = none := by
  have := half_lt hn
  rw [dupPrePost]
  simp only [if_true, Bool.false_eq_true, if_false]
  by_cases h : (dmatA n : Arr R).tr.cols = A.rows
  · rw [Arr.dot, if_pos h, Option.bind_eq_bind, Option.bind_some, Arr.dot, if_neg]
    · rfl
    · show ¬ n * (n + 1) / 2 = A.cols
      omega
  · rw [Arr.dot, if_neg h]; rfl

/-- **C242** With `t2=True` the method gives `D' A D` and the function raises: the flag means the opposite in the two. -/
theorem C242_flag_partial [CommRing R] (n : ℕ) (A : Arr R) (hr : A.rows = n ^ 2) (hc : A.cols = n ^ 2) :
    (∃ B out, IsDupLeft n A B ∧ IsDupRight n B out ∧ dupPrePost n A none none true true = some out) ∧
      (2 ≤ n → applyDmat2PrePost A none none none none true true = none) := by
  have hs : Nat.sqrt (n ^ 2) = n := Nat.sqrt_eq' n
  have h1 : (dmatA n : Arr R).tr.dot A = some ⟨n * (n + 1) / 2, A.cols, fun i j => ∑ k ∈ Finset.range (n ^ 2), cooEntry (dmat n) k i * A.entry k j⟩ := by
    rw [Arr.dot, if_pos (by rw [hr]; rfl)]; rfl
  refine ⟨⟨⟨n * (n + 1) / 2, A.cols, fun i j => ∑ k ∈ Finset.range (n ^ 2), cooEntry (dmat n) k i * A.entry k j⟩,
    ⟨n * (n + 1) / 2, n * (n + 1) / 2, fun i j => ∑ l ∈ Finset.range (n ^ 2),
      cooEntry (dmat n) l j * ∑ k ∈ Finset.range (n ^ 2), cooEntry (dmat n) k i * A.entry k l⟩,
    ⟨rfl, rfl, fun _ _ _ _ => rfl⟩, ⟨rfl, rfl, fun i j _ _ => by
      simp only; exact Finset.sum_congr rfl fun k _ => mul_comm _ _⟩, ?_⟩, fun hn => ?_⟩
  · rw [dupPrePost]
    simp only [if_true]
    rw [h1, Option.bind_eq_bind, Option.bind_some, Arr.dot, if_pos (by show n ^ 2 = A.cols; rw [hc])]
    rfl
  · have := half_lt hn
    rw [applyDmat2PrePost]
    simp only [Option.getD_none, hr, hc, hs, if_true]
    rw [h1, Option.bind_eq_bind, Option.bind_some, Arr.dot, if_neg]
    · rfl
    · show ¬ n * (n + 1) / 2 = A.cols
      omega

/-! ### The elimination matrix on the right -/

/-- **C242** `arr[:, indices]` is `A L'`. -/
theorem C242_elim [Field R] [CharZero R] (n : ℕ) (A : Arr R) (h : A.cols = n ^ 2) :
    ∃ out, applyLmatPost1 A none = some out ∧ out.rows = A.rows ∧ out.cols = n * (n + 1) / 2 ∧
      ∀ i j, i < out.rows → j < out.cols → out.entry i j = ∑ k ∈ Finset.range (n ^ 2), A.entry i k * cooEntry (lmat n) j k := by
  have hs : Nat.sqrt (n ^ 2) = n := Nat.sqrt_eq' n
  refine ⟨⟨A.rows, ((trilIndices n 0 true).map fun ij => ij.2 * n + ij.1).length, fun i j => (applyLmat1 (fun k => A.entry i k) n).getD j 0⟩, ?_, rfl,
    by rw [List.length_map, tril_length], fun i j _ hj => ?_⟩
  · rw [applyLmatPost1]
    simp only [Option.getD_none, h, hs]
    rw [if_pos]
    intro k hk
    obtain ⟨ij, hij, rfl⟩ := List.mem_map.1 hk
    exact (tril_lt n ij hij).1
  · have hj' : j < n * (n + 1) / 2 := by
      have : j < ((trilIndices n 0 true).map fun ij => ij.2 * n + ij.1).length := hj
      rwa [List.length_map, tril_length] at this
    show (applyLmat1 (fun k => A.entry i k) n).getD j 0 = _
    rw [(C07_apply_agrees _ n).1, List.getD_eq_getElem?_getD, List.getElem?_map, List.getElem?_range hj', Option.map_some, Option.getD_some, matVec]
    exact Finset.sum_congr rfl fun k _ => mul_comm _ _

/-- **C242** The version with the matrix multiplies by `L` and not by its transpose, and raises for every array with `n^2` columns,
`n ≥ 2`. -/
theorem C242_elim_violated [CommRing R] (n : ℕ) (hn : 2 ≤ n) (A : Arr R) (h : A.cols = n ^ 2) : applyLmatPost2 A none = none := by
  have hs : Nat.sqrt (n ^ 2) = n := Nat.sqrt_eq' n
  have := half_lt hn
  rw [applyLmatPost2, Option.getD_none, h, hs, Arr.dot, if_neg]
  show ¬ A.cols = n * (n + 1) / 2
  omega

example : ∃ A : Arr ℚ, A.rows = 2 ^ 2 ∧ A.cols = 2 ^ 2 := ⟨⟨4, 4, fun _ _ => 1⟩, rfl, rfl⟩

end Verif.Vec
