import Verif.Robust.MedNd
import Verif.Robust.DispProps
import Mathlib.Tactic

/-!
C268: low and high medians along an axis of a matrix.
-/
namespace Verif.Robust

variable {R : Type} [Field R] [LinearOrder R] {r c : ℕ}

theorem linesAlong_len (one : Bool) (a : Fin r → Fin c → R) (l : List R) (hl : l ∈ linesAlong one a) : l.length = if one then c else r := by
  cases one
  · simp only [linesAlong, Bool.false_eq_true, if_false, List.mem_ofFn, Set.mem_range] at hl ⊢
    obtain ⟨j, rfl⟩ := hl
    simp
  · simp only [linesAlong, if_true, List.mem_ofFn, Set.mem_range] at hl ⊢
    obtain ⟨j, rfl⟩ := hl
    simp

theorem mapM_congr_opt {α β : Type} {f g : α → Option β} : ∀ {l : List α}, (∀ x ∈ l, f x = g x) → l.mapM f = l.mapM g
  | [], _ => rfl
  | a :: l, h => by
    rw [List.mapM_cons, List.mapM_cons, h a List.mem_cons_self, mapM_congr_opt fun x hx => h x (List.mem_cons_of_mem _ hx)]

/-- **C268** Along an axis the result is the low or high median of every line: that of `_median_1d`. -/
theorem C268_axis (high one : Bool) (a : Fin r → Fin c → R) :
    medianNd high (some one) a = (linesAlong one a).mapM fun l => if high then medianHigh l else medianLow l := by
  cases one <;> simp only [medianNd, Option.getD_some] <;> refine mapM_congr_opt fun l hl => ?_ <;>
    have h := linesAlong_len _ a l hl <;> cases high <;> simp_all [medIdx, medianLow, medianHigh]

/-- **C268** For the columns of a matrix with rows there is a result: column `j` has an entry with at most `k` smaller and more than `k` not larger ones. -/
theorem C268_columns (high : Bool) (a : Fin r → Fin c → R) (hr : 0 < r) :
    ∃ m : Fin c → R, medianNd high (some false) a = some (List.ofFn m) ∧ ∀ j, (∃ i, a i j = m j) ∧
      (List.ofFn fun i => a i j).countP (· < m j) ≤ medIdx high r ∧ medIdx high r < (List.ofFn fun i => a i j).countP (· ≤ m j) := by
  have hk : medIdx high r < r := by cases high <;> simp [medIdx] <;> omega
  have hlen : ∀ j, medIdx high r < (npSort (List.ofFn fun i => a i j)).length := fun j => by rw [npSort_len, List.length_ofFn]; exact hk
  refine ⟨fun j => (npSort (List.ofFn fun i => a i j))[medIdx high r]'(hlen j), ?_, fun j => ⟨?_, ?_⟩⟩
  · have e : List.ofFn (fun j => (npSort (List.ofFn fun i => a i j))[medIdx high r]'(hlen j))
        = (List.finRange c).map fun j => (npSort (List.ofFn fun i => a i j))[medIdx high r]'(hlen j) := List.ofFn_eq_map
    have e2 : linesAlong false a = (List.finRange c).map fun j => List.ofFn fun i => a i j := by
      simp only [linesAlong, Bool.false_eq_true, if_false]; exact List.ofFn_eq_map
    simp only [medianNd, Option.getD_some, e, e2]
    rw [List.mapM_map]
    exact mapM_some _ _ _ fun j _ => List.getElem?_eq_getElem (hlen j)
  · have := (npSort_perm (List.ofFn fun i => a i j)).mem_iff.1 (List.getElem_mem (hlen j))
    obtain ⟨i, hi⟩ := List.mem_ofFn.1 this
    exact ⟨i, hi⟩
  · have hc := sorted_counts (npSort_sorted (List.ofFn fun i => a i j)) (hlen j)
    rwa [(npSort_perm _).countP_eq, (npSort_perm _).countP_eq] at hc

/-- **C268** The indices of the two medians: equal for odd lengths, next to each other for even ones, and mirror images. -/
theorem C268_indices (n : ℕ) (hn : 0 < n) :
    (n % 2 = 1 → medIdx false n = medIdx true n) ∧ (n % 2 = 0 → medIdx true n = medIdx false n + 1) ∧
      medIdx false n + medIdx true n = n - 1 ∧ medIdx true n < n := by
  simp only [medIdx, Bool.false_eq_true, if_false, if_true]
  omega

/-- **C268** The low median is not above the high one. -/
theorem C268_low_le_high (l : List R) (u v : R) (hu : medianLow l = some u) (hv : medianHigh l = some v) : u ≤ v := by
  obtain ⟨h1, e1⟩ := List.getElem?_eq_some_iff.1 hu
  obtain ⟨h2, e2⟩ := List.getElem?_eq_some_iff.1 hv
  rw [← e1, ← e2]
  exact (npSort_sorted l).getElem_le_getElem_of_le (by omega)

/-- **C268** Transposing the matrix exchanges the axes. -/
theorem C268_transpose (high one : Bool) (a : Fin r → Fin c → R) :
    medianNd high (some one) a = medianNd high (some !one) fun j i => a i j := by
  cases one <;> rfl

/-- **C268** Without an axis a matrix of one column is treated as a vector. -/
theorem C268_none_partial (high : Bool) (a : Fin r → Fin 1 → R) : medianNd high none a = medianNd high (some false) a := by
  simp [medianNd]

/-- **C268 (violated)** Without an axis the median of the whole matrix is meant; with three or more columns the call raises, for the high median already with two. -/
theorem C268_none_violated (a : Fin r → Fin c → R) (hr : 0 < r) (hc : 2 ≤ c) :
    medianNd true none a = none ∧ (3 ≤ c → medianNd false none a = none) := by
  have key : ∀ (high : Bool), r ≤ medIdx high (r * c) → medianNd high none a = none := by
    intro high hk
    obtain ⟨d, rfl⟩ : ∃ d, c = d + 1 := ⟨c - 1, by omega⟩
    simp only [medianNd, Option.getD_none, linesAlong, Bool.false_eq_true, if_false, List.ofFn_succ, List.mapM_cons]
    have : kth (List.ofFn fun i => a i 0) (medIdx high (r * (d + 1))) = none := by
      rw [kth, List.getElem?_eq_none_iff, npSort_len, List.length_ofFn]; exact hk
    rw [this]
    rfl
  constructor
  · refine key true ?_
    have : r * 2 ≤ r * c := Nat.mul_le_mul_left r hc
    simp only [medIdx, if_true]
    omega
  · intro h3
    refine key false ?_
    have : r * 3 ≤ r * c := Nat.mul_le_mul_left r h3
    simp only [medIdx, Bool.false_eq_true, if_false]
    omega

/-- **C268 (violated)** With two columns the low median without an axis gives the greatest entry of each column. -/
theorem C268_none_two_violated (a : Fin r → Fin 2 → R) (hr : 0 < r) :
    medianNd false none a = (linesAlong false a).mapM fun l => kth l (r - 1) := by
  have : medIdx false (r * 2) = r - 1 := by simp only [medIdx, Bool.false_eq_true, if_false]; omega
  simp [medianNd, this]

example : medianNd false none (![![1, 5], ![2, 4]] : Fin 2 → Fin 2 → ℚ) = some [2, 5] := by
  rw [C268_none_two_violated _ (by norm_num)]
  have h1 : kth ([1, 2] : List ℚ) 1 = some 2 := kth_eq (by decide +kernel) (by decide +kernel)
  have h2 : kth ([5, 4] : List ℚ) 1 = some 5 := kth_eq (by decide +kernel) (by decide +kernel)
  simp [linesAlong, h1, h2]

end Verif.Robust
