import Verif.Rank.RavelLemmas
import Verif.Rank.UniqueLemmas
/-!
# Properties of ranking functions (C08–C10)

Specification vocabulary: sortedness (`List.Pairwise (· ≤ ·)`), permutation (`List.Perm`),
binomial coefficients, products of lists, in-range multi-indices (`List.Forall₂ (· < ·)`), the
built-in lexicographic order `<` on lists.
-/
namespace Verif.Rank

/-! ## C08 -/

/-- C08: the rank depends only on the multiset of indices. -/
theorem C08_rank_order_independent (a b : List ℕ) (h : a.Perm b) :
    ascendingForward a = ascendingForward b := by
  rw [ascendingForward_eq, ascendingForward_eq]
  congr 1
  exact ((npSort_perm a).trans (h.trans (npSort_perm b).symm)).eq_of_pairwise'
    (r := (· ≤ ·)) (npSort_sorted a) (npSort_sorted b)

/-- C08: ranks of tuples with entries below `p` lie in `0 .. C(p+n-1, n) - 1`, and unranking
recovers the sorted tuple (so distinct multisets never collide). -/
theorem C08_unrank_rank (p : ℕ) (a : List ℕ) (hp : ∀ x ∈ a, x < p) :
    ascendingForward a < Nat.choose (p + a.length - 1) a.length ∧
    ∃ s, ascendingReversed p a.length (ascendingForward a) = some s ∧
      s.Perm a ∧ s.Pairwise (· ≤ ·) := by
  have hs := npSort_sorted a
  have hpm := npSort_perm a
  have hl : (npSort a).length = a.length := hpm.length_eq
  rw [ascendingForward_eq]
  refine ⟨?_, npSort a, ?_, hpm, hs⟩
  · rcases List.eq_nil_or_concat (npSort a) with h | ⟨b, x, h⟩
    · rw [h] at hl
      rw [h, ← hl]; simp [F]
    · rw [List.concat_eq_append] at h
      rw [h] at hs hl ⊢
      have hx : x < p := hp x (by rw [← hpm.mem_iff, h]; simp)
      refine lt_of_lt_of_le (F_append_lt b x hs) ?_
      rw [← hl]
      simp only [List.length_append, List.length_singleton]
      exact Nat.choose_le_choose _ (by omega)
  · rw [← hl]
    exact reversed_F p (npSort a) hs (fun x hx => hp x (hpm.mem_iff.1 hx))

/-- C08: no gaps — every number below `C(p+n-1, n)` is the rank of the tuple that unranking
returns, which is non-decreasing, has length `n` and entries below `p`. -/
theorem C08_rank_unrank (p n m : ℕ) (hp : 0 < p) (hm : m < Nat.choose (p + n - 1) n) :
    ∃ a, ascendingReversed p n m = some a ∧ a.length = n ∧ a.Pairwise (· ≤ ·) ∧
      (∀ x ∈ a, x < p) ∧ ascendingForward a = m := by
  obtain ⟨a, h1, h2, h3, h4, h5⟩ := reversed_spec p n m (p - 1) (by omega)
    (by rwa [show n + (p - 1) = p + n - 1 by omega])
  refine ⟨a, h1, h2, h3, fun x hx => by have := h4 x hx; omega, ?_⟩
  rw [ascendingForward_eq, npSort_of_sorted a h3, h5]

/-- C08: the numba implementation of the binomial coefficient is the binomial coefficient, and
the numba rank / unrank functions agree with the scipy-based ones. -/
theorem C08_numba_agrees (n k p m : ℕ) (a : List ℕ) :
    combNumba n k = Nat.choose n k ∧
    colexAscendingForward a = ascendingForward a ∧
    colexAscendingReverse p n m = ascendingReversed p n m :=
  ⟨combNumba_eq n k, colexAscendingForward_eq a, colexAscendingReverse_eq p n m⟩

/-- C08: the descending variants: ranking ignores order, and unranking returns the
non-increasing arrangement of the same multiset. -/
theorem C08_descending (p : ℕ) (a : List ℕ) (hp : ∀ x ∈ a, x < p) :
    ∃ s, colexDescendingReverse p a.length (colexAscendingForward a) = some s ∧
      s.Perm a ∧ s.Pairwise (· ≥ ·) := by
  obtain ⟨s, h1, h2, h3⟩ := (C08_unrank_rank p a hp).2
  refine ⟨s.reverse, ?_, (List.reverse_perm s).trans h2, ?_⟩
  · rw [colexDescendingReverse, colexAscendingForward_eq, colexAscendingReverse_eq, h1]; rfl
  · rw [List.pairwise_reverse]; exact h3

/-- A concrete case: the tuple (3,0,2) with entries below 4. -/
example : (∀ x ∈ [3, 0, 2], x < 4) ∧ [3, 0, 2].Perm [0, 2, 3] ∧
    (13 : ℕ) < Nat.choose (4 + 3 - 1) 3 := by decide
example : ascendingReversed 4 3 13 = some [0, 2, 3] := by decide

/-! ## C09 -/

/-- C09: colexicographic ravel then unravel is the identity on in-range multi-indices, and the
flat index is in range. -/
theorem C09_colex_reverse_forward (x shape : List ℕ) (hne : shape ≠ [])
    (h : List.Forall₂ (· < ·) x shape) :
    ∃ i, colexForward x shape = some i ∧ i < shape.prod ∧ colexReverse i shape = x := by
  have hl := List.Forall₂.length_eq h
  have hx : x ≠ [] := by
    intro hx; subst hx; exact hne (List.length_eq_zero_iff.1 hl.symm)
  refine ⟨_, colexForward_eq x shape hx hl, colexRank_lt x shape h, ?_⟩
  rw [colexReverse, colexReverse_rank shape x [] hne h, List.append_nil]

/-- C09: colexicographic unravel then ravel is the identity on flat indices, and unravel always
lands in range. -/
theorem C09_colex_forward_reverse (i : ℕ) (shape : List ℕ) (hne : shape ≠ []) (hi : i < shape.prod) :
    List.Forall₂ (· < ·) (colexReverse i shape) shape ∧
      colexForward (colexReverse i shape) shape = some i := by
  obtain ⟨x, h1, h2, h3⟩ := colexReverse_spec shape [] i hne hi
  have : colexReverse i shape = x := by rw [colexReverse, h1, List.append_nil]
  rw [this]
  have hl := List.Forall₂.length_eq h2
  have hx : x ≠ [] := by
    intro hx; subst hx; exact hne (List.length_eq_zero_iff.1 hl.symm)
  exact ⟨h2, by rw [colexForward_eq x shape hx hl, h3]⟩

/-- C09: lexicographic ravel then unravel. -/
theorem C09_lex_reverse_forward (x shape : List ℕ) (hne : shape ≠ [])
    (h : List.Forall₂ (· < ·) x shape) :
    ∃ i, lexForward x shape = some i ∧ i < shape.prod ∧ lexReverse i shape = x := by
  obtain ⟨i, h1, h2, h3⟩ := C09_colex_reverse_forward x.reverse shape.reverse (by simpa using hne)
    (List.rel_reverse h)
  refine ⟨i, h1, by rwa [List.prod_reverse] at h2, ?_⟩
  rw [lexReverse_eq, h3, List.reverse_reverse]

/-- C09: lexicographic unravel then ravel. -/
theorem C09_lex_forward_reverse (i : ℕ) (shape : List ℕ) (hne : shape ≠ []) (hi : i < shape.prod) :
    List.Forall₂ (· < ·) (lexReverse i shape) shape ∧
      lexForward (lexReverse i shape) shape = some i := by
  obtain ⟨h1, h2⟩ := C09_colex_forward_reverse i shape.reverse (by simpa using hne)
    (by rwa [List.prod_reverse])
  rw [lexReverse_eq]
  refine ⟨?_, by rw [lexForward, List.reverse_reverse]; exact h2⟩
  have := List.rel_reverse h1
  rwa [List.reverse_reverse] at this

/-- C09: increasing flat index is increasing lexicographic order of the multi-indices
(lexicographic ravel), respectively increasing lexicographic order of the reversed
multi-indices (colexicographic ravel). -/
theorem C09_order (x y shape : List ℕ) (hne : shape ≠ [])
    (hx : List.Forall₂ (· < ·) x shape) (hy : List.Forall₂ (· < ·) y shape) :
    (∃ i j, lexForward x shape = some i ∧ lexForward y shape = some j ∧ (i < j ↔ x < y)) ∧
    (∃ i j, colexForward x shape = some i ∧ colexForward y shape = some j ∧
      (i < j ↔ x.reverse < y.reverse)) := by
  have nonempty : ∀ z, List.Forall₂ (· < ·) z shape → z ≠ [] := by
    intro z hz hz'
    subst hz'
    exact hne (List.length_eq_zero_iff.1 (List.Forall₂.length_eq hz).symm)
  have lx := List.Forall₂.length_eq hx
  have ly := List.Forall₂.length_eq hy
  constructor
  · refine ⟨_, _, colexForward_eq _ _ (by simpa using nonempty x hx) (by simpa using lx),
      colexForward_eq _ _ (by simpa using nonempty y hy) (by simpa using ly), ?_⟩
    rw [lexRank_eq x shape lx, lexRank_eq y shape ly]
    exact lexRank_order x y shape hx hy
  · refine ⟨_, _, colexForward_eq _ _ (nonempty x hx) lx, colexForward_eq _ _ (nonempty y hy) ly, ?_⟩
    have ex := lexRank_eq x.reverse shape.reverse (by simpa using lx)
    have ey := lexRank_eq y.reverse shape.reverse (by simpa using ly)
    rw [List.reverse_reverse, List.reverse_reverse] at ex ey
    rw [ex, ey]
    exact lexRank_order _ _ _ (List.rel_reverse hx) (List.rel_reverse hy)

example : List.Forall₂ (· < ·) [1, 2, 0] [2, 3, 4] ∧ ([2, 3, 4] : List ℕ) ≠ [] ∧
    lexForward [1, 2, 0] [2, 3, 4] = some 20 ∧ lexReverse 20 [2, 3, 4] = [1, 2, 0] ∧
    colexForward [1, 2, 0] [2, 3, 4] = some 5 ∧ colexReverse 5 [2, 3, 4] = [1, 2, 0] := by decide

/-! ## C10 -/

/-- C10: `unique(arr) = (u, inv, ind)`: `u` has no duplicates and the same values as `arr`;
`ind` lists the first position of each unique value and is strictly increasing (so `u` is in
order of first appearance); and `u[inv] = arr`. -/
theorem C10_unique {α : Type*} [LinearOrder α] [Inhabited α] (arr : List α) :
    (unique arr).1.Nodup ∧
    (∀ x, x ∈ (unique arr).1 ↔ x ∈ arr) ∧
    (unique arr).2.2 = (unique arr).1.map (fun x => arr.idxOf x) ∧
    (unique arr).2.2.Pairwise (· < ·) ∧
    (unique arr).2.1.length = arr.length ∧
    (∀ i, i < arr.length → (unique arr).1[(unique arr).2.1.getD i 0]? = arr[i]?) := by
  obtain ⟨h1, h2, h3, h4, h5, h6⟩ := unique_facts arr
  exact ⟨h3, h4, h2, h1, h5, h6⟩

/-- A concrete case: in `[5, 3, 5, 1, 3]` the value `1` is found, and position `2` (a repeated
value) reconstructs to `5`. -/
example : (1 : ℕ) ∈ (unique [5, 3, 5, 1, 3]).1 ∧
    (unique [5, 3, 5, 1, 3]).1[(unique [5, 3, 5, 1, 3]).2.1.getD 2 0]? = some 5 :=
  ⟨((C10_unique [5, 3, 5, 1, 3]).2.1 1).2 (by decide),
    (C10_unique [5, 3, 5, 1, 3]).2.2.2.2.2 2 (by decide)⟩

end Verif.Rank
