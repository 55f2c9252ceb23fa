import Verif.Vec.Lemmas2
import Verif.Vec.MaskLemmas
import Verif.Index.Props
/-!
# Properties of vectorisation operators and special matrices (C02/C03 agreement, C05–C07, C11)

Specification vocabulary: `Agree n A B` (two matrices agree on the `n × n` block), list
indexing, `matVec` (the textbook matrix–vector product) and `cooEntry` (the scipy contract:
duplicate triplets are summed).
-/
namespace Verif.Vec
open Verif.Np Verif.Index

variable {R : Type*}

/-- Spec: two matrices agree on the leading `m × n` block. -/
def Agree (m n : ℕ) (A B : ℕ → ℕ → R) : Prop := ∀ i j, i < m → j < n → A i j = B i j

/-- Spec: symmetric on the leading block. -/
def Symm (n : ℕ) (A : ℕ → ℕ → R) : Prop := ∀ i j, i < n → j < n → A i j = A j i

/-- Spec: unit diagonal. -/
def UnitDiag [One R] (n : ℕ) (A : ℕ → ℕ → R) : Prop := ∀ i, i < n → A i i = 1

/-- Spec: the result of multiplying an `m × n` matrix with a list of length `n`. -/
def mulList [Semiring R] (m n : ℕ) (M : ℕ → ℕ → R) (x : List R) : List R :=
  (List.range m).map fun i => ∑ j ∈ Finset.range n, M i j * x.getD j 0

/-- Spec: entry of the product of two matrices with inner dimension `n`. -/
def mulEntry [Semiring R] (n : ℕ) (A B : ℕ → ℕ → R) (i j : ℕ) : R :=
  ∑ k ∈ Finset.range n, A i k * B k j

/-! ## C02 / C03: the index maps number exactly what `vech`, `vecl` and `tril_indices` list -/

/-- C02: `vech` reads the lower triangle column by column, and `tril_indices(order='F')`
lists the cells in the same order. -/
theorem C02_vech_order (X : ℕ → ℕ → R) (m : ℕ) :
    trilIndices m 0 true = lowerTri m 0 ∧
    vech X m = (lowerTri m 0).map fun rs => X rs.1 rs.2 := by
  have h : trilIndices m 0 true = lowerTri m 0 := by
    unfold trilIndices lowerTri
    have := npTriu_eq m 0
    simp only [Nat.cast_zero] at this
    simp [this, List.map_flatMap, Function.comp_def]
  refine ⟨h, ?_⟩
  rw [← h]
  simp [trilIndices, vech, Function.comp_def]

/-- C03: `vecl` reads the strict lower triangle column by column, and
`tril_indices(k=-1, order='F')` lists the cells in the same order. -/
theorem C03_vecl_order (X : ℕ → ℕ → R) (m : ℕ) :
    trilIndices m (-1) true = lowerTri m 1 ∧
    vecl X m = (lowerTri m 1).map fun rs => X rs.1 rs.2 := by
  have h : trilIndices m (-1) true = lowerTri m 1 := by
    unfold trilIndices lowerTri
    have := npTriu_eq m 1
    simp only [Nat.cast_one] at this
    simp [this, List.map_flatMap, Function.comp_def]
  refine ⟨h, ?_⟩
  rw [← h]
  simp [trilIndices, vecl, Function.comp_def]

/-- C02: element `vech_inds_forwards(r, s, m)` of `vech(X)` is `X[r, s]`. -/
theorem C02_vech_element (X : ℕ → ℕ → R) (m r s : ℕ) (h1 : s ≤ r) (h2 : r < m) :
    ∃ i : ℕ, vechIndsForwards r s m = i ∧ (vech X m)[i]? = some (X r s) := by
  obtain ⟨i, hi, h⟩ := C02_vech_forwards_position m r s h1 h2
  exact ⟨i, hi, by rw [(C02_vech_order X m).2, List.getElem?_map, h]; rfl⟩

/-- C03: element `vecl_inds_forwards(r, s, m)` of `vecl(X)` is `X[r, s]`. -/
theorem C03_vecl_element (X : ℕ → ℕ → R) (m r s : ℕ) (h1 : s < r) (h2 : r < m) :
    ∃ i : ℕ, veclIndsForwards r s m = i ∧ (vecl X m)[i]? = some (X r s) := by
  obtain ⟨i, hi, h⟩ := C03_vecl_forwards_position m r s h1 h2
  exact ⟨i, hi, by rw [(C03_vecl_order X m).2, List.getElem?_map, h]; rfl⟩

/-- C02: `vech_diag_indices(p)` lists the positions of the diagonal entries in `vech`. -/
theorem C02_vech_diag_indices (X : ℕ → ℕ → R) (p k : ℕ) (hk : k < p) :
    ∃ i : ℕ, (vechDiagIndices p)[k]? = some (i : ℤ) ∧ (vech X p)[i]? = some (X k k) := by
  obtain ⟨i, hi, h⟩ := C02_vech_element X p k k le_rfl hk
  refine ⟨i, ?_, h⟩
  simp only [vechDiagIndices, List.getElem?_map, List.getElem?_range hk, Option.map_some,
    Option.some.injEq]
  rw [← hi]
  have t := two_tri (k : ℤ)
  have t' := two_tri' (k : ℤ)
  unfold vechIndsForwards
  nlinarith

/-- C01: element `vec_inds_forwards(r, s, m)` of `vec(X)` is `X[r, s]`. -/
theorem C01_vec_element (X : ℕ → ℕ → R) (m n r s : ℕ) (h1 : r < m) (h2 : s < n) :
    (vec X m n)[vecIndsForwards r s m]? = some (X r s) := vec_getElem? X m n r s h1 h2

/-- C02 (finding): `inv_tril_indices` does not invert `tril_indices` on the diagonal when the
diagonal is included (`k = 0`): the array is added to its transpose, doubling diagonal
positions.  Cell `(1, 1)` of a `2 × 2` matrix is at position `2` but is reported as `4`. -/
theorem C02_inv_tril_indices_violated :
    (trilIndices 2 0 true)[2]? = some (1, 1) ∧ invTrilIndices 2 0 true 0 1 1 = 4 := by decide

/-- C02/C03: with the diagonal excluded, `inv_tril_indices(n, k=-1, indexing)` does invert
`tril_indices`: the reported number of cell `(r, s)` (and of its mirror) is `indexing` plus its
position. -/
theorem C03_inv_tril_indices (n r s start : ℕ) (h1 : s < r) (h2 : r < n) :
    ∃ i : ℕ, (trilIndices n (-1) true)[i]? = some (r, s) ∧
      invTrilIndices n (-1) true start r s = start + i ∧
      invTrilIndices n (-1) true start s r = start + i := by
  obtain ⟨i, _, hi⟩ := C03_vecl_forwards_position n r s h1 h2
  rw [← (C03_vecl_order (fun _ _ => 0) n).1] at hi
  have hnd : (trilIndices n (-1) true).Nodup := by
    simp only [trilIndices, if_true]
    exact (nodup_npTriu n _).map Prod.swap_injective
  have hmem : (r, s) ∈ trilIndices n (-1) true := List.mem_of_getElem? hi
  have hidx : (trilIndices n (-1) true).idxOf (r, s) = i := by
    rw [List.getElem?_eq_some_iff] at hi
    obtain ⟨hl, he⟩ := hi
    rw [← he]
    exact hnd.idxOf_getElem i hl
  have hnot : (s, r) ∉ trilIndices n (-1) true := by
    simp only [trilIndices, if_true, List.mem_map, not_exists, not_and, Prod.forall, mem_npTriu]
    intro a b h e
    simp at e
    omega
  refine ⟨i, hi, ?_, ?_⟩ <;> simp [invTrilIndices, invTrilArr, hmem, hnot, hidx]

example : invTrilIndices 3 (-1) true 5 2 1 = 7 ∧ (trilIndices 3 (-1) true)[2]? = some (2, 1) := by
  decide

/-! ## C11: round trips -/

/-- C11: `invec` inverts `vec`, for any shape. -/
theorem C11_invec_vec [Zero R] (X : ℕ → ℕ → R) (m n : ℕ) :
    ∃ Y, invec (vec X m n) m n = some Y ∧ Agree m n Y X := by
  refine ⟨reshapeF 0 (vec X m n) m, by simp [invec, vec_length], ?_⟩
  intro i j hi hj
  simp only [reshapeF, List.getD_eq_getElem?_getD]
  rw [vec_getElem? X m n i j hi hj]; rfl

/-- C11: `vec` inverts `invec` on every vector of the right length; other lengths raise. -/
theorem C11_vec_invec [Zero R] (x : List R) (m n : ℕ) :
    (x.length = m * n → ∃ Y, invec x m n = some Y ∧ vec Y m n = x) ∧
    (x.length ≠ m * n → invec x m n = none) := by
  constructor
  · intro h
    refine ⟨reshapeF 0 x m, by simp [invec, h], ?_⟩
    apply List.ext_getElem?
    intro k
    rcases Nat.lt_or_ge k (m * n) with hk | hk
    · have hm : 0 < m := by
        rcases Nat.eq_zero_or_pos m with h' | h'
        · subst h'; simp at hk
        · exact h'
      have e : k = k / m * m + k % m := (Nat.div_add_mod' k m).symm
      rw [e, vec_getElem? _ m n (k % m) (k / m) (Nat.mod_lt _ hm)
        (Nat.div_lt_of_lt_mul hk)]
      simp only [reshapeF, ← e]
      rw [List.getD_eq_getElem?_getD, List.getElem?_eq_getElem (by omega)]
      rfl
    · rw [List.getElem?_eq_none (by rw [vec_length]; exact hk),
        List.getElem?_eq_none (by omega)]
  · intro h; simp [invec, h]

example : vec (fun i j => 10 * i + j) 2 3 = [0, 10, 1, 11, 2, 12] := by decide

/-- C11: the masked (numba) and the indexed implementations of `vech` / `vecl` agree. -/
theorem C11_vech_versions (X : ℕ → ℕ → R) (p : ℕ) :
    vechMaskVersion X p = vech X p ∧ veclMaskVersion X p = vecl X p :=
  ⟨vechMaskVersion_eq X p, veclMaskVersion_eq X p⟩

/-- C11: `invech(vech(S)) = S` for every symmetric matrix, both implementations. -/
theorem C11_invech_vech [Field R] [CharZero R] (S : ℕ → ℕ → R) (m : ℕ) (hS : Symm m S) :
    (∃ Y, invech (vech S m) = some (m, Y) ∧ Agree m m Y S) ∧
    (∃ Y, invechMaskVersion (vechMaskVersion S m) = some (m, Y) ∧ Agree m m Y S) := by
  constructor
  · refine ⟨_, invech_map m (fun p => S p.2 p.1), ?_⟩
    intro i j hi hj
    simp only [hi, hj, and_self, if_true]
    split
    · exact hS j i hj hi
    · rfl
  · rw [vechMaskVersion_eq]
    obtain ⟨M, h1, h2⟩ := invechMask_map m (fun p => S p.2 p.1)
    refine ⟨M, h1, ?_⟩
    intro i j hi hj
    rw [h2 i j hi hj]
    split
    · exact hS j i hj hi
    · rfl

/-- C11: for *every* vector of triangular length, `invech` returns a symmetric matrix whose
`vech` is the vector, and the two implementations agree. -/
theorem C11_vech_invech [Field R] [CharZero R] (x : List R) (m : ℕ)
    (hx : x.length = m * (m + 1) / 2) :
    ∃ Y Z, invech x = some (m, Y) ∧ invechMaskVersion x = some (m, Z) ∧
      Symm m Y ∧ vech Y m = x ∧ Agree m m Z Y := by
  have : Inhabited R := ⟨0⟩
  obtain ⟨v, rfl⟩ := exists_map_of_nodup (npTriu m 0) (nodup_npTriu m 0) x
    (by rw [length_npTriu_zero, hx])
  obtain ⟨M, h1, h2⟩ := invechMask_map m v
  refine ⟨_, M, invech_map m v, h1, ?_, ?_, ?_⟩
  · intro i j hi hj
    simp only [hi, hj, and_self, if_true]
    rcases Nat.lt_trichotomy i j with h | h | h
    · rw [if_pos (by omega), if_neg (by omega)]
    · subst h; rfl
    · rw [if_neg (by omega), if_pos (by omega)]
  · unfold vech
    apply List.map_congr_left
    rintro ⟨i, j⟩ hp
    rw [mem_npTriu] at hp
    obtain ⟨h1, h2, h3⟩ := hp
    simp only [h1, h2, and_self, if_true]
    split
    · have : i = j := by omega
      subst this; rfl
    · rfl
  · intro i j hi hj
    rw [h2 i j hi hj]
    simp [hi, hj]

/-- C11: lengths that are not triangular are rejected. -/
theorem C11_invech_rejects [Zero R] (x : List R) (hx : ∀ m, x.length ≠ m * (m + 1) / 2) :
    invech x = none := by
  unfold invech
  simp only [length_npTriu_zero]
  rw [if_neg (fun h => hx _ h.symm)]

/-- C11: `invecl(vecl(C)) = C` for every symmetric matrix with unit diagonal (a correlation
matrix), both implementations. -/
theorem C11_invecl_vecl [Field R] (C : ℕ → ℕ → R) (m : ℕ) (hm : 1 ≤ m)
    (hS : Symm m C) (h1 : UnitDiag m C) :
    (∃ Y, invecl (vecl C m) = some (m, Y) ∧ Agree m m Y C) ∧
    (∃ Y, inveclMaskVersion (veclMaskVersion C m) = some (m, Y) ∧ Agree m m Y C) := by
  constructor
  · refine ⟨_, invecl_map m hm (fun p => C p.2 p.1), ?_⟩
    intro i j hi hj
    simp only [hi, hj, and_self, if_true]
    split
    · next h => subst h; exact (h1 i hi).symm
    · split
      · exact hS j i hj hi
      · rfl
  · rw [veclMaskVersion_eq]
    obtain ⟨M, ha, hb⟩ := inveclMask_map m hm (fun p => C p.2 p.1)
    refine ⟨M, ha, ?_⟩
    intro i j hi hj
    rw [hb i j hi hj]
    split
    · next h => subst h; exact (h1 i hi).symm
    · split
      · exact hS j i hj hi
      · rfl

/-- C11: for every vector of strictly-triangular length, `invecl` returns a symmetric
unit-diagonal matrix whose `vecl` is the vector; both implementations agree. -/
theorem C11_vecl_invecl [Field R] (x : List R) (m : ℕ) (hm : 1 ≤ m)
    (hx : x.length = m * (m - 1) / 2) :
    ∃ Y Z, invecl x = some (m, Y) ∧ inveclMaskVersion x = some (m, Z) ∧
      Symm m Y ∧ UnitDiag m Y ∧ vecl Y m = x ∧ Agree m m Z Y := by
  have : Inhabited R := ⟨0⟩
  obtain ⟨v, rfl⟩ := exists_map_of_nodup (npTriu m 1) (nodup_npTriu m 1) x
    (by rw [length_npTriu_one, hx])
  obtain ⟨M, h1, h2⟩ := inveclMask_map m hm v
  refine ⟨_, M, invecl_map m hm v, h1, ?_, ?_, ?_, ?_⟩
  · intro i j hi hj
    simp only [hi, hj, and_self, if_true]
    rcases Nat.lt_trichotomy i j with h | h | h
    · rw [if_neg (by omega), if_pos h, if_neg (by omega), if_neg (by omega)]
    · subst h; rfl
    · rw [if_neg (by omega), if_neg (by omega), if_neg (by omega), if_pos (by omega)]
  · intro i hi; simp [hi]
  · unfold vecl
    apply List.map_congr_left
    rintro ⟨i, j⟩ hp
    rw [mem_npTriu] at hp
    obtain ⟨h1, h2, h3⟩ := hp
    simp only [h1, h2, and_self, if_true]
    rw [if_neg (by omega), if_neg (by omega)]
  · intro i j hi hj
    rw [h2 i j hi hj]
    simp [hi, hj]

/-- C11: `inv_lower_half_vec(lower_half_vec(A))` is the strict lower triangle of `A`, and
`invech_chol` of `vech(L)` is `L` for lower triangular `L`. -/
theorem C11_lower_half [Zero R] (A : ℕ → ℕ → R) (m : ℕ) :
    (1 ≤ m → ∃ Y, invLowerHalfVec (vecl A m) = some (m, Y) ∧
      Agree m m Y (fun i j => if j < i then A i j else 0)) ∧
    (∃ Y, invechChol (vech A m) = some (m, Y) ∧
      Agree m m Y (fun i j => if j ≤ i then A i j else 0)) := by
  have key : ∀ (k : ℤ), (npTriu m k).map (fun p => A p.2 p.1) =
      ((npTriu m k).map Prod.swap).map (fun p => A p.1 p.2) := by
    intro k; simp [Function.comp_def]
  have mem : ∀ (k : ℤ) i j, (i, j) ∈ (npTriu m k).map Prod.swap ↔ (j, i) ∈ npTriu m k := by
    intro k i j
    constructor
    · intro h
      obtain ⟨⟨a, b⟩, h1, h2⟩ := List.mem_map.1 h
      simp at h2
      rw [← h2.1, ← h2.2]; exact h1
    · intro h; exact List.mem_map.2 ⟨(j, i), h, rfl⟩
  constructor
  · intro hm
    have hl : lhvSizeToMatSize (npTriu m 1).length = m := by
      rw [length_npTriu_one, lhvSize_roundtrip m hm]
    refine ⟨scatter2 (fun _ _ => 0) ((npTriu m 1).map Prod.swap) (vecl A m), ?_, ?_⟩
    · simp [invLowerHalfVec, vecl, hl]
    · intro i j hi hj
      rw [vecl, key, scatter2_map]
      simp only [mem, mem_npTriu]
      congr 1
      apply propext
      constructor
      · intro h; omega
      · intro h; omega
  · have hl : (Nat.sqrt (8 * (npTriu m 0).length + 1) - 1) / 2 = m := by
      rw [length_npTriu_zero]; exact hvSize_roundtrip m
    refine ⟨scatter2 (fun _ _ => 0) ((npTriu m 0).map Prod.swap) (vech A m), ?_, ?_⟩
    · simp [invechChol, vech, hl]
    · intro i j hi hj
      rw [vech, key, scatter2_map]
      simp only [mem, mem_npTriu]
      congr 1
      apply propext
      constructor
      · intro h; omega
      · intro h; omega

/-- C11: the size conversions are mutually inverse. -/
theorem C11_sizes (m : ℕ) :
    hvSizeToMatSize (matSizeToHvSize m) = m ∧
    (1 ≤ m → lhvSizeToMatSize (matSizeToLhvSize m) = m) :=
  ⟨hvSize_roundtrip m, lhvSize_roundtrip m⟩

example : Symm 2 (fun i j : ℕ => ((i + j : ℕ) : ℚ)) ∧ UnitDiag 2 (fun i j => if i = j then (1:ℚ) else 3) := by
  constructor
  · intro i j _ _; simp [Nat.add_comm]
  · intro i _; simp

/-! ## C05: commutation matrix -/

/-- C05: `kmat(m, n) @ vec(A) = vec(A.T)` for every `m × n` matrix. -/
theorem C05_kmat_vec [CommRing R] (A : ℕ → ℕ → R) (m n : ℕ) :
    mulList (m * n) (m * n) (cooEntry (kmat m n)) (vec A m n) = vec (transpose A) n m := by
  apply List.ext_getElem?
  intro k
  rcases Nat.lt_or_ge k (m * n) with hk | hk
  · have hn : 0 < n := by
      rcases Nat.eq_zero_or_pos n with h' | h'
      · subst h'; simp at hk
      · exact h'
    have hr : k % n < n := Nat.mod_lt _ hn
    have hs : k / n < m := Nat.div_lt_of_lt_mul (by rw [Nat.mul_comm]; exact hk)
    have e : k = k / n * n + k % n := (Nat.div_add_mod' k n).symm
    have hlt : k % n * m + k / n < m * n := by nlinarith
    simp only [mulList, List.getElem?_map, List.getElem?_range hk, Option.map_some]
    have h1 := matVec_rows (m * n) (m * n) (fun k => (k % n) * m + k / n)
      (fun j => (vec A m n).getD j 0) k hk hlt
    unfold matVec at h1
    rw [kmat_eq, h1, List.getD_eq_getElem?_getD, vec_getElem? A m n _ _ hs hr]
    conv_rhs => rw [e]
    rw [vec_getElem? (transpose A) n m _ _ hr hs]
    rfl
  · rw [List.getElem?_eq_none (by simp [mulList]; omega),
      List.getElem?_eq_none (by rw [vec_length, Nat.mul_comm]; exact hk)]

/-- C05: `kmat(m, n)` is a permutation matrix with inverse `kmat(n, m)` equal to its
transpose. -/
theorem C05_kmat_inverse [CommRing R] (m n i j : ℕ) (hi : i < m * n) (hj : j < m * n) :
    mulEntry (m * n) (cooEntry (kmat m n)) (cooEntry (kmat n m)) i j =
      (if i = j then (1 : R) else 0) ∧
    (cooEntry (kmat n m) j i : R) = cooEntry (kmat m n) i j := by
  have hn : 0 < n := by
    rcases Nat.eq_zero_or_pos n with h' | h'
    · subst h'; simp at hi
    · exact h'
  have hm : 0 < m := by
    rcases Nat.eq_zero_or_pos m with h' | h'
    · subst h'; simp at hi
    · exact h'
  have cnv : ∀ k, k < m * n → k % n < n ∧ k / n < m ∧ k % n * m + k / n < m * n ∧
      (k % n * m + k / n) % m = k / n ∧ (k % n * m + k / n) / m = k % n := by
    intro k hk
    have hr : k % n < n := Nat.mod_lt _ hn
    have hs : k / n < m := Nat.div_lt_of_lt_mul (by rw [Nat.mul_comm]; exact hk)
    refine ⟨hr, hs, by nlinarith, ?_, ?_⟩
    · rw [Nat.add_comm, Nat.add_mul_mod_self_right, Nat.mod_eq_of_lt hs]
    · rw [Nat.add_comm, Nat.add_mul_div_right _ _ hm, Nat.div_eq_of_lt hs]; omega
  constructor
  · obtain ⟨_, _, h3, h4, h5⟩ := cnv i hi
    have h1 := matVec_rows (m * n) (m * n) (fun k => (k % n) * m + k / n)
      (fun k => (cooEntry (kmat n m) k j : R)) i hi h3
    unfold matVec at h1
    unfold mulEntry
    rw [kmat_eq, h1, kmat_eq, cooEntry_rows]
    rw [h4, h5, Nat.mul_comm n m]
    simp only [h3, true_and, Nat.div_add_mod']
  · rw [kmat_eq, kmat_eq, cooEntry_rows, cooEntry_rows, Nat.mul_comm n m]
    simp only [hi, hj, true_and]
    congr 1
    apply propext
    constructor
    · intro h
      have : j = j / m * m + j % m := (Nat.div_add_mod' j m).symm
      rw [← h]
      obtain ⟨a1, a2⟩ : (j % m * n + j / m) % n = j / m ∧ (j % m * n + j / m) / n = j % m := by
        have hb : j / m < n := Nat.div_lt_of_lt_mul hj
        constructor
        · rw [Nat.add_comm, Nat.add_mul_mod_self_right, Nat.mod_eq_of_lt hb]
        · rw [Nat.add_comm, Nat.add_mul_div_right _ _ hn, Nat.div_eq_of_lt hb]; omega
      rw [a1, a2]; exact this.symm
    · intro h
      obtain ⟨_, _, h3, h4, h5⟩ := cnv i hi
      rw [← h, h4, h5]
      exact Nat.div_add_mod' i n

/-- C05: the index-based application (`apply_kmat1`, `CommutationMatrix.apply`) and the index
list (`commutation_matrix_indices`) describe the same matrix as `kmat`. -/
theorem C05_apply_agrees [CommRing R] (x : ℕ → R) (m n : ℕ) :
    applyKmat1 x m n =
      (List.range (m * n)).map (matVec (m * n) (cooEntry (kmat m n)) x) ∧
    (kmat m n : List (R × ℕ × ℕ)) = (commutationMatrixIndices m n).map fun rc => (1, rc.1, rc.2) := by
  constructor
  · unfold applyKmat1
    apply List.map_congr_left
    intro k hk
    rw [List.mem_range] at hk
    have hn : 0 < n := by
      rcases Nat.eq_zero_or_pos n with h' | h'
      · subst h'; simp at hk
      · exact h'
    have hr : k % n < n := Nat.mod_lt _ hn
    have hs : k / n < m := Nat.div_lt_of_lt_mul (by rw [Nat.mul_comm]; exact hk)
    have h3 : k % n * m + k / n < m * n := by nlinarith
    rw [kmat_eq]
    exact (matVec_rows (m * n) (m * n) (fun k => (k % n) * m + k / n) x k hk h3).symm
  · rw [kmat_eq]; simp [commutationMatrixIndices, Function.comp_def]

example : commutationMatrixIndices 2 3 = [(0, 0), (1, 2), (2, 4), (3, 1), (4, 3), (5, 5)] := by
  decide

/-! ## C06: duplication matrix -/

/-- C06: `dmat(n) @ vech(S) = vec(S)` for every symmetric matrix. -/
theorem C06_dmat_vech [CommRing R] (S : ℕ → ℕ → R) (n : ℕ) (hS : Symm n S) :
    mulList (n ^ 2) (n * (n + 1) / 2) (cooEntry (dmat n)) (vech S n) = vec S n n := by
  apply List.ext_getElem?
  intro k
  rcases Nat.lt_or_ge k (n ^ 2) with hk | hk
  · obtain ⟨hn, hs, hr⟩ := div_lt_of_sq hk
    have e : k = k / n * n + k % n := (Nat.div_add_mod' k n).symm
    simp only [mulList, List.getElem?_map, List.getElem?_range hk, Option.map_some]
    have h1 := matVec_rows (n ^ 2) (n * (n + 1) / 2) (dcol n)
      (fun j => (vech S n).getD j 0) k hk (dcol_lt n k hk)
    unfold matVec at h1
    rw [dmat_eq, h1, List.getD_eq_getElem?_getD]
    conv_rhs => rw [e]
    rw [vec_getElem? S n n _ _ hr hs]
    unfold dcol
    split
    · rw [vech_getElem? S n _ _ (by omega) hs]
      simp [hS (k / n) (k % n) hs hr]
    · rw [vech_getElem? S n _ _ (by omega) hr]
      rfl
  · rw [List.getElem?_eq_none (by simpa [mulList] using hk),
      List.getElem?_eq_none (by rw [vec_length, ← pow_two]; exact hk)]

/-- C06: every row of `dmat(n)` has exactly one non-zero entry, and it is `1`. -/
theorem C06_dmat_rows [CommRing R] (n k : ℕ) (hk : k < n ^ 2) :
    ∃ c, c < n * (n + 1) / 2 ∧
      ∀ j, (cooEntry (dmat n) k j : R) = if c = j then 1 else 0 := by
  refine ⟨dcol n k, dcol_lt n k hk, fun j => ?_⟩
  rw [dmat_eq, cooEntry_rows]
  simp [hk]

/-- C06: `duplication_matrix_indices(n)` lists exactly the unit entries of `dmat(n)`. -/
theorem C06_dup_indices [CommRing R] [Nontrivial R] (n k c : ℕ) :
    (k, c) ∈ duplicationMatrixIndices n ↔ (cooEntry (dmat n) k c : R) = 1 := by
  have hd : (cooEntry (dmat n) k c : R) = if k < n ^ 2 ∧ dcol n k = c then 1 else 0 := by
    rw [dmat_eq, cooEntry_rows]
  have hR : (cooEntry (dmat n) k c : R) = 1 ↔ k < n ^ 2 ∧ dcol n k = c := by
    rw [hd]
    split
    · simp [*]
    · simp [*]
  rw [hR]
  have coff : ∀ r s, s ≤ r → r < n → r + s * n - s * (s + 1) / 2 = colOff n s + (r - s) := by
    intro r s h1 h2
    have h := sum_len_k n 0 s (by omega)
    have hc : colOff n s = ∑ t ∈ Finset.range s, (n - (t + 0)) := by
      simp [colOff]
    have t := tri_div s
    zify at h t
    have : 2 * (s * (s + 1) / 2) = s * (s + 1) := Nat.mul_div_cancel' (Nat.even_mul_succ_self s).two_dvd
    have h5 : 2 * (colOff n s : ℤ) = 2 * (s * n) - s * (s + 1) + 2 * s := by
      rw [hc]; push_cast at h ⊢; nlinarith
    have h6 : 2 * ((s * (s + 1) / 2 : ℕ) : ℤ) = s * (s + 1) := by exact_mod_cast this
    omega
  simp only [duplicationMatrixIndices, List.map_map, Function.comp_def, List.mem_append,
    List.mem_map, List.mem_filter, Prod.mk.injEq, decide_eq_true_eq, Prod.exists,
    trilIndices, if_true, mem_npTriu, Prod.swap_prod_mk]
  constructor
  · rintro (⟨a, b, hab, rfl, rfl⟩ | h)
    · have h1 : a ≤ b := by omega
      rw [coff b a h1 hab.2.1]
      refine ⟨cell_lt_sq n a b hab.1 hab.2.1, ?_⟩
      exact (dcol_iff n _ b a (cell_lt_sq n a b hab.1 hab.2.1) h1 hab.2.1).2 (Or.inl rfl)
    · obtain ⟨x, y, z, ⟨⟨a, b, hab, rfl, rfl, rfl⟩, _⟩, rfl, rfl⟩ := h
      have h1 : a ≤ b := by omega
      rw [coff b a h1 hab.2.1]
      refine ⟨cell_lt_sq n b a hab.2.1 hab.1, ?_⟩
      exact (dcol_iff n _ b a (cell_lt_sq n b a hab.2.1 hab.1) h1 hab.2.1).2 (Or.inr rfl)
  · rintro ⟨hk, hc⟩
    obtain ⟨r, s, h1, h2, h3⟩ := exists_cell n c (hc ▸ dcol_lt n k hk)
    rw [h3] at hc
    have hs : s < n := by omega
    rcases (dcol_iff n k r s hk h1 h2).1 hc with h | h
    · left
      exact ⟨s, r, ⟨hs, h2, by omega⟩, h.symm, by rw [coff r s h1 h2, h3]⟩
    · by_cases hne : s * n + r = r * n + s
      · left
        exact ⟨s, r, ⟨hs, h2, by omega⟩, by omega, by rw [coff r s h1 h2, h3]⟩
      · right
        exact ⟨s * n + r, r * n + s, r + s * n - s * (s + 1) / 2,
          ⟨⟨s, r, ⟨hs, h2, by omega⟩, rfl, rfl, rfl⟩, hne⟩,
          h.symm, by rw [coff r s h1 h2, h3]⟩

example : Symm 3 (fun i j : ℕ => ((i * j : ℕ) : ℚ)) := by intro i j _ _; simp [Nat.mul_comm]
example : duplicationMatrixIndices 2 = [(0, 0), (1, 1), (3, 2), (2, 1)] := by decide

/-- C06: the index-based product `apply_dmat1` / `DuplicationMatrix.apply` is the transposed
duplication matrix times the vector: `D.T @ x`. -/
theorem C06_apply_dmat [Field R] [CharZero R] (x : ℕ → R) (n : ℕ) :
    applyDmat1 x n =
      (List.range (n * (n + 1) / 2)).map (matVec (n ^ 2) (fun i k => cooEntry (dmat n) k i) x) := by
  apply List.ext_getElem?
  intro c
  have hlen : (applyDmat1 x n).length = n * (n + 1) / 2 := by
    simp [applyDmat1, trilIndices, length_npTriu_zero]
  rcases Nat.lt_or_ge c (n * (n + 1) / 2) with hc | hc
  · obtain ⟨r, s, h1, h2, rfl⟩ := exists_cell n c hc
    simp only [List.getElem?_map, List.getElem?_range hc, Option.map_some]
    have h3 := triu_getElem? n r s h1 h2
    simp only [applyDmat1, trilIndices, if_true, List.getElem?_map, zero_mul, h3, Option.map_some,
      Prod.swap_prod_mk, Option.some.injEq]
    unfold matVec
    have e : ∀ k ∈ Finset.range (n ^ 2), (cooEntry (dmat n) k (colOff n s + (r - s)) : R) * x k =
        if k = s * n + r ∨ k = r * n + s then x k else 0 := by
      intro k hk
      rw [Finset.mem_range] at hk
      rw [dmat_eq, cooEntry_rows]
      simp only [hk, true_and, dcol_iff n k r s hk h1 h2]
      split <;> simp
    rw [Finset.sum_congr rfl e, ← Finset.sum_filter]
    by_cases hrs : r = s
    · subst hrs
      have : (Finset.range (n ^ 2)).filter (fun k => k = r * n + r ∨ k = r * n + r) =
          {r * n + r} := by
        ext k
        simp only [or_self, Finset.mem_filter, Finset.mem_range, Finset.mem_singleton]
        constructor
        · exact fun h => h.2
        · intro h; exact ⟨h ▸ cell_lt_sq n r r h2 h2, h⟩
      rw [this, Finset.sum_singleton]
      simp only [if_true]
      ring
    · have hne : s * n + r ≠ r * n + s := by
        intro h
        have : (s : ℤ) * n + r = r * n + s := by exact_mod_cast h
        have h3 : ((n : ℤ) - 1) * (r - s) = 0 := by linarith
        have h4 : (n : ℤ) - 1 ≠ 0 := by omega
        rcases mul_eq_zero.1 h3 with h5 | h5
        · exact h4 h5
        · omega
      have : (Finset.range (n ^ 2)).filter (fun k => k = s * n + r ∨ k = r * n + s) =
          {s * n + r, r * n + s} := by
        ext k
        simp only [Finset.mem_filter, Finset.mem_range, Finset.mem_singleton, Finset.mem_insert]
        constructor
        · exact fun h => h.2
        · intro h
          refine ⟨?_, h⟩
          rcases h with h | h
          · exact h ▸ cell_lt_sq n s r (by omega) h2
          · exact h ▸ cell_lt_sq n r s h2 (by omega)
      rw [this, Finset.sum_pair hne]
      simp [hrs]
  · rw [List.getElem?_eq_none (by rw [hlen]; exact hc), List.getElem?_eq_none (by simpa using hc)]

/-! ## C07: elimination matrix and the Moore–Penrose inverse -/

theorem lcol_cell (n r s : ℕ) (h1 : s ≤ r) (h2 : r < n) :
    lcol n (colOff n s + (r - s)) = s * n + r := by
  unfold lcol
  rw [List.getD_eq_getElem?_getD, triu_getElem? n r s h1 h2]
  rfl

/-- C07: `lmat(n) @ vec(A) = vech(A)` for every square matrix. -/
theorem C07_lmat_vec [CommRing R] (A : ℕ → ℕ → R) (n : ℕ) :
    mulList (n * (n + 1) / 2) (n ^ 2) (cooEntry (lmat n)) (vec A n n) = vech A n := by
  apply List.ext_getElem?
  intro c
  rcases Nat.lt_or_ge c (n * (n + 1) / 2) with hc | hc
  · obtain ⟨r, s, h1, h2, rfl⟩ := exists_cell n c hc
    simp only [mulList, List.getElem?_map, List.getElem?_range hc, Option.map_some]
    have hlt : lcol n (colOff n s + (r - s)) < n ^ 2 := by
      rw [lcol_cell n r s h1 h2]; exact cell_lt_sq n s r (by omega) h2
    have h3 := matVec_rows (n * (n + 1) / 2) (n ^ 2) (lcol n)
      (fun j => (vec A n n).getD j 0) _ hc hlt
    unfold matVec at h3
    rw [lmat_eq, h3, lcol_cell n r s h1 h2, List.getD_eq_getElem?_getD,
      vec_getElem? A n n r s h2 (by omega), vech_getElem? A n r s h1 h2]
    rfl
  · rw [List.getElem?_eq_none (by simpa [mulList] using hc),
      List.getElem?_eq_none (by rw [vech_length]; exact hc)]

/-- C07: `lmat(n) @ dmat(n)` is the identity. -/
theorem C07_lmat_dmat [CommRing R] (n i j : ℕ) (hi : i < n * (n + 1) / 2) :
    mulEntry (n ^ 2) (cooEntry (lmat n)) (cooEntry (dmat n)) i j = (if i = j then (1 : R) else 0) := by
  obtain ⟨r, s, h1, h2, rfl⟩ := exists_cell n i hi
  have hlt : lcol n (colOff n s + (r - s)) < n ^ 2 := by
    rw [lcol_cell n r s h1 h2]; exact cell_lt_sq n s r (by omega) h2
  have h3 := matVec_rows (n * (n + 1) / 2) (n ^ 2) (lcol n)
    (fun k => (cooEntry (dmat n) k j : R)) _ hi hlt
  unfold matVec at h3
  unfold mulEntry
  rw [lmat_eq, h3, lcol_cell n r s h1 h2, dmat_eq, cooEntry_rows]
  have hs := cell_lt_sq n s r (by omega) h2
  simp only [hs, true_and]
  rw [(dcol_iff n _ r s hs h1 h2).2 (Or.inl rfl)]

/-- C07: `dpmat(n) @ dmat(n)` is the identity. -/
theorem C07_dpmat_dmat [Field R] [CharZero R] (n i j : ℕ) (hi : i < n * (n + 1) / 2) :
    mulEntry (n ^ 2) (cooEntry (dpmat n)) (cooEntry (dmat n)) i j =
      (if i = j then (1 : R) else 0) := by
  obtain ⟨r, s, h1, h2, rfl⟩ := exists_cell n i hi
  have h3 := dp_matVec n r s h1 h2 (fun k => (cooEntry (dmat n) k j : R))
  unfold matVec at h3
  unfold mulEntry
  have hs := cell_lt_sq n s r (by omega) h2
  have hs' := cell_lt_sq n r s h2 (by omega)
  rw [h3, dmat_eq, cooEntry_rows, cooEntry_rows]
  simp only [hs, hs', true_and]
  rw [(dcol_iff n _ r s hs h1 h2).2 (Or.inl rfl), (dcol_iff n _ r s hs' h1 h2).2 (Or.inr rfl)]
  split
  · ring
  · ring

/-- C07: `dpmat(n) @ vec(A)` is `vech` of the symmetric part of `A`. -/
theorem C07_dpmat_vec [Field R] [CharZero R] (A : ℕ → ℕ → R) (n : ℕ) :
    mulList (n * (n + 1) / 2) (n ^ 2) (cooEntry (dpmat n)) (vec A n n) =
      vech (fun i j => (A i j + A j i) / 2) n := by
  apply List.ext_getElem?
  intro c
  rcases Nat.lt_or_ge c (n * (n + 1) / 2) with hc | hc
  · obtain ⟨r, s, h1, h2, rfl⟩ := exists_cell n c hc
    simp only [mulList, List.getElem?_map, List.getElem?_range hc, Option.map_some]
    have h3 := dp_matVec n r s h1 h2 (fun k => ((vec A n n).getD k 0 : R))
    unfold matVec at h3
    rw [h3, List.getD_eq_getElem?_getD, List.getD_eq_getElem?_getD,
      vec_getElem? A n n r s h2 (by omega), vec_getElem? A n n s r (by omega) h2,
      vech_getElem? _ n r s h1 h2]
    rfl
  · rw [List.getElem?_eq_none (by simpa [mulList] using hc),
      List.getElem?_eq_none (by rw [vech_length]; exact hc)]

/-- C07: the index-based applications agree with the sparse matrices. -/
theorem C07_apply_agrees [Field R] [CharZero R] (x : ℕ → R) (n : ℕ) :
    applyLmat1 x n = (List.range (n * (n + 1) / 2)).map (matVec (n ^ 2) (cooEntry (lmat n)) x) ∧
    applyDp x n = (List.range (n * (n + 1) / 2)).map (matVec (n ^ 2) (cooEntry (dpmat n)) x) := by
  have hlen1 : (applyLmat1 x n).length = n * (n + 1) / 2 := by
    simp [applyLmat1, trilIndices, length_npTriu_zero]
  have hlen2 : (applyDp x n).length = n * (n + 1) / 2 := by
    simp [applyDp, trilIndices, length_npTriu_zero]
  constructor
  · apply List.ext_getElem?
    intro c
    rcases Nat.lt_or_ge c (n * (n + 1) / 2) with hc | hc
    · obtain ⟨r, s, h1, h2, rfl⟩ := exists_cell n c hc
      simp only [List.getElem?_map, List.getElem?_range hc, Option.map_some]
      have hlt : lcol n (colOff n s + (r - s)) < n ^ 2 := by
        rw [lcol_cell n r s h1 h2]; exact cell_lt_sq n s r (by omega) h2
      rw [lmat_eq, matVec_rows (n * (n + 1) / 2) (n ^ 2) (lcol n) x _ hc hlt,
        lcol_cell n r s h1 h2]
      have h3 := triu_getElem? n r s h1 h2
      simp [applyLmat1, trilIndices, h3]
    · rw [List.getElem?_eq_none (by rw [hlen1]; exact hc), List.getElem?_eq_none (by simpa using hc)]
  · apply List.ext_getElem?
    intro c
    rcases Nat.lt_or_ge c (n * (n + 1) / 2) with hc | hc
    · obtain ⟨r, s, h1, h2, rfl⟩ := exists_cell n c hc
      simp only [List.getElem?_map, List.getElem?_range hc, Option.map_some]
      rw [dp_matVec n r s h1 h2]
      have h3 := triu_getElem? n r s h1 h2
      simp [applyDp, trilIndices, h3]
    · rw [List.getElem?_eq_none (by rw [hlen2]; exact hc), List.getElem?_eq_none (by simpa using hc)]

/-- C07: `elimination_matrix_indices(n)` lists exactly the unit entries of `lmat(n)`. -/
theorem C07_elim_indices [One R] (n : ℕ) :
    (lmat n : List (R × ℕ × ℕ)) = (eliminationMatrixIndices n).map fun rc => (1, rc.1, rc.2) := by
  unfold lmat eliminationMatrixIndices
  rw [lmatCols_eq_tril]
  simp [trilIndices, Function.comp_def]

example : (5 : ℕ) < 3 * (3 + 1) / 2 ∧ lcol 3 4 = 5 := by decide

end Verif.Vec
