import Verif.Sparse.CooLemmas
import Verif.Sparse.DotLemmas
/-!
# Properties of the sparse kernels (C12 - C17, C51, C52)

A compressed-column triple denotes the matrix `Csc.entry` (duplicates add), which is scipy's own
contract for `csc_array((x, i, p))`.
-/
namespace Verif.Sparse

variable {R : Type*}

/-- The storage is well formed for `nr × nc`: pointers do not decrease and rows are in range. -/
structure Csc.WF (M : Csc R) (nr nc : ℕ) : Prop where
  mono : ∀ c < nc, M.p c ≤ M.p (c + 1)
  rows : ∀ c < nc, ∀ k, M.p c ≤ k → k < M.p (c + 1) → M.i k < nr

/-- Row numbers strictly increase inside every column (scipy's `has_sorted_indices` plus
canonical format). -/
def Csc.Sorted (M : Csc R) (nc : ℕ) : Prop := ∀ c < nc, IncOn M.i (M.p c) (M.p (c + 1))

/-- A 2x3 example, `[[5,0,7],[0,2,-1]]`. -/
def exA : Csc ℤ :=
  { p := fun c => [0, 1, 2, 4].getD c 0, i := fun k => [0, 1, 0, 1].getD k 0,
    x := fun k => [5, 2, 7, -1].getD k 0 }

/-- A 3x2 example, `[[1,0],[0,3],[4,2]]`. -/
def exB : Csc ℤ :=
  { p := fun c => [0, 2, 4].getD c 0, i := fun k => [0, 2, 1, 2].getD k 0,
    x := fun k => [1, 4, 3, 2].getD k 0 }

theorem exA_wf : exA.WF 2 3 := by
  constructor
  · decide
  · intro c hc k h1 h2
    have : k < 4 := by
      have h : ∀ c < 3, exA.p (c + 1) ≤ 4 := by decide
      have := h c hc; omega
    revert h1 h2; revert k; revert c; decide

theorem exB_wf : exB.WF 3 2 := by
  constructor
  · decide
  · intro c hc k h1 h2
    have : k < 4 := by
      have h : ∀ c < 2, exB.p (c + 1) ≤ 4 := by decide
      have := h c hc; omega
    revert h1 h2; revert k; revert c; decide

theorem exB_sorted : exB.Sorted 2 := by
  intro c hc p q h1 h2 h3
  have : q < 4 := by
    have h : ∀ c < 2, exB.p (c + 1) ≤ 4 := by decide
    have := h c hc; omega
  have h : ∀ c : Fin 2, ∀ p q : Fin 4, (exB.p c ≤ p ∧ p < q ∧ q < exB.p (c + 1)) →
      exB.i p < exB.i q := by decide
  exact h ⟨c, hc⟩ ⟨p, by omega⟩ ⟨q, by omega⟩ ⟨h1, h2, h3⟩

/-! ## C12: triplets to compressed columns -/

/-- The result denotes the sum of all triplets at each position. -/
theorem C12_coo_same_matrix [AddCommMonoid R] (nc nz : ℕ) (Ai Aj : ℕ → ℕ) (Ax : ℕ → R)
    (hj : ∀ k < nz, Aj k < nc) (r c : ℕ) (hc : c < nc) :
    (cooToCsc nc nz Ai Aj Ax).entry r c =
      ∑ k ∈ Finset.range nz, if Ai k = r ∧ Aj k = c then Ax k else 0 := by
  rw [Csc.entry_colList, cooToCsc_colList nc nz Ai Aj Ax hj c hc, triplesCol_sum]

/-- The column pointer starts at 0, never decreases and ends at the number of triplets. -/
theorem C12_coo_pointer [Zero R] (nc nz : ℕ) (Ai Aj : ℕ → ℕ) (Ax : ℕ → R)
    (hj : ∀ k < nz, Aj k < nc) :
    (cooToCsc nc nz Ai Aj Ax).p 0 = 0 ∧ (cooToCsc nc nz Ai Aj Ax).p nc = nz ∧
    ∀ c < nc, (cooToCsc nc nz Ai Aj Ax).p c ≤ (cooToCsc nc nz Ai Aj Ax).p (c + 1) := by
  have hp := cooToCsc_p nc nz Ai Aj Ax hj
  refine ⟨?_, ?_, ?_⟩
  · rw [hp 0 (by omega)]; simp [startCol]
  · rw [hp nc le_rfl, startCol_total Aj nz nc hj]
  · intro c hc
    rw [hp c (by omega), hp (c + 1) (by omega)]
    exact startCol_mono Aj nz (by omega)

/-- Each column holds its triplets, all of them, in input order. -/
theorem C12_coo_order [Zero R] (nc nz : ℕ) (Ai Aj : ℕ → ℕ) (Ax : ℕ → R)
    (hj : ∀ k < nz, Aj k < nc) (c : ℕ) (hc : c < nc) :
    (loopRange ((cooToCsc nc nz Ai Aj Ax).p c) ((cooToCsc nc nz Ai Aj Ax).p (c + 1))).map
      (fun k => ((cooToCsc nc nz Ai Aj Ax).i k, (cooToCsc nc nz Ai Aj Ax).x k)) =
    ((List.range nz).filter fun k => Aj k = c).map fun k => (Ai k, Ax k) :=
  cooToCsc_colList nc nz Ai Aj Ax hj c hc

/-- Unsorted triplets with a duplicate position and an empty column. -/
example : ∀ k < 4, (fun k => [2, 0, 2, 0].getD k 0) k < 4 := by decide

example : ((List.range 4).map fun k =>
      ((cooToCsc 4 4 (fun k => [1, 3, 1, 0].getD k 0) (fun k => [2, 0, 2, 0].getD k 0)
        (fun k => ([10, 20, 30, 40] : List ℤ).getD k 0)).i k,
      (cooToCsc 4 4 (fun k => [1, 3, 1, 0].getD k 0) (fun k => [2, 0, 2, 0].getD k 0)
        (fun k => ([10, 20, 30, 40] : List ℤ).getD k 0)).x k)) =
    [(3, 20), (0, 40), (1, 10), (1, 30)] := by decide

/-! ## C13: addition into a preallocated pattern -/

section ring
variable [CommRing R]

/-- If every position where `alpha*A + beta*B` is non-zero belongs to the preallocated pattern,
the result denotes `alpha*A + beta*B`, whatever values `C` held before. -/
theorem C13_cs_add_entry (A B C : Csc R) (alpha beta : R) (nc : ℕ)
    (hmono : ∀ c < nc, C.p c ≤ C.p (c + 1))
    (hcov : ∀ r, ∀ c < nc, alpha * A.entry r c + beta * B.entry r c ≠ 0 →
      ∃ k, C.p c ≤ k ∧ k < C.p (c + 1) ∧ C.i k = r)
    (r c : ℕ) (hc : c < nc) :
    (csAdd A B alpha beta C nc).entry r c = alpha * A.entry r c + beta * B.entry r c := by
  apply csAdd_entry A B alpha beta C nc hmono _ r c hc
  intro r c hc hs
  by_contra hne
  exact hs (hcov r c hc hne)

/-- In particular it is enough that the pattern of `C` contains the patterns of `A` and `B`, as
in the library's own use (`C` obtained from `A + B`). -/
theorem C13_cs_add_union_pattern (A B C : Csc R) (alpha beta : R) (nc : ℕ)
    (hmono : ∀ c < nc, C.p c ≤ C.p (c + 1))
    (hA : ∀ c < nc, ∀ k, A.p c ≤ k → k < A.p (c + 1) →
      ∃ l, C.p c ≤ l ∧ l < C.p (c + 1) ∧ C.i l = A.i k)
    (hB : ∀ c < nc, ∀ k, B.p c ≤ k → k < B.p (c + 1) →
      ∃ l, C.p c ≤ l ∧ l < C.p (c + 1) ∧ C.i l = B.i k)
    (r c : ℕ) (hc : c < nc) :
    (csAdd A B alpha beta C nc).entry r c = alpha * A.entry r c + beta * B.entry r c := by
  apply csAdd_entry A B alpha beta C nc hmono _ r c hc
  intro r c hc hs
  have h1 : A.entry r c = 0 := by
    apply Finset.sum_eq_zero
    intro k hk
    rw [Finset.mem_Ico] at hk
    rw [if_neg]
    intro h
    obtain ⟨l, l1, l2, l3⟩ := hA c hc k hk.1 hk.2
    exact hs ⟨l, l1, l2, l3.trans h⟩
  have h2 : B.entry r c = 0 := by
    apply Finset.sum_eq_zero
    intro k hk
    rw [Finset.mem_Ico] at hk
    rw [if_neg]
    intro h
    obtain ⟨l, l1, l2, l3⟩ := hB c hc k hk.1 hk.2
    exact hs ⟨l, l1, l2, l3.trans h⟩
  rw [h1, h2]; ring

/-- The pattern is left alone. -/
theorem C13_cs_add_pattern_kept (A B C : Csc R) (alpha beta : R) (nc : ℕ) :
    (csAdd A B alpha beta C nc).p = C.p ∧ (csAdd A B alpha beta C nc).i = C.i := ⟨rfl, rfl⟩

/-- Violation when the pattern of `C` misses a position: the value is neither dropped nor
reported, it is added into the same row of a later column.  Here `A` has a 1 at (0,0), `B` is
empty, `C`'s pattern only holds (0,1): the result has a 1 at (0,1), where `A + B` is 0. -/
theorem C13_cs_add_leak_violated :
    ∃ A B C : Csc ℤ, (∀ c < 2, C.p c ≤ C.p (c + 1)) ∧
      1 * A.entry 0 1 + 1 * B.entry 0 1 = 0 ∧ (csAdd A B 1 1 C 2).entry 0 1 = 1 :=
  ⟨{ p := fun c => [0, 1, 1].getD c 0, i := fun _ => 0, x := fun _ => 1 },
   { p := fun _ => 0, i := fun _ => 0, x := fun _ => 1 },
   { p := fun c => [0, 0, 1].getD c 0, i := fun _ => 0, x := fun _ => 0 }, by decide, by decide,
   by decide⟩

/-- The hypotheses hold for `A = C`, `B = A`. -/
example : (∀ c < 3, exA.p c ≤ exA.p (c + 1)) ∧ (∀ c < 3, ∀ k, exA.p c ≤ k → k < exA.p (c + 1) →
    ∃ l, exA.p c ≤ l ∧ l < exA.p (c + 1) ∧ exA.i l = exA.i k) :=
  ⟨exA_wf.mono, fun _ _ k h1 h2 => ⟨k, h1, h2, rfl⟩⟩

/-! ## C14: Kronecker products -/

theorem wf_colList {B : Csc R} {nr nc c : ℕ} (h : B.WF nr nc) (hc : c < nc) :
    ∀ b ∈ B.colList c, b.1 < nr := by
  intro b hb
  obtain ⟨k, hk, rfl⟩ := List.mem_map.1 hb
  rw [mem_loopRange] at hk
  exact h.rows c hc k hk.1 hk.2

theorem kron_col {s t Anc Bnc : ℕ} (hs : s < Anc) (ht : t < Bnc) :
    s * Bnc + t < Anc * Bnc ∧ (s * Bnc + t) / Bnc = s ∧ (s * Bnc + t) % Bnc = t := by
  refine ⟨?_, ?_, ?_⟩
  · have : (s + 1) * Bnc ≤ Anc * Bnc := Nat.mul_le_mul_right _ (by omega)
    rw [Nat.add_mul] at this; omega
  · rw [Nat.add_comm, Nat.add_mul_div_right _ _ (by omega), Nat.div_eq_of_lt ht]; omega
  · rw [Nat.add_comm, Nat.add_mul_mod_self_right, Nat.mod_eq_of_lt ht]

/-- Sparse ⊗ sparse. -/
theorem C14_sparse_kron (A B : Csc R) (Anc Bnr Bnc : ℕ) (hB : B.WF Bnr Bnc)
    (r s u t : ℕ) (hs : s < Anc) (hu : u < Bnr) (ht : t < Bnc) :
    (sparseKron A Anc B Bnr Bnc).entry (r * Bnr + u) (s * Bnc + t) =
      A.entry r s * B.entry u t := by
  obtain ⟨h1, h2, h3⟩ := kron_col (Anc := Anc) hs ht
  unfold sparseKron
  rw [kronSS_eq, buildCols_entry _ _ _ rfl rfl _ _ h1, h2, h3, kronList_sum _ _ _ _ _ hu
    (wf_colList hB ht), ← Csc.entry_colList, ← Csc.entry_colList]

/-- Dense ⊗ sparse; dense matrices are given by their Fortran-order buffer. -/
theorem C14_ds_kron (A : ℕ → R) (B : Csc R) (Anr Anc Bnr Bnc : ℕ) (hB : B.WF Bnr Bnc)
    (r s u t : ℕ) (hr : r < Anr) (hs : s < Anc) (hu : u < Bnr) (ht : t < Bnc) :
    (dsKron A Anr Anc B Bnr Bnc).entry (r * Bnr + u) (s * Bnc + t) =
      A (r + s * Anr) * B.entry u t := by
  obtain ⟨h1, h2, h3⟩ := kron_col (Anc := Anc) hs ht
  unfold dsKron
  rw [kronDS_eq, buildCols_entry _ _ _ rfl rfl _ _ h1, h2, h3, kronList_sum _ _ _ _ _ hu
    (wf_colList hB ht), ← Csc.entry_colList, denseCol_sum _ _ _ _ hr]

/-- Dense ⊗ sparse through `fully_dense_to_csc`. -/
theorem C14_dense_sparse_kron (A : ℕ → R) (B : Csc R) (Anr Anc Bnr Bnc : ℕ) (hB : B.WF Bnr Bnc)
    (r s u t : ℕ) (hr : r < Anr) (hs : s < Anc) (hu : u < Bnr) (ht : t < Bnc) :
    (denseSparseKron A Anr Anc B Bnr Bnc).entry (r * Bnr + u) (s * Bnc + t) =
      A (r + s * Anr) * B.entry u t := by
  have h := C14_sparse_kron (fullyDenseToCsc A Anr) B Anc Bnr Bnc hB r s u t hs hu ht
  unfold sparseKron at h
  unfold denseSparseKron
  rw [h]
  congr 1
  unfold Csc.entry fullyDenseToCsc
  simp only
  rw [Finset.sum_eq_single (r + s * Anr), if_pos]
  · rw [Nat.add_mul_mod_self_right, Nat.mod_eq_of_lt hr]
  · intro k hk hne
    rw [Finset.mem_Ico, Nat.add_mul] at hk
    rw [if_neg]
    intro h
    apply hne
    have : k = (k - s * Anr) + s * Anr := by omega
    rw [this, Nat.add_mul_mod_self_right, Nat.mod_eq_of_lt (by omega)] at h
    omega
  · intro h
    exact absurd (Finset.mem_Ico.2 ⟨by omega, by rw [Nat.add_mul]; omega⟩) h

/-- Sparse ⊗ dense. -/
theorem C14_sparse_dense_kron (A : Csc R) (B : ℕ → R) (Anc Bnr Bnc : ℕ)
    (r s u t : ℕ) (hs : s < Anc) (hu : u < Bnr) (ht : t < Bnc) :
    (sparseDenseKron A Anc B Bnr Bnc).entry (r * Bnr + u) (s * Bnc + t) =
      A.entry r s * B (u + t * Bnr) := by
  obtain ⟨h1, h2, h3⟩ := kron_col (Anc := Anc) hs ht
  unfold sparseDenseKron
  rw [kronSD_eq, buildCols_entry _ _ _ rfl rfl _ _ h1, h2, h3, kronList_sum _ _ _ _ _ hu,
    ← Csc.entry_colList, denseCol_sum _ _ _ _ hu]
  intro b hb
  obtain ⟨k, hk, rfl⟩ := List.mem_map.1 hb
  exact List.mem_range.1 hk

theorem kron_len (A B : Csc R) (Anc Bnr Bnc c : ℕ) :
    (sparseKron A Anc B Bnr Bnc).p 0 = 0 ∧ (c < Anc * Bnc →
    (sparseKron A Anc B Bnr Bnc).p (c + 1) = (sparseKron A Anc B Bnr Bnc).p c +
      (A.p (c / Bnc + 1) - A.p (c / Bnc)) * (B.p (c % Bnc + 1) - B.p (c % Bnc))) := by
  unfold sparseKron
  rw [kronSS_eq]
  obtain ⟨_, i2, _⟩ := buildCols_spec (fun c => kronList (A.colList (c / Bnc))
    (B.colList (c % Bnc)) Bnr) (Anc * Bnc) Out.fresh rfl rfl
  refine ⟨i2 0 (by omega), fun hc => ?_⟩
  rw [i2 c (by omega), i2 (c + 1) (by omega), offs_succ]
  congr 1
  simp only [kronList, Csc.colList, loopRange, List.length_flatMap, List.length_map,
    List.length_range', List.map_map, Function.comp_def]
  simp

/-- The column pointer is valid: it starts at 0 and column `(s,t)` has exactly
`nnz(A[:,s]) * nnz(B[:,t])` entries, so the last pointer is `nnz(A) * nnz(B)`, the size the
wrapper allocates. -/
theorem C14_sparse_kron_pointer (A B : Csc R) (Anc Bnr Bnc : ℕ)
    (hA : ∀ c < Anc, A.p c ≤ A.p (c + 1)) (hB : ∀ c < Bnc, B.p c ≤ B.p (c + 1))
    (hA0 : A.p 0 = 0) (hB0 : B.p 0 = 0) :
    (sparseKron A Anc B Bnr Bnc).p 0 = 0 ∧
    (∀ c < Anc * Bnc, (sparseKron A Anc B Bnr Bnc).p c ≤ (sparseKron A Anc B Bnr Bnc).p (c + 1)) ∧
    (sparseKron A Anc B Bnr Bnc).p (Anc * Bnc) = A.p Anc * B.p Bnc := by
  refine ⟨(kron_len A B Anc Bnr Bnc 0).1, fun c hc => ?_, ?_⟩
  · rw [(kron_len A B Anc Bnr Bnc c).2 hc]; omega
  · have key : ∀ s ≤ Anc, ∀ t ≤ Bnc, s * Bnc + t ≤ Anc * Bnc →
        (sparseKron A Anc B Bnr Bnc).p (s * Bnc + t) =
          A.p s * B.p Bnc + (A.p (s + 1) - A.p s) * B.p t := by
      intro s
      induction s with
      | zero =>
        intro _ t
        induction t with
        | zero => intro _ _; simp [(kron_len A B Anc Bnr Bnc 0).1, hA0, hB0]
        | succ t iht =>
          intro ht hle
          have e := (kron_len A B Anc Bnr Bnc (0 * Bnc + t)).2 (by omega)
          have hm : (0 * Bnc + t) / Bnc = 0 ∧ (0 * Bnc + t) % Bnc = t := by
            rw [Nat.zero_mul, Nat.zero_add]
            exact ⟨Nat.div_eq_of_lt (by omega), Nat.mod_eq_of_lt (by omega)⟩
          rw [hm.1, hm.2] at e
          rw [← Nat.add_assoc, e, iht (by omega) (by omega), Nat.add_assoc, ← Nat.mul_add]
          congr 2
          have := hB t (by omega); omega
      | succ s ihs =>
        intro hs t
        induction t with
        | zero =>
          intro _ hle
          have h := ihs (by omega) Bnc le_rfl (by
            have : (s + 1) * Bnc ≤ Anc * Bnc := Nat.mul_le_mul_right _ (by omega)
            rw [Nat.add_mul] at this; omega)
          rw [hB0, Nat.mul_zero, Nat.add_zero, Nat.add_zero, Nat.add_mul, Nat.one_mul, h,
            ← Nat.add_mul]
          congr 1
          have := hA s (by omega); omega
        | succ t iht =>
          intro ht hle
          have e := (kron_len A B Anc Bnr Bnc ((s + 1) * Bnc + t)).2 (by omega)
          have hm : ((s + 1) * Bnc + t) / Bnc = s + 1 ∧ ((s + 1) * Bnc + t) % Bnc = t := by
            refine ⟨?_, ?_⟩
            · rw [Nat.add_comm, Nat.add_mul_div_right _ _ (by omega), Nat.div_eq_of_lt (by omega)]
              omega
            · rw [Nat.add_comm, Nat.add_mul_mod_self_right, Nat.mod_eq_of_lt (by omega)]
          rw [hm.1, hm.2] at e
          rw [← Nat.add_assoc, e, iht (by omega) (by omega), Nat.add_assoc, ← Nat.mul_add]
          congr 2
          have := hB t (by omega); omega
    have := key Anc le_rfl 0 (by omega) (by omega)
    rw [Nat.add_zero] at this
    rw [this, hB0]; simp

/-- Value-only refresh: `C` was built from `A`, `B`; new matrices `A'`, `B'` share their
patterns; refreshing `C`'s values gives `A' ⊗ B'`. -/
theorem C14_sparse_kron_inplace (A B A' B' : Csc R) (Anc Bnr Bnc : ℕ)
    (hAp : A'.p = A.p) (hAi : A'.i = A.i) (hBp : B'.p = B.p) (hBi : B'.i = B.i)
    (hB : B.WF Bnr Bnc) (x0 : ℕ → R)
    (r s u t : ℕ) (hs : s < Anc) (hu : u < Bnr) (ht : t < Bnc) :
    ({ sparseKron A Anc B Bnr Bnc with x := kronSSInplace A' Anc B' Bnc x0 } : Csc R).entry
      (r * Bnr + u) (s * Bnc + t) = A'.entry r s * B'.entry u t := by
  obtain ⟨h1, h2, h3⟩ := kron_col (Anc := Anc) hs ht
  have e := kronSSInplace_eq A' Anc B' Bnr Bnc
    { cnt := 0, C := { p := fun _ => 0, i := fun _ => 0, x := x0 } } rfl
  simp only at e
  rw [e]
  unfold sparseKron
  rw [kronSS_eq, kronSS_eq, buildCols_entry_mix _ _ _ _ _ rfl rfl rfl rfl _ _ _ h1, h2, h3,
    kronList_sum _ _ _ _ _ hu, ← Csc.entry_colList, ← Csc.entry_colList]
  · intro b hb
    obtain ⟨k, hk, rfl⟩ := List.mem_map.1 hb
    rw [mem_loopRange, hBp] at hk
    simp only [hBi]
    exact hB.rows t ht k hk.1 hk.2
  · intro c _
    simp only [kronList, Csc.colList, List.map_flatMap, List.map_map, List.flatMap_map, hAp, hAi,
      hBp, hBi]
    rfl

/-- Value-only refresh, dense ⊗ sparse. -/
theorem C14_ds_kron_inplace (A A' : ℕ → R) (B B' : Csc R) (Anr Anc Bnr Bnc : ℕ)
    (hBp : B'.p = B.p) (hBi : B'.i = B.i) (hB : B.WF Bnr Bnc) (x0 : ℕ → R)
    (r s u t : ℕ) (hr : r < Anr) (hs : s < Anc) (hu : u < Bnr) (ht : t < Bnc) :
    ({ dsKron A Anr Anc B Bnr Bnc with x := kronDSInplace A' Anr Anc B' Bnc x0 } : Csc R).entry
      (r * Bnr + u) (s * Bnc + t) = A' (r + s * Anr) * B'.entry u t := by
  obtain ⟨h1, h2, h3⟩ := kron_col (Anc := Anc) hs ht
  have e := kronDSInplace_eq A' Anr Anc B' Bnr Bnc
    { cnt := 0, C := { p := fun _ => 0, i := fun _ => 0, x := x0 } } rfl
  simp only at e
  rw [e]
  unfold dsKron
  rw [kronDS_eq, kronDS_eq, buildCols_entry_mix _ _ _ _ _ rfl rfl rfl rfl _ _ _ h1, h2, h3,
    kronList_sum _ _ _ _ _ hu, ← Csc.entry_colList, denseCol_sum _ _ _ _ hr]
  · intro b hb
    obtain ⟨k, hk, rfl⟩ := List.mem_map.1 hb
    rw [mem_loopRange, hBp] at hk
    simp only [hBi]
    exact hB.rows t ht k hk.1 hk.2
  · intro c _
    simp only [kronList, Csc.colList, denseCol, List.map_flatMap, List.map_map, List.flatMap_map,
      hBp, hBi]
    rfl

/-- Value-only refresh, sparse ⊗ dense. -/
theorem C14_sparse_dense_kron_inplace (A A' : Csc R) (B B' : ℕ → R) (Anc Bnr Bnc : ℕ)
    (hAp : A'.p = A.p) (hAi : A'.i = A.i) (x0 : ℕ → R)
    (r s u t : ℕ) (hs : s < Anc) (hu : u < Bnr) (ht : t < Bnc) :
    ({ sparseDenseKron A Anc B Bnr Bnc with x := kronSDInplace A' Anc B' Bnr Bnc x0 } :
      Csc R).entry (r * Bnr + u) (s * Bnc + t) = A'.entry r s * B' (u + t * Bnr) := by
  obtain ⟨h1, h2, h3⟩ := kron_col (Anc := Anc) hs ht
  have e := kronSDInplace_eq A' Anc B' Bnr Bnc
    { cnt := 0, C := { p := fun _ => 0, i := fun _ => 0, x := x0 } } rfl
  simp only at e
  rw [e]
  unfold sparseDenseKron
  rw [kronSD_eq, kronSD_eq, buildCols_entry_mix _ _ _ _ _ rfl rfl rfl rfl _ _ _ h1, h2, h3,
    kronList_sum _ _ _ _ _ hu, ← Csc.entry_colList, denseCol_sum _ _ _ _ hu]
  · intro b hb
    obtain ⟨k, hk, rfl⟩ := List.mem_map.1 hb
    exact List.mem_range.1 hk
  · intro c _
    simp only [kronList, Csc.colList, denseCol, List.map_flatMap, List.map_map, List.flatMap_map,
      hAp, hAi]
    rfl

example : exB.WF 3 2 ∧ exA.p 0 = 0 ∧ exB.p 0 = 0 ∧ (2 : ℕ) < 3 := ⟨exB_wf, by decide, by decide, by decide⟩

example : (sparseKron exA 3 exB 3 2).entry 5 5 = -1 * 2 := by decide

/-! ## C15: identity ⊗ sparse -/

/-- For square `B` the result is `I_m ⊗ B`. -/
theorem C15_id_sp_kron_square_partial (m : ℕ) (B : Csc R) (n : ℕ) (hB : B.WF n n)
    (r s u t : ℕ) (hs : s < m) (hu : u < n) (ht : t < n) :
    (idSpKron m B n n).entry (r * n + u) (s * n + t) =
      (if r = s then 1 else 0) * B.entry u t := by
  obtain ⟨h1, h2, h3⟩ := kron_col (Anc := m) hs ht
  unfold idSpKron
  rw [kronIdSp_eq m B n n _ rfl, buildCols_entry _ _ _ rfl rfl _ _ h1, h2, h3, List.map_map,
    Csc.entry_colList, ← List.sum_map_mul_left]
  congr 1
  apply List.map_congr_left
  rintro ⟨br, bv⟩ hb
  have hbr : br < n := wf_colList hB ht _ hb
  simp only [Function.comp]
  rw [Nat.add_comm, if_congr (flat_eq hbr hu) rfl rfl]
  by_cases h4 : r = s <;> by_cases h5 : br = u <;> simp [h4, h5, Ne.symm, eq_comm]

/-- The kernel itself, when given `B`'s true shape, is right for every `B`. -/
theorem C15_kernel_any_shape (m : ℕ) (B : Csc R) (Bnr Bnc : ℕ) (hB : B.WF Bnr Bnc)
    (r s u t : ℕ) (hs : s < m) (hu : u < Bnr) (ht : t < Bnc) :
    (kronIdSp m B Bnr Bnc Out.fresh).C.entry (r * Bnr + u) (s * Bnc + t) =
      (if r = s then 1 else 0) * B.entry u t := by
  obtain ⟨h1, h2, h3⟩ := kron_col (Anc := m) hs ht
  rw [kronIdSp_eq m B Bnr Bnc _ rfl, buildCols_entry _ _ _ rfl rfl _ _ h1, h2, h3, List.map_map,
    Csc.entry_colList, ← List.sum_map_mul_left]
  congr 1
  apply List.map_congr_left
  rintro ⟨br, bv⟩ hb
  have hbr : br < Bnr := wf_colList hB ht _ hb
  simp only [Function.comp]
  rw [Nat.add_comm, if_congr (flat_eq hbr hu) rfl rfl]
  by_cases h4 : r = s <;> by_cases h5 : br = u <;> simp [h4, h5, Ne.symm, eq_comm]

/-- The wrapper passes the number of columns for the number of rows, so for non-square `B` the
result is wrong.  Witness: `B` the 2x1 column `(1, 1)`, `m = 2`: position (1,1) should be 0 and
is 1 (blocks overlap). -/
theorem C15_id_sp_kron_violated :
    ∃ B : Csc ℤ, B.WF 2 1 ∧
      (idSpKron 2 B 2 1).entry (0 * 2 + 1) (1 * 1 + 0) ≠ (if 0 = 1 then 1 else 0) * B.entry 1 0 := by
  refine ⟨{ p := fun c => [0, 2].getD c 0, i := fun k => [0, 1].getD k 0, x := fun _ => 1 },
    ⟨by decide, ?_⟩, by decide⟩
  intro c hc k h1 h2
  have : c = 0 := by omega
  subst this
  have : k < 2 := h2
  revert h1 h2; revert k; decide

/-- Value-only refresh for square `B`. -/
theorem C15_id_sp_kron_inplace_partial (m : ℕ) (B B' : Csc R) (n : ℕ) (hB : B.WF n n)
    (hBp : B'.p = B.p) (hBi : B'.i = B.i) (x0 : ℕ → R)
    (r s u t : ℕ) (hs : s < m) (hu : u < n) (ht : t < n) :
    ({ idSpKron m B n n with x := kronIdSpInplace m B' n x0 } : Csc R).entry
      (r * n + u) (s * n + t) = (if r = s then 1 else 0) * B'.entry u t := by
  obtain ⟨h1, h2, h3⟩ := kron_col (Anc := m) hs ht
  have e := kronIdSpInplace_eq m B' n n
    { cnt := 0, C := { p := fun _ => 0, i := fun _ => 0, x := x0 } } rfl rfl
  simp only at e
  rw [e]
  unfold idSpKron
  rw [kronIdSp_eq m B n n _ rfl, kronIdSp_eq m B' n n _ rfl,
    buildCols_entry_mix _ _ _ _ _ rfl rfl rfl rfl _ _ _ h1, h2, h3, List.map_map,
    Csc.entry_colList, ← List.sum_map_mul_left]
  · congr 1
    apply List.map_congr_left
    rintro ⟨br, bv⟩ hb
    have hbr : br < n := by
      obtain ⟨k, hk, hk2⟩ := List.mem_map.1 hb
      rw [mem_loopRange, hBp] at hk
      have := hB.rows t ht k hk.1 hk.2
      rw [← hBi] at this
      have e2 := (Prod.mk.inj hk2).1
      omega
    simp only [Function.comp]
    rw [Nat.add_comm, if_congr (flat_eq hbr hu) rfl rfl]
    by_cases h4 : r = s <;> by_cases h5 : br = u <;> simp [h4, h5, Ne.symm, eq_comm]
  · intro c _
    simp only [Csc.colList, List.map_map, hBp, hBi]
    rfl

example : (⟨fun c => [0, 1, 2].getD c 0, fun k => [1, 0].getD k 0, fun _ => (3 : ℤ)⟩ :
    Csc ℤ).WF 2 2 := by
  refine ⟨by decide, ?_⟩
  intro c hc k h1 h2
  have : k < 2 := by
    have h : ∀ c < 2, [0, 1, 2].getD (c + 1) 0 ≤ 2 := by decide
    have := h c hc
    simp only at h2; omega
  revert h1 h2; revert k; revert c; decide

/-! ## C16: sparse product -/

/-- The product of two CSC matrices is the matrix product, whatever the output arrays held. -/
theorem C16_cs_matmul_entry (A B C : Csc R) (Anc Bnc : ℕ) (hB : B.WF Anc Bnc)
    (r c : ℕ) (hc : c < Bnc) :
    (csMatmul A B Bnc C).entry r c = ∑ m ∈ Finset.range Anc, A.entry r m * B.entry m c := by
  rw [(mmInv A B C Bnc).entry c hc r, prodList_sum A B c r Anc (hB.rows c hc)]

/-- The column pointer is valid and no row is stored twice in a column. -/
theorem C16_cs_matmul_structure (A B C : Csc R) (Bnc : ℕ) :
    (csMatmul A B Bnc C).p 0 = 0 ∧
    (∀ c < Bnc, (csMatmul A B Bnc C).p c ≤ (csMatmul A B Bnc C).p (c + 1)) ∧
    (∀ c < Bnc, ∀ k l, (csMatmul A B Bnc C).p c ≤ k → k < (csMatmul A B Bnc C).p (c + 1) →
      (csMatmul A B Bnc C).p c ≤ l → l < (csMatmul A B Bnc C).p (c + 1) →
      (csMatmul A B Bnc C).i k = (csMatmul A B Bnc C).i l → k = l) :=
  ⟨(mmInv A B C Bnc).zero, (mmInv A B C Bnc).mono, (mmInv A B C Bnc).nodup⟩

/-- A row is stored in column `c` exactly when some stored `A[r,m]` meets a stored `B[m,c]`:
so the space needed is exactly the symbolic pattern of the product. -/
theorem C16_cs_matmul_pattern (A B C : Csc R) (Bnc r c : ℕ) (hc : c < Bnc) :
    (∃ k, (csMatmul A B Bnc C).p c ≤ k ∧ k < (csMatmul A B Bnc C).p (c + 1) ∧
      (csMatmul A B Bnc C).i k = r) ↔
    ∃ i, (B.p c ≤ i ∧ i < B.p (c + 1)) ∧
      ∃ k, (A.p (B.i i) ≤ k ∧ k < A.p (B.i i + 1)) ∧ A.i k = r := by
  have h := (mmInv A B C Bnc).stored c hc r
  unfold Csc.Stored at h
  rw [← h]
  simp only [prodList, List.mem_flatMap, List.mem_map, mem_loopRange, Prod.mk.injEq]
  constructor
  · rintro ⟨v, i, hi, k, hk, h1, _⟩; exact ⟨i, hi, k, hk, h1⟩
  · rintro ⟨i, hi, k, hk, h1⟩; exact ⟨_, i, hi, k, hk, h1, rfl⟩

example : exB.WF 3 2 ∧ (csMatmul exA exB 2 exA).entry 0 0 = 33 ∧
    (csMatmul exA exB 2 exA).entry 1 1 = 4 := ⟨exB_wf, by decide, by decide⟩

/-! ## C17: inner products -/

/-- `sparse_dot(a, b, c)` is `c` plus the dense inner product, for sorted vectors of length `n`. -/
theorem C17_sparse_dot (ai : ℕ → ℕ) (ax : ℕ → R) (anz : ℕ) (bi : ℕ → ℕ) (bx : ℕ → R) (bnz n : ℕ)
    (c : R) (ha : ∀ p q, p < q → q < anz → ai p < ai q) (hb : ∀ p q, p < q → q < bnz → bi p < bi q)
    (hn : ∀ p < anz, ai p < n) :
    csDot ai ax anz bi bx bnz c = c + ∑ r ∈ Finset.range n,
      (∑ p ∈ Finset.range anz, if ai p = r then ax p else 0) *
      (∑ q ∈ Finset.range bnz, if bi q = r then bx q else 0) := by
  unfold csDot
  rw [mergeDot_eq _ _ _ _ _ _ _ _ _ (fun p q _ => ha p q) (fun p q _ => hb p q),
    match_sum _ _ _ _ _ _ n]
  · simp only [Finset.range_eq_Ico]
  · intro p hp; exact hn p (Finset.mem_Ico.1 hp).2

/-- Two matches and three misses. -/
example : csDot (fun k => [0, 2, 5].getD k 0) (fun k => ([1, 2, 3] : List ℤ).getD k 0) 3
    (fun k => [1, 2, 4, 5].getD k 0) (fun k => ([7, 8, 9, 10] : List ℤ).getD k 0) 4 100 = 146 := by
  simp [csDot, mergeDot]

/-- `sparse_pattern_trace(B, C, out)` is `out + trace(BᵀB C)`: the sum over all positions of
`C[j,i] * <B[:,i], B[:,j]>`, visiting only stored positions of `C`. -/
theorem C17_pattern_trace (B C : Csc R) (Bnr Bnc : ℕ) (out : R)
    (hB : B.WF Bnr Bnc) (hs : B.Sorted Bnc) (hC : C.WF Bnc Bnc) :
    patternTrace B C Bnc out = out + ∑ i ∈ Finset.range Bnc, ∑ j ∈ Finset.range Bnc,
      (∑ r ∈ Finset.range Bnr, B.entry r i * B.entry r j) * C.entry j i := by
  rw [patternTrace_eq]
  congr 1
  apply Finset.sum_congr rfl
  intro i hi
  rw [Finset.mem_range] at hi
  have h1 : ∀ k ∈ Finset.Ico (C.p i) (C.p (i + 1)), C.x k *
      mergeDot B.i B.x B.i B.x (B.p (i + 1)) (B.p (C.i k + 1)) (B.p i) (B.p (C.i k)) 0 =
      ∑ j ∈ Finset.range Bnc, (∑ r ∈ Finset.range Bnr, B.entry r i * B.entry r j) *
        (if C.i k = j then C.x k else 0) := by
    intro k hk
    rw [Finset.mem_Ico] at hk
    have hj := hC.rows i hi k hk.1 hk.2
    rw [mergeDot_entry B i (C.i k) Bnr (hs i hi) (hs _ hj) (hB.rows i hi)]
    simp only [mul_ite, mul_zero]
    rw [Finset.sum_ite_eq, if_pos (Finset.mem_range.2 hj), mul_comm]
  rw [Finset.sum_congr rfl h1, Finset.sum_comm]
  apply Finset.sum_congr rfl
  intro j _
  rw [← Finset.mul_sum]
  rfl

example : exB.WF 3 2 ∧ exB.Sorted 2 := ⟨exB_wf, exB_sorted⟩

/-! ## C51: block-diagonal self product -/

/-- `block_diag_self_dot(L, ng, nv)[a, b] = Σ_j Σ_q L[j*nv+a, q] * L[j*nv+b, q]`
(`L` is CSR, so `L.entry q r` is the element in row `r`, column `q`), whatever `out` held. -/
theorem C51_block_diag_self_dot (L : Csc R) (ng nv ncols : ℕ) (out : ℕ → R)
    (hL : L.WF ncols (ng * nv)) (hs : L.Sorted (ng * nv)) (a b : ℕ) (ha : a < nv) (hb : b < nv) :
    blockDiagSelfDot L ng nv out (a * nv + b) = ∑ j ∈ Finset.range ng,
      ∑ q ∈ Finset.range ncols, L.entry q (j * nv + a) * L.entry q (j * nv + b) :=
  blockDiag_eq L ng nv ncols out a b ha hb hs hL.rows

/-- Hence the summary is symmetric. -/
theorem C51_block_diag_symmetric (L : Csc R) (ng nv ncols : ℕ) (out : ℕ → R)
    (hL : L.WF ncols (ng * nv)) (hs : L.Sorted (ng * nv)) (a b : ℕ) (ha : a < nv) (hb : b < nv) :
    blockDiagSelfDot L ng nv out (a * nv + b) = blockDiagSelfDot L ng nv out (b * nv + a) := by
  rw [C51_block_diag_self_dot L ng nv ncols out hL hs a b ha hb,
    C51_block_diag_self_dot L ng nv ncols out hL hs b a hb ha]
  exact Finset.sum_congr rfl fun j _ => Finset.sum_congr rfl fun q _ => mul_comm _ _

example : exB.WF 3 (1 * 2) ∧ exB.Sorted (1 * 2) := ⟨exB_wf, exB_sorted⟩

/-! ## C52: tiling, repeating and the dense product -/

/-- `tile_1d(arr, reps)[k] = arr[k mod n]` on the whole output, nothing written elsewhere. -/
theorem C52_tile (arr : ℕ → R) (n reps : ℕ) (out : ℕ → R) (k : ℕ) :
    tileNested arr n reps out k = if k < reps * n then arr (k % n) else out k :=
  nested_store reps n (fun _ j => arr j) out k

/-- The two C implementations of tiling agree. -/
theorem C52_tile_modulo_same (arr : ℕ → R) (n reps : ℕ) (out : ℕ → R) :
    tileModulo arr n reps out = tileNested arr n reps out := by
  funext k
  rw [C52_tile]
  unfold tileModulo
  rw [fold_store _ List.nodup_range (fun i => arr (i % n)), Nat.mul_comm]
  simp only [List.mem_range]

/-- `repeat_1d(arr, reps)[k] = arr[k / reps]`. -/
theorem C52_repeat (arr : ℕ → R) (n reps : ℕ) (out : ℕ → R) (k : ℕ) :
    repeat1d arr n reps out k = if k < n * reps then arr (k / reps) else out k :=
  nested_store n reps (fun i _ => arr i) out k

/-- Tiling by blocks and repeating are transposes of one another. -/
theorem C52_tile_repeat_transpose (arr : ℕ → R) (n reps : ℕ) (out : ℕ → R) (a b : ℕ)
    (ha : a < n) (hb : b < reps) :
    tileNested arr n reps out (b * n + a) = repeat1d arr n reps out (a * reps + b) := by
  obtain ⟨h1, h2, h3⟩ := kron_col (Anc := reps) hb ha
  obtain ⟨g1, g2, g3⟩ := kron_col (Anc := n) ha hb
  rw [C52_tile, C52_repeat, if_pos h1, if_pos g1, h3, g2]

/-- The dense kernel computes the matrix product of row-major `N×M` and `M×K` arrays. -/
theorem C52_naive_matmul (A B C : ℕ → R) (N M K i j : ℕ) (hi : i < N) (hj : j < K) :
    naiveMatmul A B C N M K (i * K + j) =
      ∑ k ∈ Finset.range M, A (i * M + k) * B (k * K + j) := by
  obtain ⟨h1, h2, h3⟩ := kron_col (Anc := N) hi hj
  unfold naiveMatmul
  rw [nested_store N K (fun i j => (List.range M).foldl
    (fun sum k => sum + A (i * M + k) * B (k * K + j)) 0) C, if_pos h1, h2, h3]
  simp only [foldl_add_sum, zero_add]
  rfl

example : (List.range 6).map (tileNested (fun k => ([4, 5, 6] : List ℤ).getD k 0) 3 2 (fun _ => 0)) =
    [4, 5, 6, 4, 5, 6] := by decide

end ring
end Verif.Sparse
