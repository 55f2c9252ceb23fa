import Verif.Lmm.Layout
import Verif.Sparse.Props
/-!
# C112: storage of the matrices of the mixed model
-/
namespace Verif.Lmm
open Verif.Sparse

variable {R : Type*}

theorem two_idx {nrv l a l' a' : ℕ} (ha : a < nrv) (ha' : a' < nrv) :
    l * nrv + a = l' * nrv + a' ↔ l = l' ∧ a = a' := by
  constructor
  · intro h
    have h1 := congrArg (· / nrv) h
    have h2 := congrArg (· % nrv) h
    simp only [Nat.mul_comm _ nrv, Nat.mul_add_div (by omega : 0 < nrv), Nat.div_eq_of_lt ha, Nat.div_eq_of_lt ha',
      Nat.mul_add_mod, Nat.mod_eq_of_lt ha, Nat.mod_eq_of_lt ha', Nat.add_zero] at h1 h2
    exact ⟨h1, h2⟩
  · rintro ⟨rfl, rfl⟩; rfl

/-- Entry `(i, (l, a))` of `Z` is variable `a` of observation `i` if the observation is in level `l`, else zero. -/
theorem C112_z_matrix [AddCommMonoid R] (nob nrv nlv : ℕ) (cols : ℕ → ℕ) (arr : ℕ → ℕ → R) (hc : ∀ i < nob, cols i < nlv)
    {i l a : ℕ} (hi : i < nob) (hl : l < nlv) (ha : a < nrv) :
    (zmat nob nrv nlv cols arr).entry i (l * nrv + a) = if cols i = l then arr i a else 0 := by
  unfold zmat
  have hb : ∀ k < nob * nrv, zCols nrv cols k < nlv * nrv := by
    intro k hk
    have h0 : 0 < nrv := by omega
    have h1 : k / nrv < nob := Nat.div_lt_of_lt_mul (by rwa [Nat.mul_comm])
    have h2 := (kron_col (Anc := nlv) (hc _ h1) (Nat.mod_lt k h0)).1
    exact h2
  rw [C12_coo_same_matrix _ _ _ _ _ hb _ _ (kron_col hl ha).1]
  have key : ∀ k, (zRows nrv k = i ∧ zCols nrv cols k = l * nrv + a) ↔ (k = i * nrv + a ∧ cols i = l) := by
    intro k
    have h0 : 0 < nrv := by omega
    unfold zRows zCols rep til
    simp only [id]
    rw [two_idx (Nat.mod_lt k h0) ha]
    constructor
    · rintro ⟨h1, h2, h3⟩
      refine ⟨?_, h1 ▸ h2⟩
      rw [← h1, ← h3, Nat.mul_comm, Nat.div_add_mod]
    · rintro ⟨rfl, h⟩
      obtain ⟨-, h1, h2⟩ := kron_col (Anc := nob) hi ha
      rw [h1, h2]
      exact ⟨rfl, h, rfl⟩
  simp only [key]
  by_cases h : cols i = l
  · simp only [h, and_true, if_true, Finset.sum_ite_eq']
    obtain ⟨h1, h2, h3⟩ := kron_col (Anc := nob) hi ha
    rw [if_pos (Finset.mem_range.2 h1), h2, h3]
  · simp [h]

theorem filter_div {nrv c N : ℕ} (hc : c < N) (h0 : 0 < nrv) :
    ((List.range (N * nrv)).filter fun k => k / nrv = c) = List.range' (c * nrv) nrv := by
  have hs : ∀ k, decide (k / nrv = c) = true ↔ c * nrv ≤ k ∧ k < c * nrv + nrv := by
    intro k
    rw [decide_eq_true_iff, Nat.div_eq_iff h0]
    omega
  have hN : c * nrv + nrv ≤ N * nrv := by
    have : (c + 1) * nrv ≤ N * nrv := Nat.mul_le_mul_right _ hc
    rwa [Nat.add_mul, Nat.one_mul] at this
  refine List.Perm.eq_of_pairwise (le := (· < ·)) (fun a b _ _ h1 h2 => by omega) (List.Pairwise.filter _ List.pairwise_lt_range)
    (List.pairwise_lt_range' (s := c * nrv) (n := nrv)) ?_
  rw [List.perm_ext_iff_of_nodup (List.nodup_range.filter _) List.nodup_range']
  intro k
  rw [List.mem_filter, hs, List.mem_range, List.mem_range'_1]
  omega

theorem gCols_lt {nrv N : ℕ} : ∀ k < N * nrv, gCols nrv k < N := fun k hk =>
  Nat.div_lt_of_lt_mul (by rwa [Nat.mul_comm])

theorem gInit_p [CommRing R] {nrv nlv c : ℕ} (h0 : 0 < nrv) (hc : c ≤ nlv * nrv) : (gInit (R := R) nrv nlv).p c = c * nrv := by
  unfold gInit
  rw [cooToCsc_p _ _ _ _ _ gCols_lt c hc]
  unfold startCol cntCol
  rw [Finset.sum_congr rfl (g := fun _ => nrv)]
  · simp
  · intro c' h'
    have := filter_div (c := c') (N := nlv * nrv) (by have := Finset.mem_range.1 h'; omega) h0
    unfold gCols rep
    simp only [id]
    rw [this, List.length_range']

theorem gInit_i [CommRing R] {nrv nlv c a : ℕ} (hc : c < nlv * nrv) (ha : a < nrv) :
    (gInit (R := R) nrv nlv).i (c * nrv + a) = gRows nrv (c * nrv + a) := by
  have h0 : 0 < nrv := by omega
  have h := cooToCsc_colList (nlv * nrv) (nlv * nrv * nrv) (gRows nrv) (gCols nrv)
    (tileNested (vecF nrv fun a b => if a = b then 1 else 0) (nrv * nrv) nlv fun _ => (0 : R)) gCols_lt c hc
  change (gInit (R := R) nrv nlv).colList c = _ at h
  unfold Csc.colList triplesCol gCols rep at h
  simp only [id] at h
  rw [filter_div hc h0, gInit_p h0 hc.le, gInit_p h0 hc, loopRange, Nat.succ_mul, Nat.add_sub_cancel_left,
    List.map_inj_left] at h
  exact congrArg Prod.fst (h (c * nrv + a) (by rw [List.mem_range'_1]; omega))

/-- After every update of the data the stored matrix is `I ⊗ G0`. -/
theorem C112_kron_ig [CommRing R] (nrv nlv : ℕ) (G0 : ℕ → ℕ → R) {l a l' b : ℕ} (hl : l < nlv) (ha : a < nrv) (hl' : l' < nlv)
    (hb : b < nrv) :
    (gUpdate nrv nlv G0 (gInit nrv nlv)).entry (l * nrv + a) (l' * nrv + b) = if l = l' then G0 a b else 0 := by
  have h0 : 0 < nrv := by omega
  have hc := (kron_col (Anc := nlv) hl' hb).1
  unfold Csc.entry gUpdate
  simp only
  rw [gInit_p h0 hc.le, gInit_p h0 hc, Nat.add_mul (l' * nrv + b) 1 nrv, Nat.one_mul, Finset.sum_Ico_eq_sum_range, Nat.add_sub_cancel_left]
  have e : ∀ s < nrv, (l' * nrv + b) * nrv + s = l' * (nrv * nrv) + (b * nrv + s) := fun s _ => by ring
  have e1 : ∀ s < nrv, b * nrv + s < nrv * nrv := fun s hs => (kron_col hb hs).1
  have hr : ∀ s < nrv, gRows nrv ((l' * nrv + b) * nrv + s) = l' * nrv + s := by
    intro s hs
    unfold gRows rep til
    simp only [id]
    rw [(kron_col (Anc := nlv * nrv) hc hs).2.2, e s hs, (kron_col (Anc := nlv) hl' (e1 s hs)).2.1]
  have hx : ∀ s < nrv, tileNested (vecF nrv G0) (nrv * nrv) nlv (gInit nrv nlv).x ((l' * nrv + b) * nrv + s) = G0 s b := by
    intro s hs
    obtain ⟨h1, h2, h3⟩ := kron_col (Anc := nlv) hl' (e1 s hs)
    rw [C52_tile, e s hs, if_pos h1, h3]
    unfold vecF
    rw [(kron_col (Anc := nrv) hb hs).2.1, (kron_col (Anc := nrv) hb hs).2.2]
  rw [Finset.sum_congr rfl (g := fun s => if l = l' ∧ a = s then G0 s b else 0)]
  · by_cases h : l = l'
    · simp [h, ha]
    · simp [h]
  · intro s hs
    have hs := Finset.mem_range.1 hs
    rw [gInit_i hc hs, hr s hs, hx s hs]
    refine if_congr ?_ rfl rfl
    rw [two_idx hs ha]
    exact and_congr eq_comm eq_comm

/-- The update reaches every stored position: nothing of the previous parameters survives. -/
theorem C112_kron_ig_fresh [CommRing R] (nrv nlv : ℕ) (G0 G1 : ℕ → ℕ → R) {k : ℕ} (hk : k < nlv * nrv * nrv) :
    (gUpdate nrv nlv G0 (gUpdate nrv nlv G1 (gInit nrv nlv))).x k = (gUpdate nrv nlv G0 (gInit nrv nlv)).x k := by
  unfold gUpdate
  simp only [C52_tile, ← Nat.mul_assoc, hk, if_true]

example : (gUpdate 2 2 (fun a b => ((a + 1) * (b + 1) : ℤ)) (gInit 2 2)).entry 3 2 = 2 := by decide +kernel

/-- `KronAG` stores `A ⊗ G0` and `A⁻¹ ⊗ G0⁻¹`, provided that the inverse has the sparsity pattern of the level covariance. -/
theorem C112_kron_ag_partial [CommRing R] (A A' : Csc R) (nlv nrv : ℕ) (G0 : ℕ → ℕ → R) (hp : A'.p = A.p) (hi : A'.i = A.i)
    {r s u t : ℕ} (hs : s < nlv) (hu : u < nrv) (ht : t < nrv) :
    (agUpdate A' nlv nrv G0 (agInit A nlv nrv)).entry (r * nrv + u) (s * nrv + t) = A'.entry r s * G0 u t := by
  unfold agUpdate agInit
  rw [C14_sparse_dense_kron_inplace A A' _ (vecF nrv G0) nlv nrv nrv hp hi _ r s u t hs hu ht]
  congr 1
  unfold vecF
  rw [Nat.add_mul_mod_self_right, Nat.mod_eq_of_lt hu, Nat.add_mul_div_right _ _ (by omega), Nat.div_eq_of_lt hu, Nat.zero_add]

/-- A tridiagonal level covariance and its inverse. -/
def agA : Csc ℚ := { p := fun c => [0, 2, 5, 7].getD c 0, i := fun k => [0, 1, 0, 1, 2, 1, 2].getD k 0, x := fun k => [2, 1, 1, 2, 1, 1, 2].getD k 0 }
def agAinv : Csc ℚ := { p := fun c => c * 3, i := fun k => k % 3, x := fun k => [3/4, -1/2, 1/4, -1/2, 1, -1/2, 1/4, -1/2, 3/4].getD k 0 }

/-- The inverse of a level covariance usually has more nonzero entries than the covariance: nine values are written into seven
places and the seven are read as another matrix. -/
theorem C112_kron_ag_violated :
    (∀ r < 3, ∀ c < 3, ∑ k ∈ Finset.range 3, agA.entry r k * agAinv.entry k c = if r = c then 1 else 0) ∧
      (agInit agA 3 1).p 3 = 7 ∧ agAinv.p 3 = 9 ∧
      (agUpdate agAinv 3 1 (fun _ _ => 1) (agInit agA 3 1)).entry 0 1 = 1 / 4 ∧ agAinv.entry 0 1 = -1 / 2 := by
  refine ⟨?_, ?_, ?_, ?_, ?_⟩ <;> decide +kernel

/-! ## the penalised cross products -/

section add
variable [CommRing R] [DecidableEq R]

theorem scipyAdd_mono (A B : Csc R) (nr nc c : ℕ) : (scipyAdd A B nr nc).p c ≤ (scipyAdd A B nr nc).p (c + 1) := by
  unfold scipyAdd
  simp only
  rw [List.range_succ, List.flatMap_append, List.length_append]
  omega

/-- The sum stores exactly the positions where the sum is not zero. -/
theorem scipyAdd_stored (A B : Csc R) (nr nc : ℕ) {r c : ℕ} (hr : r < nr) (hc : c < nc) (h : A.entry r c + B.entry r c ≠ 0) :
    ∃ k, (scipyAdd A B nr nc).p c ≤ k ∧ k < (scipyAdd A B nr nc).p (c + 1) ∧ (scipyAdd A B nr nc).i k = r := by
  have hm : (r, A.entry r c + B.entry r c) ∈ sumCol A B nr c := by
    unfold sumCol
    rw [List.mem_map]
    exact ⟨r, List.mem_filter.2 ⟨List.mem_range.2 hr, by simpa using h⟩, rfl⟩
  obtain ⟨t, ht, he⟩ := List.getElem_of_mem hm
  have hp : (scipyAdd A B nr nc).p (c + 1) = (scipyAdd A B nr nc).p c + (sumCol A B nr c).length := by
    unfold scipyAdd
    simp only
    rw [List.range_succ, List.flatMap_append, List.length_append]
    simp
  refine ⟨(scipyAdd A B nr nc).p c + t, by omega, by omega, ?_⟩
  have hL : (List.range nc).flatMap (sumCol A B nr) =
      (List.range c).flatMap (sumCol A B nr) ++ (sumCol A B nr c ++ (List.range' (c + 1) (nc - (c + 1))).flatMap (sumCol A B nr)) := by
    have : List.range nc = List.range c ++ (c :: List.range' (c + 1) (nc - (c + 1))) := by
      have h2 : c :: List.range' (c + 1) (nc - (c + 1)) = List.range' c (nc - c) := by
        rw [show nc - c = (nc - (c + 1)) + 1 by omega, List.range'_succ]
      have h3 := List.range'_append_1 (s := 0) (m := c) (n := nc - c)
      rw [Nat.zero_add] at h3
      rw [h2, List.range_eq_range', List.range_eq_range', h3]
      congr 1; omega
    rw [this, List.flatMap_append, List.flatMap_cons]
  unfold scipyAdd
  simp only
  rw [hL, List.getD_eq_getElem?_getD, List.getElem?_append_right (by omega), Nat.add_sub_cancel_left, List.getElem?_append_left ht,
    List.getElem?_eq_getElem ht, he]
  rfl

/-- The coefficient matrix is `ZᵀR⁻¹Z + G⁻¹` at all parameters, provided that no position where it can be nonzero was zero in the
initial sum of `ZᵀZ` and the identity. -/
theorem C112_coefficient_matrix_partial (Z0 G0 Z1 G1 : Csc R) (n : ℕ)
    (hcov : ∀ r c, Z1.entry r c + G1.entry r c ≠ 0 → c < n → r < n ∧ Z0.entry r c + G0.entry r c ≠ 0) (r c : ℕ) (hc : c < n) :
    (cUpdate Z0 G0 Z1 G1 n).entry r c = Z1.entry r c + G1.entry r c := by
  unfold cUpdate
  rw [C13_cs_add_entry _ _ _ _ _ _ (fun c _ => scipyAdd_mono Z0 G0 n n c) _ r c hc, one_mul, one_mul]
  intro r c hc h
  rw [one_mul, one_mul] at h
  obtain ⟨hr, h⟩ := hcov r c h hc
  exact scipyAdd_stored Z0 G0 n n hr hc h

end add

/-- One group of two observations, intercept and a covariate with values -1 and 1: `ZᵀZ` is twice the identity. -/
def cenZtZ : Csc ℚ := { p := fun c => c * 2, i := fun k => k % 2, x := fun k => [2, 0, 0, 2].getD k 0 }

/-- A covariate that sums to zero in a group makes the initial sum diagonal there; the covariance of intercept and slope is
then not put into the coefficient matrix, and part of it is added to the wrong position. -/
theorem C112_coefficient_matrix_violated :
    let Ginv : Csc ℚ := gUpdate 2 1 (fun a b => if a = b then 2/3 else -1/3) (gInit 2 1)
    let C := cUpdate cenZtZ (gInit 2 1) cenZtZ Ginv 2
    cenZtZ.entry 0 1 + Ginv.entry 0 1 = -1 / 3 ∧ C.entry 0 1 = 0 ∧
      cenZtZ.entry 1 1 + Ginv.entry 1 1 = 8 / 3 ∧ C.entry 1 1 = 7 / 3 := by
  refine ⟨?_, ?_, ?_, ?_⟩ <;> decide +kernel

/-! ## the cached index map -/

theorem count_below (f : ℕ → ℕ) (lo m hi offset : ℕ) (h1 : lo ≤ m) (h2 : m ≤ hi) (hb : ∀ k, lo ≤ k → k < m → f k < offset)
    (ha : ∀ k, m ≤ k → k < hi → offset ≤ f k) : ((loopRange lo hi).filter fun k => f k < offset).length = m - lo := by
  have hsplit : loopRange lo hi = loopRange lo m ++ loopRange m hi := by
    unfold loopRange
    have := List.range'_append_1 (s := lo) (m := m - lo) (n := hi - m)
    rw [show lo + (m - lo) = m by omega] at this
    rw [this]; congr 1; omega
  rw [hsplit, List.filter_append, List.length_append]
  rw [List.filter_eq_self.2, List.filter_eq_nil_iff.2]
  · simp [loopRange]
  · intro k hk
    have := mem_loopRange.1 hk
    simpa using ha k this.1 this.2
  · intro k hk
    have := mem_loopRange.1 hk
    simpa using hb k this.1 this.2

theorem sorted_entry [AddCommMonoid R] {M : Csc R} {c k : ℕ} (hs : IncOn M.i (M.p c) (M.p (c + 1))) (h1 : M.p c ≤ k) (h2 : k < M.p (c + 1)) :
    M.entry (M.i k) c = M.x k := by
  unfold Csc.entry
  rw [Finset.sum_eq_single k]
  · simp
  · intro j hj hjk
    have hj := Finset.mem_Ico.1 hj
    rw [if_neg]
    rcases Nat.lt_or_gt_of_ne hjk with h | h
    · have := hs j k hj.1 h h2; omega
    · have := hs k j h1 h hj.2; omega
  · intro h; exact absurd (Finset.mem_Ico.2 ⟨h1, h2⟩) h

/-- When `ZᵀZ` stores the whole diagonal blocks of the term and no other positions within it, the index map finds the block. -/
theorem zrMap_entry [AddCommMonoid R] (M : Csc R) (offset ng nv l b : ℕ) (hb : b < nv) (hl : l < ng)
    (hs : IncOn M.i (M.p (offset + (l * nv + b))) (M.p (offset + (l * nv + b) + 1)))
    (hfull : ∀ a < nv, M.Stored (offset + (l * nv + a)) (offset + (l * nv + b)))
    (hblk : ∀ k, M.p (offset + (l * nv + b)) ≤ k → k < M.p (offset + (l * nv + b) + 1) → offset ≤ M.i k →
      M.i k < offset + ng * nv → (M.i k - offset) / nv = l) {a : ℕ} (ha : a < nv) :
    zrMap M offset nv l a b < M.p (offset + (l * nv + b) + 1) ∧
      M.x (zrMap M offset nv l a b) = M.entry (offset + (l * nv + a)) (offset + (l * nv + b)) := by
  set c := offset + (l * nv + b) with hc
  obtain ⟨m, m1, m2, m3⟩ := hfull 0 (by omega)
  have hlt : l * nv + nv ≤ ng * nv := by
    have : (l + 1) * nv ≤ ng * nv := Nat.mul_le_mul_right _ hl
    rwa [Nat.add_mul, Nat.one_mul] at this
  have hin : inTerm M offset c = m := by
    unfold inTerm
    rw [count_below M.i (M.p c) m (M.p (c + 1)) offset m1 m2.le]
    · omega
    · intro k k1 k2
      by_contra hge
      have h1 := hs k m k1 k2 m2
      have h2 := hblk k k1 (by omega) (by omega) (by omega)
      have h3 : l * nv ≤ M.i k - offset := (Nat.div_eq_iff (by omega)).1 h2 |>.1
      omega
    · intro k k1 k2
      rcases Nat.eq_or_lt_of_le k1 with rfl | h
      · omega
      · have := hs m k m1 h k2; omega
  have step : ∀ a < nv, m + a < M.p (c + 1) ∧ M.i (m + a) = offset + (l * nv + a) := by
    intro a
    induction a with
    | zero => intro _; exact ⟨m2, m3⟩
    | succ a ih =>
      intro h
      obtain ⟨i1, i2⟩ := ih (by omega)
      obtain ⟨k, k1, k2, k3⟩ := hfull (a + 1) h
      have hk : m + a < k := by
        by_contra hge
        rcases Nat.eq_or_lt_of_le (Nat.not_lt.1 hge) with h | h
        · subst h; omega
        · have := hs k (m + a) k1 h i1; omega
      rcases Nat.eq_or_lt_of_le (show m + a + 1 ≤ k from hk) with h' | h'
      · have e : m + (a + 1) = k := by omega
        rw [e]; exact ⟨k2, k3⟩
      · have g1 := hs (m + a) (m + a + 1) (by omega) (by omega) (by omega)
        have g2 := hs (m + a + 1) k (by omega) h' k2
        omega
  obtain ⟨s1, s2⟩ := step a ha
  have hz : zrMap M offset nv l a b = m + a := by unfold zrMap; rw [← hc, hin]
  rw [hz]
  exact ⟨s1, by rw [← s2, sorted_entry hs (by omega) s1]⟩

/-- The sum over the levels that the gradient takes out of `ZᵀR⁻¹Z` is the sum of its diagonal blocks if these are stored whole. -/
theorem C112_index_map_partial [AddCommMonoid R] (M : Csc R) (nnz offset ng nv : ℕ)
    (hn : ∀ c < offset + ng * nv, M.p (c + 1) ≤ nnz) (hs : M.Sorted (offset + ng * nv))
    (hfull : ∀ l < ng, ∀ a < nv, ∀ b < nv, M.Stored (offset + (l * nv + a)) (offset + (l * nv + b)))
    (hblk : ∀ l < ng, ∀ b < nv, ∀ k, M.p (offset + (l * nv + b)) ≤ k → k < M.p (offset + (l * nv + b) + 1) → offset ≤ M.i k →
      M.i k < offset + ng * nv → (M.i k - offset) / nv = l) :
    ∃ S, ztrzSum M nnz offset ng nv = some S ∧ ∀ a < nv, ∀ b < nv,
      S a b = ∑ l ∈ Finset.range ng, M.entry (offset + (l * nv + a)) (offset + (l * nv + b)) := by
  have hc : ∀ l < ng, ∀ b < nv, offset + (l * nv + b) < offset + ng * nv := fun l hl b hb => by
    have := (kron_col (Anc := ng) hl hb).1; omega
  have key := fun l (hl : l < ng) a (ha : a < nv) b (hb : b < nv) =>
    zrMap_entry M offset ng nv l b hb hl (hs _ (hc l hl b hb)) (fun a ha => hfull l hl a ha b hb) (hblk l hl b hb) ha
  unfold ztrzSum
  rw [if_pos]
  · exact ⟨_, rfl, fun a ha b hb => Finset.sum_congr rfl fun l hl => (key l (Finset.mem_range.1 hl) a ha b hb).2⟩
  · intro l hl a ha b hb
    have := (key l hl a ha b hb).1
    have := hn _ (hc l hl b hb)
    omega

/-- Two groups of two observations, intercept and a covariate that is zero in the first group and 1, 2 in the second;
`eliminate_zeros` leaves an empty column. -/
def gapZtZ : Csc ℚ := { p := fun c => [0, 1, 1, 3, 5].getD c 0, i := fun k => [0, 2, 3, 2, 3].getD k 0, x := fun k => [2, 2, 3, 3, 5].getD k 0 }

/-- The index map then takes the entries of other columns: the sums are not those of the diagonal blocks. -/
theorem C112_index_map_violated :
    (∀ r < 4, ∀ c < 4, gapZtZ.entry r c = ∑ i ∈ Finset.range 4,
      (zmat 4 2 2 (fun i => i / 2) fun i a => if a = 0 then (1 : ℚ) else (i - 1 : ℕ)).entry i r *
      (zmat 4 2 2 (fun i => i / 2) fun i a => if a = 0 then (1 : ℚ) else (i - 1 : ℕ)).entry i c) ∧
      ∃ S, ztrzSum gapZtZ 5 0 2 2 = some S ∧ S 1 1 = 8 ∧ S 1 0 = 5 ∧
        ∑ l ∈ Finset.range 2, gapZtZ.entry (l * 2 + 1) (l * 2 + 1) = 5 ∧ ∑ l ∈ Finset.range 2, gapZtZ.entry (l * 2 + 1) (l * 2) = 3 := by
  refine ⟨by decide +kernel, _, rfl, ?_, ?_, ?_, ?_⟩ <;> decide +kernel

/-- The same with the groups in the other order. -/
def endZtZ : Csc ℚ := { p := fun c => [0, 2, 4, 5, 5].getD c 0, i := fun k => [0, 1, 0, 1, 2].getD k 0, x := fun k => [2, 3, 3, 5, 2].getD k 0 }

/-- With the empty column last the indices leave the data. -/
theorem C112_index_map_raises : ztrzSum endZtZ 5 0 2 2 = none := by decide +kernel

/-- The blocks stored whole: the hypotheses hold. -/
def wholeZtZ : Csc ℚ := { p := fun c => c * 2, i := fun k => k / 4 * 2 + k % 2, x := fun k => (k : ℚ) }

example : ∃ S, ztrzSum wholeZtZ 8 0 2 2 = some S ∧ S 1 0 = 6 := by
  refine ⟨_, rfl, ?_⟩; decide +kernel

example : (∀ c < 4, wholeZtZ.p (c + 1) ≤ 8) ∧ ∀ l < 2, ∀ a < 2, ∀ b < 2, wholeZtZ.i ((l * 2 + b) * 2 + a) = l * 2 + a := by
  constructor <;> decide

end Verif.Lmm
