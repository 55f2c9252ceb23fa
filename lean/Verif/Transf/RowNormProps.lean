import Verif.Transf.RowNorm
import Verif.Transf.Jac
import Verif.Transf.UcholDerivProps
import Mathlib.Data.List.Sort
import Mathlib.Data.List.GetD
import Mathlib.Algebra.BigOperators.Group.Finset.Basic
/-!
# The row-normalising transform (C42)
-/
namespace Verif.Transf
open Verif.Np Verif.Vec Verif.Index Real

/-! ## the row index lists -/

/-- Contract of `np.argsort`: a permutation of the positions that sorts the values. -/
def IsArgsort (srt : List ℕ → List ℕ) : Prop :=
  ∀ r : List ℕ, (srt r).Perm (List.range r.length) ∧
    ((srt r).map fun p => r.getD p 0).Pairwise (· ≤ ·)

/-- Sorted row numbers: `i` repeated `i` times. -/
def sortedRows (n : ℕ) : List ℕ := (List.range n).flatMap fun i => List.replicate i i

theorem rowInds_perm (n : ℕ) : (rowInds n).Perm (sortedRows n) := by
  have h : (npTriu n 1).Perm ((List.range n).flatMap fun j => (List.range j).map fun i => (i, j)) := by
    refine (List.perm_ext_iff_of_nodup (nodup_npTriu n 1) ?_).2 ?_
    · rw [List.nodup_flatMap]
      refine ⟨fun j _ => (List.nodup_range).map fun a b h => by simpa using h, ?_⟩
      refine List.Pairwise.imp_of_mem ?_ (List.nodup_range (n := n))
      intro a b _ _ hab
      simp only [Function.onFun, List.disjoint_left, List.mem_map, List.mem_range]
      rintro p ⟨i, _, rfl⟩ ⟨k, _, h⟩
      simp only [Prod.mk.injEq] at h
      exact hab h.2.symm
    · rintro ⟨i, j⟩
      simp only [npTriu, List.mem_flatMap, List.mem_range, List.mem_map, List.mem_filter,
        Prod.mk.injEq, decide_eq_true_eq]
      constructor
      · rintro ⟨a, ha, b, ⟨hb, hab⟩, rfl, rfl⟩
        exact ⟨b, hb, a, by omega, rfl, rfl⟩
      · rintro ⟨b, hb, a, ha, rfl, rfl⟩
        exact ⟨a, by omega, b, ⟨hb, by omega⟩, rfl, rfl⟩
  have h2 := h.map fun p => p.2
  rw [List.map_flatMap] at h2
  have e : ∀ j, ((List.range j).map fun i => (i, j)).map (fun p => p.2) = List.replicate j j := by
    intro j
    rw [List.map_map, List.eq_replicate_iff]
    simp
  simp only [e] at h2
  exact h2

theorem sortedRows_sorted (n : ℕ) : (sortedRows n).Pairwise (· ≤ ·) := by
  rw [sortedRows, List.pairwise_flatMap]
  refine ⟨fun i _ => List.pairwise_replicate.2 (Or.inr le_rfl), ?_⟩
  refine List.pairwise_lt_range.imp_of_mem ?_
  intro a b _ _ hab x hx y hy
  rw [List.eq_of_mem_replicate hx, List.eq_of_mem_replicate hy]
  exact hab.le

theorem sortedRows_split (n i : ℕ) (hi : i + 1 < n) :
    ∃ A C, sortedRows n = A ++ List.replicate (i + 1) (i + 1) ++ C ∧ A.length = cumArange i ∧
      (∀ v ∈ A, v ≤ i) ∧ (∀ v ∈ C, i + 2 ≤ v) := by
  refine ⟨(List.range (i + 1)).flatMap fun i => List.replicate i i,
    (List.range' (i + 2) (n - (i + 2))).flatMap fun i => List.replicate i i, ?_, ?_, ?_, ?_⟩
  · have : List.range n = List.range (i + 1) ++ [i + 1] ++ List.range' (i + 2) (n - (i + 2)) := by
      rw [← List.range_succ, List.range_eq_range', List.range_eq_range']
      have := List.range'_append (s := 0) (m := i + 2) (n := n - (i + 2)) (step := 1)
      rw [show 0 + 1 * (i + 2) = i + 2 by omega, show i + 2 + (n - (i + 2)) = n by omega] at this
      exact this.symm
    rw [sortedRows, this]
    simp
  · simp [cumArange]
  · intro v hv
    simp only [List.mem_flatMap, List.mem_range, List.mem_replicate] at hv
    omega
  · intro v hv
    simp only [List.mem_flatMap, List.mem_range'_1, List.mem_replicate] at hv
    omega

/-- The index list of matrix row `i + 1` consists of the positions of that row. -/
theorem rowNormInds_spec (srt : List ℕ → List ℕ) (hs : IsArgsort srt) (n i : ℕ) (hi : i + 1 < n) :
    ∃ ii, (rowNormInds srt n)[i]? = some ii ∧ ii.Nodup ∧
      ∀ p, p ∈ ii ↔ (rowInds n)[p]? = some (i + 1) := by
  obtain ⟨h1, h2⟩ := hs (rowInds n)
  have hsorted : (srt (rowInds n)).map (fun p => (rowInds n).getD p 0) = sortedRows n := by
    apply List.Perm.eq_of_pairwise' h2 (sortedRows_sorted n)
    refine List.Perm.trans ?_ (rowInds_perm n)
    refine (h1.map _).trans ?_
    rw [show (List.range (rowInds n).length).map (fun p => (rowInds n).getD p 0) = rowInds n from ?_]
    apply List.ext_getElem?
    intro k
    rcases Nat.lt_or_ge k (rowInds n).length with h | h
    · simp [h]
    · simp [h]
  obtain ⟨A, C, e, hA, hA', hC'⟩ := sortedRows_split n i hi
  have hb : cumArange (i + 1) - cumArange i = i + 1 := by
    simp [cumArange, List.range_succ]; omega
  refine ⟨((srt (rowInds n)).drop (cumArange i)).take (i + 1), ?_, ?_, ?_⟩
  · simp [rowNormInds, lhvIndParts, show i < n - 1 by omega, hb]
  · have := h1.nodup_iff.2 List.nodup_range
    exact (this.sublist (List.drop_sublist _ _)).sublist (List.take_sublist _ _)
  · generalize hσ : srt (rowInds n) = σ at *
    have hlen : ∀ p, p ∈ σ ↔ p < (rowInds n).length := fun p => by
      rw [h1.mem_iff, List.mem_range]
    have m1 : (σ.take (cumArange i)).map (fun p => (rowInds n).getD p 0) = A := by
      rw [List.map_take, hsorted, e, List.append_assoc, List.take_left' hA]
    have m2 : ((σ.drop (cumArange i)).take (i + 1)).map (fun p => (rowInds n).getD p 0) =
        List.replicate (i + 1) (i + 1) := by
      rw [List.map_take, List.map_drop, hsorted, e, List.append_assoc, List.drop_left' hA,
        List.take_left' (by simp)]
    have m3 : ((σ.drop (cumArange i)).drop (i + 1)).map (fun p => (rowInds n).getD p 0) = C := by
      rw [List.map_drop, List.map_drop, hsorted, e, List.append_assoc, List.drop_left' hA,
        List.drop_left' (by simp)]
    intro p
    constructor
    · intro hp
      have hv : (rowInds n).getD p 0 = i + 1 := by
        have := List.mem_map_of_mem (f := fun p => (rowInds n).getD p 0) hp
        rw [m2] at this
        exact List.eq_of_mem_replicate this
      have hl := (hlen p).1 ((List.drop_subset _ _) ((List.take_subset _ _) hp))
      rw [List.getD_eq_getElem _ _ hl] at hv
      rw [List.getElem?_eq_getElem hl, hv]
    · intro hp
      have hv : (rowInds n).getD p 0 = i + 1 := by
        rw [List.getD_eq_getElem?_getD, hp]; rfl
      have hl : p < (rowInds n).length := (List.getElem?_eq_some_iff.1 hp).1
      have hm := (hlen p).2 hl
      rw [← List.take_append_drop (cumArange i) σ, List.mem_append] at hm
      rcases hm with hm | hm
      · have := List.mem_map_of_mem (f := fun p => (rowInds n).getD p 0) hm
        rw [m1] at this
        have := hA' _ this
        simp only [hv] at this
        omega
      · rw [← List.take_append_drop (i + 1) (σ.drop (cumArange i)), List.mem_append] at hm
        rcases hm with hm | hm
        · exact hm
        · have := List.mem_map_of_mem (f := fun p => (rowInds n).getD p 0) hm
          rw [m3] at this
          have := hC' _ this
          simp only [hv] at this
          omega

/-- A partition of `0, ..., m-1` into index lists. -/
structure IsPart (m : ℕ) (rows : List (List ℕ)) : Prop where
  nodup : ∀ ii ∈ rows, ii.Nodup
  disj : rows.Pairwise fun a b => ∀ p, p ∈ a → p ∉ b
  mem : ∀ p, (∃ ii ∈ rows, p ∈ ii) ↔ p < m

/-- C42: the index lists of the constructor partition the half vector, whatever order `argsort`
gives to equal values. -/
theorem C42_rows (srt : List ℕ → List ℕ) (hs : IsArgsort srt) (n : ℕ) :
    IsPart (n * (n - 1) / 2) (rowNormInds srt n) := by
  have hlen : (rowNormInds srt n).length = n - 1 := by simp [rowNormInds, lhvIndParts]
  have hmem : ∀ ii ∈ rowNormInds srt n, ∃ i, i + 1 < n ∧ (rowNormInds srt n)[i]? = some ii := by
    intro ii h
    obtain ⟨i, hi, rfl⟩ := List.getElem_of_mem h
    exact ⟨i, by omega, List.getElem?_eq_getElem hi⟩
  refine ⟨?_, ?_, ?_⟩
  · intro ii h
    obtain ⟨i, hi, e⟩ := hmem ii h
    obtain ⟨jj, e', hn, -⟩ := rowNormInds_spec srt hs n i hi
    rw [e] at e'
    exact Option.some.inj e' ▸ hn
  · rw [List.pairwise_iff_getElem]
    intro a b ha hb hab p hpa hpb
    obtain ⟨A, ea, -, hA⟩ := rowNormInds_spec srt hs n a (by omega)
    obtain ⟨B, eb, -, hB⟩ := rowNormInds_spec srt hs n b (by omega)
    rw [List.getElem?_eq_getElem ha] at ea
    rw [List.getElem?_eq_getElem hb] at eb
    rw [Option.some.inj ea, hA] at hpa
    rw [Option.some.inj eb, hB, hpa] at hpb
    simp at hpb
    omega
  · have hl : (rowInds n).length = n * (n - 1) / 2 := by
      rw [rowInds, vecl, List.length_map, length_npTriu_one]
    intro p
    constructor
    · rintro ⟨ii, h, hp⟩
      obtain ⟨i, hi, e⟩ := hmem ii h
      obtain ⟨jj, e', -, hj⟩ := rowNormInds_spec srt hs n i hi
      rw [e] at e'
      rw [Option.some.inj e', hj] at hp
      rw [← hl]
      exact (List.getElem?_eq_some_iff.1 hp).1
    · intro hp
      rw [← hl] at hp
      have hm : (rowInds n)[p] ∈ sortedRows n := (rowInds_perm n).mem_iff.1 (List.getElem_mem hp)
      simp only [sortedRows, List.mem_flatMap, List.mem_range, List.mem_replicate] at hm
      obtain ⟨i, hi, h0, hv⟩ := hm
      obtain ⟨jj, e', -, hj⟩ := rowNormInds_spec srt hs n (i - 1) (by omega)
      refine ⟨jj, List.mem_of_getElem? e', ?_⟩
      rw [hj, List.getElem?_eq_getElem hp, hv]
      congr 1; omega

/-- C42: list number `i` holds exactly the positions of matrix row `i + 1`. -/
theorem C42_row_positions (srt : List ℕ → List ℕ) (hs : IsArgsort srt) (n r s : ℕ) (h1 : s < r)
    (h2 : r < n) : ∃ ii k, (rowNormInds srt n)[r - 1]? = some ii ∧ k ∈ ii ∧
      pos n r s = (k : ℕ) := by
  obtain ⟨ii, e, -, hj⟩ := rowNormInds_spec srt hs n (r - 1) (by omega)
  obtain ⟨k, hk, hv⟩ := C03_vecl_element (fun i _ => i) n r s h1 h2
  refine ⟨ii, k, e, ?_, hk⟩
  rw [hj, rowInds, hv]
  congr 1; omega

/-! ## values -/

section blocks
variable {m : ℕ} {rows : List (List ℕ)}

theorem fold_block {α β : Type*} (P : List ℕ → β → Prop) [∀ ii p, Decidable (P ii p)]
    (v : List ℕ → β → α) (a : β → α) (p : β) :
    (∀ ii ∈ rows, rows.Pairwise (fun a b => P a p → ¬ P b p) → P ii p →
      rows.foldl (fun a ii => fun p => if P ii p then v ii p else a p) a p = v ii p) ∧
    ((∀ ii ∈ rows, ¬ P ii p) →
      rows.foldl (fun a ii => fun p => if P ii p then v ii p else a p) a p = a p) := by
  induction rows using List.reverseRecOn with
  | nil => simp
  | append_singleton l b ih =>
    obtain ⟨i1, i2⟩ := ih
    simp only [List.foldl_append, List.foldl_cons, List.foldl_nil, List.mem_append,
      List.mem_singleton]
    constructor
    · intro ii hm hd hp
      rw [List.pairwise_append] at hd
      rcases hm with hm | rfl
      · rw [if_neg (hd.2.2 ii hm b (by simp) hp)]
        exact i1 ii hm hd.1 hp
      · rw [if_pos hp]
    · intro h
      rw [if_neg (h b (Or.inr rfl))]
      exact i2 fun ii hm => h ii (Or.inl hm)

theorem block_at (hP : IsPart m rows) {α : Type*} (v : List ℕ → ℕ → α) (a : ℕ → α) {ii : List ℕ}
    (hi : ii ∈ rows) {p : ℕ} (hp : p ∈ ii) : blockLoop rows v a p = v ii p :=
  (fold_block (fun ii p => p ∈ ii) v a p).1 ii hi (hP.disj.imp fun h => h p) hp

theorem block2_fold (v : List ℕ → ℕ → ℕ → ℝ) (p q : ℕ) : blockLoop2 rows v p q =
    rows.foldl (fun (a : ℕ × ℕ → ℝ) ii => fun pq =>
      if pq.1 ∈ ii ∧ pq.2 ∈ ii then v ii pq.2 pq.1 else a pq) (fun _ => 0) (p, q) := by
  unfold blockLoop2
  induction rows using List.reverseRecOn with
  | nil => rfl
  | append_singleton l b ih =>
    simp only [List.foldl_append, List.foldl_cons, List.foldl_nil, ih]

theorem block3_fold (v : List ℕ → ℕ → ℕ → ℕ → ℝ) (i j k : ℕ) : blockLoop3 rows v i j k =
    rows.foldl (fun (a : ℕ × ℕ × ℕ → ℝ) ii => fun t =>
      if t.1 ∈ ii ∧ t.2.1 ∈ ii ∧ t.2.2 ∈ ii then v ii t.1 t.2.1 t.2.2 else a t)
      (fun _ => 0) (i, j, k) := by
  unfold blockLoop3
  induction rows using List.reverseRecOn with
  | nil => rfl
  | append_singleton l b ih =>
    simp only [List.foldl_append, List.foldl_cons, List.foldl_nil, ih]

theorem part_unique (hP : IsPart m rows) {ii jj : List ℕ} (hi : ii ∈ rows) (hj : jj ∈ rows) {p : ℕ}
    (h1 : p ∈ ii) (h2 : p ∈ jj) : ii = jj := by
  obtain ⟨a, ha, rfl⟩ := List.getElem_of_mem hi
  obtain ⟨b, hb, rfl⟩ := List.getElem_of_mem hj
  have := List.pairwise_iff_getElem.1 hP.disj
  rcases lt_trichotomy a b with h | h | h
  · exact absurd h2 (this a b ha hb h p h1)
  · subst h; rfl
  · exact absurd h1 (this b a hb ha h p h2)

theorem block2_at (hP : IsPart m rows) (v : List ℕ → ℕ → ℕ → ℝ) {ii : List ℕ}
    (hi : ii ∈ rows) {p : ℕ} (hp : p ∈ ii) (q : ℕ) :
    blockLoop2 rows v p q = if q ∈ ii then v ii q p else 0 := by
  rw [block2_fold]
  have := fold_block (rows := rows) (fun ii (pq : ℕ × ℕ) => pq.1 ∈ ii ∧ pq.2 ∈ ii)
    (fun ii pq => v ii pq.2 pq.1) (fun _ => 0) (p, q)
  split_ifs with h
  · exact this.1 ii hi (hP.disj.imp fun h' a b => h' p a.1 b.1) ⟨hp, h⟩
  · exact this.2 fun jj hj hc => h (by rw [part_unique hP hi hj hp hc.1]; exact hc.2)

theorem block3_at (hP : IsPart m rows) (v : List ℕ → ℕ → ℕ → ℕ → ℝ) {ii : List ℕ}
    (hi : ii ∈ rows) {i : ℕ} (hp : i ∈ ii) (j k : ℕ) :
    blockLoop3 rows v i j k = if j ∈ ii ∧ k ∈ ii then v ii i j k else 0 := by
  rw [block3_fold]
  have := fold_block (rows := rows)
    (fun ii (t : ℕ × ℕ × ℕ) => t.1 ∈ ii ∧ t.2.1 ∈ ii ∧ t.2.2 ∈ ii)
    (fun ii t => v ii t.1 t.2.1 t.2.2) (fun _ => 0) (i, j, k)
  split_ifs with h
  · exact this.1 ii hi (hP.disj.imp fun h' a b => h' i a.1 b.1) ⟨hp, h⟩
  · exact this.2 fun jj hj hc => h (by rw [part_unique hP hi hj hp hc.1]; exact hc.2)

theorem sumSq_eq (hP : IsPart m rows) {ii : List ℕ} (hi : ii ∈ rows) (x : ℕ → ℝ) :
    sumSq x ii = ∑ q ∈ ii.toFinset, x q ^ 2 :=
  (List.sum_toFinset (fun q => x q ^ 2) (hP.nodup ii hi)).symm

theorem block_sub (hP : IsPart m rows) {ii : List ℕ} (hi : ii ∈ rows) :
    ii.toFinset ⊆ Finset.range m := fun q hq =>
  Finset.mem_range.2 ((hP.mem q).1 ⟨ii, hi, List.mem_toFinset.1 hq⟩)

theorem rnFwd_at (hP : IsPart m rows) {ii : List ℕ} (hi : ii ∈ rows) {p : ℕ} (hp : p ∈ ii)
    (x : ℕ → ℝ) : rnFwd rows x p = x p / sqrt (sumSq x ii + 1) := by
  simp only [rnFwd]; rw [block_at hP _ _ hi hp]

theorem rnRvs_at (hP : IsPart m rows) {ii : List ℕ} (hi : ii ∈ rows) {p : ℕ} (hp : p ∈ ii)
    (x : ℕ → ℝ) : rnRvs rows x p = x p / sqrt (1 - sumSq x ii) := by
  simp only [rnRvs]; rw [block_at hP _ _ hi hp]

theorem sumSq_nonneg (x : ℕ → ℝ) (ii : List ℕ) : 0 ≤ sumSq x ii :=
  List.sum_nonneg fun a h => by
    obtain ⟨q, _, rfl⟩ := List.mem_map.1 h; exact sq_nonneg _

theorem sumSq_div {x y : ℕ → ℝ} {ii : List ℕ} {c : ℝ} (h : ∀ p ∈ ii, y p = x p / c) :
    sumSq y ii = sumSq x ii / c ^ 2 := by
  unfold sumSq
  rw [div_eq_mul_inv, ← List.sum_map_mul_right]
  congr 1
  exact List.map_congr_left fun p hp => by rw [h p hp, div_pow, div_eq_mul_inv]

/-- All rows of norm below one. -/
def RowBalls (rows : List (List ℕ)) (y : ℕ → ℝ) : Prop := ∀ ii ∈ rows, sumSq y ii < 1

theorem sumSq_fwd (hP : IsPart m rows) {ii : List ℕ} (hi : ii ∈ rows) (x : ℕ → ℝ) :
    sumSq (rnFwd rows x) ii = sumSq x ii / (sumSq x ii + 1) := by
  rw [sumSq_div fun p hp => rnFwd_at hP hi hp x, sq_sqrt (by linarith [sumSq_nonneg x ii])]

theorem sumSq_rvs (hP : IsPart m rows) {ii : List ℕ} (hi : ii ∈ rows) (y : ℕ → ℝ)
    (hy : sumSq y ii < 1) : sumSq (rnRvs rows y) ii = sumSq y ii / (1 - sumSq y ii) := by
  rw [sumSq_div fun p hp => rnRvs_at hP hi hp y, sq_sqrt (by linarith)]

/-- C42: every vector is sent to rows of norm below one. -/
theorem C42_fwd_range (hP : IsPart m rows) (x : ℕ → ℝ) : RowBalls rows (rnFwd rows x) := by
  intro ii hi
  have := sumSq_nonneg x ii
  rw [sumSq_fwd hP hi, div_lt_one (by linarith)]
  linarith

/-- C42: reverse undoes forward, on every vector. -/
theorem C42_rvs_fwd (hP : IsPart m rows) (x : ℕ → ℝ) (p : ℕ) (hp : p < m) :
    rnRvs rows (rnFwd rows x) p = x p := by
  obtain ⟨ii, hi, hpi⟩ := (hP.mem p).2 hp
  have h0 := sumSq_nonneg x ii
  rw [rnRvs_at hP hi hpi, sumSq_fwd hP hi, rnFwd_at hP hi hpi]
  have hs : (0 : ℝ) < sumSq x ii + 1 := by linarith
  rw [show 1 - sumSq x ii / (sumSq x ii + 1) = (sumSq x ii + 1)⁻¹ by field_simp; ring, sqrt_inv]
  have := (sqrt_pos.2 hs).ne'
  field_simp

/-- C42: forward undoes reverse on rows of norm below one. -/
theorem C42_fwd_rvs (hP : IsPart m rows) (y : ℕ → ℝ) (hy : RowBalls rows y) (p : ℕ) (hp : p < m) :
    rnFwd rows (rnRvs rows y) p = y p := by
  obtain ⟨ii, hi, hpi⟩ := (hP.mem p).2 hp
  have h1 := hy ii hi
  rw [rnFwd_at hP hi hpi, sumSq_rvs hP hi y h1, rnRvs_at hP hi hpi]
  have hs : (0 : ℝ) < 1 - sumSq y ii := by linarith
  rw [show sumSq y ii / (1 - sumSq y ii) + 1 = (1 - sumSq y ii)⁻¹ by field_simp; ring, sqrt_inv]
  have := (sqrt_pos.2 hs).ne'
  field_simp

/-! ## derivatives -/

/-- Common form: `x / sqrt (1 + c |x|²)` with `c = ±1`. -/
theorem norm_deriv {X : ℝ → ℕ → ℝ} {x' : ℕ → ℝ} (hX : PathN m X x') {B : Finset ℕ}
    (hB : B ⊆ Finset.range m) (c : ℝ) (hc : 0 < 1 + c * ∑ q ∈ B, X 0 q ^ 2) :
    HasDerivAt (fun t => sqrt (1 + c * ∑ q ∈ B, X t q ^ 2))
      (c * (∑ q ∈ B, X 0 q * x' q) / sqrt (1 + c * ∑ q ∈ B, X 0 q ^ 2)) 0 := by
  refine ((((hX.sumSq hB).const_mul c).const_add 1).sqrt hc.ne').congr_deriv ?_
  have := (sqrt_pos.2 hc).ne'
  field_simp

theorem val_deriv {X : ℝ → ℕ → ℝ} {x' : ℕ → ℝ} (hX : PathN m X x') {B : Finset ℕ}
    (hB : B ⊆ Finset.range m) (c : ℝ) (hc : 0 < 1 + c * ∑ q ∈ B, X 0 q ^ 2) {p : ℕ} (hp : p ∈ B) :
    HasDerivAt (fun t => X t p / sqrt (1 + c * ∑ q ∈ B, X t q ^ 2))
      (∑ q ∈ B, (1 / sqrt (1 + c * ∑ q ∈ B, X 0 q ^ 2) * (if q = p then 1 else 0) -
        c * (1 / sqrt (1 + c * ∑ q ∈ B, X 0 q ^ 2) ^ 3 * X 0 q * X 0 p)) * x' q) 0 := by
  have hne := (sqrt_pos.2 hc).ne'
  refine ((hX p (Finset.mem_range.1 (hB hp))).fun_div (norm_deriv hX hB c hc) hne).congr_deriv ?_
  generalize sqrt (1 + c * ∑ q ∈ B, X 0 q ^ 2) = s at *
  have e : ∑ q ∈ B, (1 / s * (if q = p then 1 else 0) - c * (1 / s ^ 3 * X 0 q * X 0 p)) * x' q =
      1 / s * x' p - c * (1 / s ^ 3 * X 0 p) * ∑ q ∈ B, X 0 q * x' q := by
    rw [Finset.mul_sum]
    have : ∀ q ∈ B, (1 / s * (if q = p then 1 else 0) - c * (1 / s ^ 3 * X 0 q * X 0 p)) * x' q =
        (if q = p then 1 / s * x' p else 0) - c * (1 / s ^ 3 * X 0 p) * (X 0 q * x' q) := by
      intro q _
      by_cases h : q = p
      · subst h; simp only [if_true]; ring
      · simp only [if_neg h]; ring
    rw [Finset.sum_congr rfl this, Finset.sum_sub_distrib, Finset.sum_ite_eq', if_pos hp]
  rw [e]
  field_simp

theorem jac_deriv {X : ℝ → ℕ → ℝ} {x' : ℕ → ℝ} (hX : PathN m X x') {B : Finset ℕ}
    (hB : B ⊆ Finset.range m) (c : ℝ) (hc2 : c * c = 1) (hc : 0 < 1 + c * ∑ q ∈ B, X 0 q ^ 2) {i j : ℕ}
    (hi : i ∈ B) (hj : j ∈ B) :
    HasDerivAt (fun t => 1 / sqrt (1 + c * ∑ q ∈ B, X t q ^ 2) * (if j = i then 1 else 0) -
        c * (1 / sqrt (1 + c * ∑ q ∈ B, X t q ^ 2) ^ 3 * X t j * X t i))
      (∑ k ∈ B, (- c * ind j k / sqrt (1 + c * ∑ q ∈ B, X 0 q ^ 2) ^ 3 * X 0 i +
        - c * ind j i / sqrt (1 + c * ∑ q ∈ B, X 0 q ^ 2) ^ 3 * X 0 k +
        - c * ind k i / sqrt (1 + c * ∑ q ∈ B, X 0 q ^ 2) ^ 3 * X 0 j +
        3 / sqrt (1 + c * ∑ q ∈ B, X 0 q ^ 2) ^ 5 * X 0 j * X 0 k * X 0 i) * x' k) 0 := by
  have hne := (sqrt_pos.2 hc).ne'
  have hn := norm_deriv hX hB c hc
  have h1 := ((hasDerivAt_const (0 : ℝ) (1 : ℝ)).fun_div hn hne).mul_const (if j = i then (1 : ℝ) else 0)
  have h3 := ((((hasDerivAt_const (0 : ℝ) (1 : ℝ)).fun_div (hn.fun_pow 3) (pow_ne_zero 3 hne)).fun_mul
    (hX j (Finset.mem_range.1 (hB hj)))).fun_mul (hX i (Finset.mem_range.1 (hB hi)))).const_mul c
  refine (h1.fun_sub h3).congr_deriv ?_
  generalize sqrt (1 + c * ∑ q ∈ B, X 0 q ^ 2) = s at *
  have e : ∑ k ∈ B, (- c * ind j k / s ^ 3 * X 0 i + - c * ind j i / s ^ 3 * X 0 k +
        - c * ind k i / s ^ 3 * X 0 j + 3 / s ^ 5 * X 0 j * X 0 k * X 0 i) * x' k =
      - c / s ^ 3 * X 0 i * x' j + - c / s ^ 3 * X 0 j * x' i +
      (- c * ind j i / s ^ 3 + 3 / s ^ 5 * X 0 j * X 0 i) * ∑ q ∈ B, X 0 q * x' q := by
    rw [Finset.mul_sum]
    have : ∀ k ∈ B, (- c * ind j k / s ^ 3 * X 0 i + - c * ind j i / s ^ 3 * X 0 k +
        - c * ind k i / s ^ 3 * X 0 j + 3 / s ^ 5 * X 0 j * X 0 k * X 0 i) * x' k =
        ((if j = k then - c / s ^ 3 * X 0 i * x' j else 0) +
          (if k = i then - c / s ^ 3 * X 0 j * x' i else 0)) +
        (- c * ind j i / s ^ 3 + 3 / s ^ 5 * X 0 j * X 0 i) * (X 0 k * x' k) := by
      intro k _
      have a1 : ind j k * x' k = ind j k * x' j := by
        unfold ind; split_ifs with h
        · rw [h]
        · simp
      have a2 : ind k i * x' k = ind k i * x' i := by
        unfold ind; split_ifs with h
        · rw [h]
        · simp
      have b1 : (if j = k then - c / s ^ 3 * X 0 i * x' j else 0) =
          - c / s ^ 3 * X 0 i * (ind j k * x' j) := by unfold ind; split_ifs <;> ring
      have b2 : (if k = i then - c / s ^ 3 * X 0 j * x' i else 0) =
          - c / s ^ 3 * X 0 j * (ind k i * x' i) := by unfold ind; split_ifs <;> ring
      rw [b1, b2, ← a1, ← a2]
      ring
    rw [Finset.sum_congr rfl this, Finset.sum_add_distrib, Finset.sum_add_distrib,
      Finset.sum_ite_eq, Finset.sum_ite_eq', if_pos hj, if_pos hi]
  rw [e]
  have e2 : ind j i = if j = i then 1 else 0 := rfl
  rw [← e2]
  generalize ind j i = d
  generalize ∑ q ∈ B, X 0 q * x' q = W
  simp only [Nat.cast_ofNat, Nat.add_one_sub_one]
  field_simp
  linear_combination (3 * W * X 0 j * X 0 i) * hc2

theorem fwd_form (hP : IsPart m rows) {ii : List ℕ} (hi : ii ∈ rows) (x : ℕ → ℝ) :
    sumSq x ii + 1 = 1 + 1 * ∑ q ∈ ii.toFinset, x q ^ 2 := by rw [sumSq_eq hP hi]; ring

theorem rvs_form (hP : IsPart m rows) {ii : List ℕ} (hi : ii ∈ rows) (x : ℕ → ℝ) :
    1 - sumSq x ii = 1 + (-1) * ∑ q ∈ ii.toFinset, x q ^ 2 := by rw [sumSq_eq hP hi]; ring

/-- C42: `_jac_fwd` is the derivative of `_fwd`. -/
theorem C42_jac_fwd (hP : IsPart m rows) (x : ℕ → ℝ) :
    IsJac m m (rnFwd rows) (rnJacFwd rows x) x := by
  rintro X x' hX rfl p hp
  obtain ⟨ii, hi, hpi⟩ := (hP.mem p).2 hp
  beta_reduce
  have h0 := sumSq_nonneg (X 0) ii
  rw [dotN_sub (block_sub hP hi) fun q _ hq => by
    rw [rnJacFwd, block2_at hP _ hi hpi, if_neg (by simpa using hq)]]
  simp only [rnFwd_at hP hi hpi, fwd_form hP hi]
  refine (val_deriv hX (block_sub hP hi) 1 (by rw [← fwd_form hP hi]; linarith)
    (List.mem_toFinset.2 hpi)).congr_deriv (Finset.sum_congr rfl fun q hq => ?_)
  rw [rnJacFwd, block2_at hP _ hi hpi, if_pos (show q ∈ ii by simpa using hq)]
  simp only [fwd_form hP hi]
  ring

/-- C42: `_jac_rvs` is the derivative of `_rvs` on rows of norm below one. -/
theorem C42_jac_rvs (hP : IsPart m rows) (x : ℕ → ℝ) (hx : RowBalls rows x) :
    IsJac m m (rnRvs rows) (rnJacRvs rows x) x := by
  rintro X x' hX rfl p hp
  obtain ⟨ii, hi, hpi⟩ := (hP.mem p).2 hp
  beta_reduce
  have h0 := hx ii hi
  rw [dotN_sub (block_sub hP hi) fun q _ hq => by
    rw [rnJacRvs, block2_at hP _ hi hpi, if_neg (by simpa using hq)]]
  simp only [rnRvs_at hP hi hpi, rvs_form hP hi]
  refine (val_deriv hX (block_sub hP hi) (-1) (by rw [← rvs_form hP hi]; linarith)
    (List.mem_toFinset.2 hpi)).congr_deriv (Finset.sum_congr rfl fun q hq => ?_)
  rw [rnJacRvs, block2_at hP _ hi hpi, if_pos (show q ∈ ii by simpa using hq)]
  simp only [rvs_form hP hi]
  ring

theorem block3_zero (hP : IsPart m rows) (v : List ℕ → ℕ → ℕ → ℕ → ℝ) {ii : List ℕ}
    (hi : ii ∈ rows) {i j : ℕ} (hp : i ∈ ii) (hj : j ∉ ii) (x' : ℕ → ℝ) :
    dotN m (blockLoop3 rows v i j) x' = 0 :=
  Finset.sum_eq_zero fun k _ => by rw [block3_at hP _ hi hp, if_neg (fun h => hj h.1), zero_mul]

/-- C42: `_hess_fwd` is the derivative of `_jac_fwd`. -/
theorem C42_hess_fwd (hP : IsPart m rows) (x : ℕ → ℝ) :
    IsHess m m (rnJacFwd rows) (rnHessFwd rows x) x := by
  rintro X x' hX rfl j hj p hp
  obtain ⟨ii, hi, hpi⟩ := (hP.mem p).2 hp
  beta_reduce
  by_cases hji : j ∈ ii
  · have h0 := sumSq_nonneg (X 0) ii
    rw [dotN_sub (block_sub hP hi) fun q _ hq => by
      rw [rnHessFwd, block3_at hP _ hi hpi, if_neg (fun h => hq (by simpa using h.2))]]
    simp only [rnJacFwd, block2_at hP _ hi hpi, if_pos hji, fwd_form hP hi]
    have hd := jac_deriv hX (block_sub hP hi) 1 (by norm_num) (by rw [← fwd_form hP hi]; linarith)
      (List.mem_toFinset.2 hpi) (List.mem_toFinset.2 hji)
    simp only [one_mul] at hd ⊢
    refine hd.congr_deriv (Finset.sum_congr rfl fun q hq => ?_)
    rw [rnHessFwd, block3_at hP _ hi hpi, if_pos ⟨hji, by simpa using hq⟩]
    simp only [sumSq_eq hP hi]
  · rw [rnHessFwd, block3_zero hP _ hi hpi hji]
    simp only [rnJacFwd, block2_at hP _ hi hpi, if_neg hji]
    exact hasDerivAt_const _ _

/-- C42: `_hess_rvs` is the derivative of `_jac_rvs` on rows of norm below one. -/
theorem C42_hess_rvs (hP : IsPart m rows) (x : ℕ → ℝ) (hx : RowBalls rows x) :
    IsHess m m (rnJacRvs rows) (rnHessRvs rows x) x := by
  rintro X x' hX rfl j hj p hp
  obtain ⟨ii, hi, hpi⟩ := (hP.mem p).2 hp
  beta_reduce
  by_cases hji : j ∈ ii
  · have h0 := hx ii hi
    rw [dotN_sub (block_sub hP hi) fun q _ hq => by
      rw [rnHessRvs, block3_at hP _ hi hpi, if_neg (fun h => hq (by simpa using h.2))]]
    simp only [rnJacRvs, block2_at hP _ hi hpi, if_pos hji, rvs_form hP hi]
    have hd := jac_deriv hX (block_sub hP hi) (-1) (by norm_num)
      (by rw [← rvs_form hP hi]; linarith) (List.mem_toFinset.2 hpi) (List.mem_toFinset.2 hji)
    refine (hd.congr_deriv (Finset.sum_congr rfl fun q hq => ?_)).congr_of_eventuallyEq
      (Filter.Eventually.of_forall fun t => by ring)
    rw [rnHessRvs, block3_at hP _ hi hpi, if_pos ⟨hji, by simpa using hq⟩]
    simp only [rvs_form hP hi]
    ring
  · rw [rnHessRvs, block3_zero hP _ hi hpi hji]
    simp only [rnJacRvs, block2_at hP _ hi hpi, if_neg hji]
    exact hasDerivAt_const _ _

/-- C42: at corresponding points the two Jacobians are inverse matrices. -/
theorem C42_jac_inverse (hP : IsPart m rows) (x : ℕ → ℝ) (k p : ℕ) (hk : k < m) (hp : p < m) :
    ∑ q ∈ Finset.range m, rnJacRvs rows (rnFwd rows x) k q * rnJacFwd rows x q p =
      if k = p then 1 else 0 :=
  jac_inverse (fun _ => True) (C42_jac_fwd hP x) (C42_jac_rvs hP _ (C42_fwd_range hP x))
    (fun _ _ _ _ => Filter.Eventually.of_forall fun _ => trivial)
    (fun z _ k hk => C42_rvs_fwd hP z k hk) k p hk hp

/-! ## the composed covariance transform -/

/-- C76 (finding): in cov_transform.py `CholeskyCov._fwd` applies `_fwd` of this transform to the
rows of a Cholesky factor of a correlation matrix (norm below one), so that the supposedly
unconstrained parameters always have squared row norm below one half. -/
theorem C76_fwd_image (hP : IsPart m rows) (z : ℕ → ℝ) (hz : RowBalls rows z) (ii : List ℕ)
    (hi : ii ∈ rows) : sumSq (rnFwd rows z) ii < 1 / 2 := by
  have h0 := sumSq_nonneg z ii
  have h1 := hz ii hi
  rw [sumSq_fwd hP hi, div_lt_div_iff₀ (by linarith) (by norm_num)]
  linarith

/-- C76: on that image the composed maps do round-trip, and the rebuilt rows are valid. -/
theorem C76_roundtrip_partial (hP : IsPart m rows) (w : ℕ → ℝ)
    (hw : ∀ ii ∈ rows, sumSq w ii < 1 / 2) :
    RowBalls rows (rnRvs rows w) ∧ ∀ p, p < m → rnFwd rows (rnRvs rows w) p = w p := by
  refine ⟨fun ii hi => ?_, fun p hp => C42_fwd_rvs hP w (fun ii hi => ?_) p hp⟩
  · have h0 := sumSq_nonneg w ii
    have h1 := hw ii hi
    rw [sumSq_rvs hP hi w (by linarith), div_lt_one (by linarith)]
    linarith
  · have := hw ii hi; linarith

/-- C76 (finding): `CholeskyCov._rvs` is not defined on all real vectors. For the `2 × 2` case with
off-diagonal parameter `4/5` the reverse map gives the "Cholesky row" `4/3`, and the radicand
`1 - norm²` of the diagonal entry computed next by `CorrCholesky._rvs` is negative. -/
theorem C76_unconstrained_violated :
    IsPart 1 [[0]] ∧ rnRvs [[0]] (fun _ => 4 / 5) 0 = 4 / 3 ∧
      1 - (rnRvs [[0]] (fun _ => 4 / 5) 0) ^ 2 < 0 := by
  have hP : IsPart 1 [[0]] := ⟨by simp, by simp, fun p => by simp⟩
  have e : rnRvs [[0]] (fun _ => 4 / 5) 0 = 4 / 3 := by
    rw [rnRvs_at hP (ii := [0]) (by simp) (by simp)]
    simp only [sumSq, List.map_cons, List.map_nil, List.sum_cons, List.sum_nil]
    rw [show (1 : ℝ) - ((4 / 5) ^ 2 + 0) = (3 / 5) ^ 2 by norm_num, sqrt_sq (by norm_num)]
    norm_num
  exact ⟨hP, e, by rw [e]; norm_num⟩

/-- C76: applied in the intended direction (`_fwd` from the unconstrained side) every real vector
gives a valid factor. -/
theorem C76_intended (hP : IsPart m rows) (x : ℕ → ℝ) (ii : List ℕ) (hi : ii ∈ rows) :
    0 < 1 - sumSq (rnFwd rows x) ii := by
  have := C42_fwd_range hP x ii hi; linarith

end blocks

/-! ## examples -/

/-- An argsort exists (insertion sort of the positions by value). -/
example : ∃ srt, IsArgsort srt := by
  refine ⟨fun r => (List.range r.length).mergeSort (fun a b => decide (r.getD a 0 ≤ r.getD b 0)),
    fun r => ⟨List.mergeSort_perm _ _, ?_⟩⟩
  rw [List.pairwise_map]
  have := List.pairwise_mergeSort (le := fun a b => decide (r.getD a 0 ≤ r.getD b 0))
    (by intro a b c; simp only [decide_eq_true_eq]; exact le_trans)
    (by intro a b; simp only [Bool.or_eq_true, decide_eq_true_eq]; exact le_total _ _)
    (List.range r.length)
  exact this.imp fun h => by simpa using h

example : IsPart 3 [[0], [2, 1]] ∧ RowBalls [[0], [2, 1]] (fun _ => 1 / 2) := by
  refine ⟨⟨by simp, by simp, fun p => by simp; omega⟩, fun ii hi => ?_⟩
  simp only [List.mem_cons, List.not_mem_nil, or_false] at hi
  rcases hi with rfl | rfl <;> norm_num [sumSq]

end Verif.Transf
