import Verif.Sparse.MatmulLemmas
/-! Lemmas for the merge dot product and the kernels built on it. -/
namespace Verif.Sparse

variable {R : Type*} [CommRing R]

/-- Strictly increasing on `[lo, hi)`. -/
def IncOn (f : ℕ → ℕ) (lo hi : ℕ) : Prop := ∀ p q, lo ≤ p → p < q → q < hi → f p < f q

theorem sum_Ico_head (f : ℕ → R) {a b : ℕ} (h : a < b) :
    ∑ k ∈ Finset.Ico a b, f k = f a + ∑ k ∈ Finset.Ico (a + 1) b, f k :=
  Finset.sum_eq_sum_Ico_succ_bot h f

theorem mergeDot_eq (ai : ℕ → ℕ) (ax : ℕ → R) (bi : ℕ → ℕ) (bx : ℕ → R) (e1 e2 i j : ℕ) (acc : R)
    (ha : IncOn ai i e1) (hb : IncOn bi j e2) :
    mergeDot ai ax bi bx e1 e2 i j acc = acc +
      ∑ p ∈ Finset.Ico i e1, ∑ q ∈ Finset.Ico j e2, if ai p = bi q then ax p * bx q else 0 := by
  fun_induction mergeDot ai ax bi bx e1 e2 i j acc with
  | case1 i j acc h hlt ih =>
    rw [ih (fun p q h1 => ha p q (by omega)) hb, sum_Ico_head _ h.1]
    have : ∑ q ∈ Finset.Ico j e2, (if ai i = bi q then ax i * bx q else 0) = 0 := by
      apply Finset.sum_eq_zero
      intro q hq
      rw [Finset.mem_Ico] at hq
      rw [if_neg]
      have : bi j ≤ bi q := by
        rcases Nat.eq_or_lt_of_le hq.1 with rfl | h1
        · exact le_rfl
        · exact (hb j q le_rfl h1 hq.2).le
      omega
    rw [this, zero_add]
  | case2 i j acc h hlt hgt ih =>
    rw [ih ha (fun p q h1 => hb p q (by omega))]
    congr 1
    apply Finset.sum_congr rfl
    intro p hp
    rw [Finset.mem_Ico] at hp
    rw [sum_Ico_head _ h.2, if_neg, zero_add]
    have : ai i ≤ ai p := by
      rcases Nat.eq_or_lt_of_le hp.1 with rfl | h1
      · exact le_rfl
      · exact (ha i p le_rfl h1 hp.2).le
    omega
  | case3 i j acc h h1 h2 ih =>
    rw [ih (fun p q h1 => ha p q (by omega)) (fun p q h1 => hb p q (by omega))]
    have heq : ai i = bi j := by omega
    rw [sum_Ico_head _ h.1, sum_Ico_head _ h.2, if_pos heq]
    have e1' : ∑ q ∈ Finset.Ico (j + 1) e2, (if ai i = bi q then ax i * bx q else 0) = 0 := by
      apply Finset.sum_eq_zero
      intro q hq
      rw [Finset.mem_Ico] at hq
      rw [if_neg]
      have := hb j q le_rfl (by omega) hq.2
      omega
    have e2' : ∑ p ∈ Finset.Ico (i + 1) e1, ∑ q ∈ Finset.Ico j e2,
        (if ai p = bi q then ax p * bx q else 0) =
        ∑ p ∈ Finset.Ico (i + 1) e1, ∑ q ∈ Finset.Ico (j + 1) e2,
        (if ai p = bi q then ax p * bx q else 0) := by
      apply Finset.sum_congr rfl
      intro p hp
      rw [Finset.mem_Ico] at hp
      rw [sum_Ico_head _ h.2, if_neg, zero_add]
      have := ha i p le_rfl (by omega) hp.2
      omega
    rw [e1', e2', add_zero, add_assoc]
  | case4 i j acc h =>
    rw [not_and_or] at h
    rcases h with h | h
    · rw [Finset.Ico_eq_empty (by omega)]; simp
    · rw [Finset.Ico_eq_empty (a := j) (by omega)]; simp

/-- Pairwise matches against dense inner product. -/
theorem match_sum (ai : ℕ → ℕ) (ax : ℕ → R) (bi : ℕ → ℕ) (bx : ℕ → R) (s t : Finset ℕ) (n : ℕ)
    (ha : ∀ p ∈ s, ai p < n) :
    ∑ p ∈ s, ∑ q ∈ t, (if ai p = bi q then ax p * bx q else 0) =
      ∑ r ∈ Finset.range n, (∑ p ∈ s, if ai p = r then ax p else 0) *
        (∑ q ∈ t, if bi q = r then bx q else 0) := by
  simp only [Finset.sum_mul]
  rw [Finset.sum_comm (s := Finset.range n)]
  apply Finset.sum_congr rfl
  intro p hp
  simp only [ite_mul, zero_mul]
  rw [Finset.sum_ite_eq, if_pos (Finset.mem_range.2 (ha p hp)), Finset.mul_sum]
  apply Finset.sum_congr rfl
  intro q _
  simp only [mul_ite, mul_zero, eq_comm]

theorem mergeDot_entry (B : Csc R) (i j n : ℕ) (hi : IncOn B.i (B.p i) (B.p (i + 1)))
    (hj : IncOn B.i (B.p j) (B.p (j + 1)))
    (hr : ∀ k, B.p i ≤ k → k < B.p (i + 1) → B.i k < n) :
    mergeDot B.i B.x B.i B.x (B.p (i + 1)) (B.p (j + 1)) (B.p i) (B.p j) 0 =
      ∑ r ∈ Finset.range n, B.entry r i * B.entry r j := by
  rw [mergeDot_eq _ _ _ _ _ _ _ _ _ hi hj, zero_add, match_sum _ _ _ _ _ _ n]
  · rfl
  · intro p hp; rw [Finset.mem_Ico] at hp; exact hr p hp.1 hp.2

/-- Sum of squares of a stored row without repeats is its self inner product. -/
theorem selfDot_entry (B : Csc R) (i n : ℕ) (hi : IncOn B.i (B.p i) (B.p (i + 1)))
    (hr : ∀ k, B.p i ≤ k → k < B.p (i + 1) → B.i k < n) :
    ∑ k ∈ Finset.Ico (B.p i) (B.p (i + 1)), B.x k * B.x k =
      ∑ r ∈ Finset.range n, B.entry r i * B.entry r i := by
  have h := match_sum B.i B.x B.i B.x (Finset.Ico (B.p i) (B.p (i + 1)))
    (Finset.Ico (B.p i) (B.p (i + 1))) n
    (fun p hp => by rw [Finset.mem_Ico] at hp; exact hr p hp.1 hp.2)
  refine Eq.trans ?_ h
  apply Finset.sum_congr rfl
  intro p hp
  rw [Finset.sum_eq_single p, if_pos rfl]
  · intro q hq hqp
    rw [if_neg]
    rw [Finset.mem_Ico] at hp hq
    intro he
    rcases Nat.lt_or_gt_of_ne hqp with h1 | h1
    · have := hi q p hq.1 h1 hp.2; omega
    · have := hi p q hp.1 h1 hq.2; omega
  · intro h; exact absurd hp h

theorem foldl_add_sum {α : Type*} (l : List α) (f : α → R) (a : R) :
    l.foldl (fun s k => s + f k) a = a + (l.map f).sum := by
  induction l generalizing a with
  | nil => simp
  | cons x l ih => rw [List.foldl_cons, ih, List.map_cons, List.sum_cons, add_assoc]

theorem patternTrace_eq (B C : Csc R) (Cnc : ℕ) (out : R) :
    patternTrace B C Cnc out = out + ∑ i ∈ Finset.range Cnc,
      ∑ k ∈ Finset.Ico (C.p i) (C.p (i + 1)), C.x k *
        mergeDot B.i B.x B.i B.x (B.p (i + 1)) (B.p (C.i k + 1)) (B.p i) (B.p (C.i k)) 0 := by
  unfold patternTrace
  simp only [foldl_add_sum]
  rfl

/-- A sequence of `out[i] += v`. -/
def accAll (l : List (ℕ × R)) (out : ℕ → R) : ℕ → R :=
  l.foldl (fun o iv => store o iv.1 (o iv.1 + iv.2)) out

theorem accAll_eq (l : List (ℕ × R)) (out : ℕ → R) (r : ℕ) :
    accAll l out r = out r + (l.map fun iv => if iv.1 = r then iv.2 else 0).sum := by
  unfold accAll
  induction l generalizing out with
  | nil => simp
  | cons a l ih =>
    rw [List.foldl_cons, ih, List.map_cons, List.sum_cons]
    by_cases h : a.1 = r
    · subst h; simp [add_assoc]
    · rw [store_ne _ _ _ _ (Ne.symm h)]; simp [h]

/-- The merge product of rows `r1`, `r2`. -/
def rowDot (L : Csc R) (r1 r2 : ℕ) : R :=
  mergeDot L.i L.x L.i L.x (L.p (r1 + 1)) (L.p (r2 + 1)) (L.p r1) (L.p r2) 0

/-- The updates of one `(j, a)` iteration. -/
def bdList (L : Csc R) (nv j a : ℕ) : List (ℕ × R) :=
  (a * nv + a, ∑ k ∈ Finset.Ico (L.p (j * nv + a)) (L.p (j * nv + a + 1)), L.x k * L.x k) ::
    (loopRange (a + 1) nv).flatMap fun b =>
      [(a * nv + b, rowDot L (j * nv + a) (j * nv + b)),
       (b * nv + a, rowDot L (j * nv + a) (j * nv + b))]

theorem accAll_append (l m : List (ℕ × R)) (out : ℕ → R) :
    accAll (l ++ m) out = accAll m (accAll l out) := by
  simp [accAll]

theorem accAll_flatMap {α : Type*} (l : List α) (f : α → List (ℕ × R)) (out : ℕ → R) :
    accAll (l.flatMap f) out = l.foldl (fun o a => accAll (f a) o) out := by
  induction l generalizing out with
  | nil => rfl
  | cons a l ih => rw [List.flatMap_cons, accAll_append, ih]; rfl

theorem blockDiag_acc (L : Csc R) (ng nv : ℕ) (out : ℕ → R) :
    blockDiagSelfDot L ng nv out =
      accAll ((List.range ng).flatMap fun j => (List.range nv).flatMap fun a => bdList L nv j a)
        ((List.range (nv * nv)).foldl (fun o i => store o i 0) out) := by
  unfold blockDiagSelfDot
  rw [accAll_flatMap]
  apply List.foldl_ext
  intro o j _
  rw [accAll_flatMap]
  apply List.foldl_ext
  intro o a _
  have e : bdList L nv j a = [(a * nv + a,
      ∑ k ∈ Finset.Ico (L.p (j * nv + a)) (L.p (j * nv + a + 1)), L.x k * L.x k)] ++
      (loopRange (a + 1) nv).flatMap fun b =>
      [(a * nv + b, rowDot L (j * nv + a) (j * nv + b)),
       (b * nv + a, rowDot L (j * nv + a) (j * nv + b))] := rfl
  rw [e, accAll_append, accAll_flatMap]
  simp only [foldl_add_sum, zero_add]
  rfl

theorem flat_eq {nv a b x y : ℕ} (hb : b < nv) (hy : y < nv) :
    a * nv + b = x * nv + y ↔ a = x ∧ b = y := by
  constructor
  · intro h
    have h1 : (a * nv + b) / nv = a := by
      rw [Nat.add_comm, Nat.add_mul_div_right _ _ (by omega), Nat.div_eq_of_lt hb]; omega
    have h2 : (x * nv + y) / nv = x := by
      rw [Nat.add_comm, Nat.add_mul_div_right _ _ (by omega), Nat.div_eq_of_lt hy]; omega
    have h3 : a = x := by rw [← h1, h, h2]
    subst h3
    exact ⟨rfl, by omega⟩
  · rintro ⟨rfl, rfl⟩; rfl

theorem sum_range_single (n x : ℕ) (hx : x < n) (f : ℕ → R) (h : ∀ a < n, a ≠ x → f a = 0) :
    ((List.range n).map f).sum = f x := by
  have : ((List.range n).map f).sum = ∑ a ∈ Finset.range n, f a := rfl
  rw [this, Finset.sum_eq_single x]
  · intro a ha hax; exact h a (Finset.mem_range.1 ha) hax
  · intro h'; exact absurd (Finset.mem_range.2 hx) h'

theorem bd_sum (L : Csc R) (nv j x y : ℕ) (hx : x < nv) (hy : y < nv) :
    (((List.range nv).flatMap fun a => bdList L nv j a).map
      fun iv => if iv.1 = x * nv + y then iv.2 else 0).sum =
    if x = y then ∑ k ∈ Finset.Ico (L.p (j * nv + x)) (L.p (j * nv + x + 1)), L.x k * L.x k
    else if x < y then rowDot L (j * nv + x) (j * nv + y)
    else rowDot L (j * nv + y) (j * nv + x) := by
  rw [sum_flatMap']
  have hA : ∀ a < nv, ((bdList L nv j a).map fun iv => if iv.1 = x * nv + y then iv.2 else 0).sum =
      (if a = x ∧ a = y then
        ∑ k ∈ Finset.Ico (L.p (j * nv + a)) (L.p (j * nv + a + 1)), L.x k * L.x k else 0) +
      ∑ b ∈ Finset.Ico (a + 1) nv,
        ((if a = x ∧ b = y then rowDot L (j * nv + a) (j * nv + b) else 0) +
         (if b = x ∧ a = y then rowDot L (j * nv + a) (j * nv + b) else 0)) := by
    intro a ha
    unfold bdList
    rw [List.map_cons, List.sum_cons, sum_flatMap', sum_loopRange]
    simp only [flat_eq ha hy]
    congr 1
    apply Finset.sum_congr rfl
    intro b hb
    rw [Finset.mem_Ico] at hb
    simp only [List.map_cons, List.map_nil, List.sum_cons, List.sum_nil, add_zero]
    rw [if_congr (flat_eq hb.2 hy) rfl rfl, if_congr (flat_eq ha hy) rfl rfl]
  rw [List.map_congr_left (fun a ha => hA a (List.mem_range.1 ha))]
  by_cases hxy : x = y
  · subst hxy
    rw [sum_range_single nv x hx]
    · rw [if_pos ⟨rfl, rfl⟩, if_pos rfl]
      refine (congrArg _ (Finset.sum_eq_zero ?_)).trans (add_zero _)
      intro b hb
      rw [Finset.mem_Ico] at hb
      rw [if_neg (by omega), if_neg (by omega), add_zero]
    · intro a _ hax
      rw [if_neg (by omega), zero_add]
      apply Finset.sum_eq_zero
      intro b _
      rw [if_neg (by omega), if_neg (by omega), add_zero]
  · rw [if_neg hxy]
    by_cases hlt : x < y
    · rw [if_pos hlt, sum_range_single nv x hx]
      · rw [if_neg (by omega), zero_add, Finset.sum_eq_single y]
        · rw [if_pos ⟨rfl, rfl⟩, if_neg (by omega), add_zero]
        · intro b hb hby
          rw [if_neg (by omega), if_neg (by omega), add_zero]
        · intro h; exact absurd (Finset.mem_Ico.2 ⟨by omega, hy⟩) h
      · intro a _ hax
        rw [if_neg (by omega), zero_add]
        apply Finset.sum_eq_zero
        intro b hb
        rw [Finset.mem_Ico] at hb
        rw [if_neg (by omega), if_neg (by omega), add_zero]
    · rw [if_neg hlt, sum_range_single nv y hy]
      · rw [if_neg (by omega), zero_add, Finset.sum_eq_single x]
        · rw [if_neg (by omega), if_pos ⟨rfl, rfl⟩, zero_add]
        · intro b hb hby
          rw [if_neg (by omega), if_neg (by omega), add_zero]
        · intro h; exact absurd (Finset.mem_Ico.2 ⟨by omega, hx⟩) h
      · intro a _ hax
        rw [if_neg (by omega), zero_add]
        apply Finset.sum_eq_zero
        intro b hb
        rw [Finset.mem_Ico] at hb
        rw [if_neg (by omega), if_neg (by omega), add_zero]

theorem blockDiag_eq (L : Csc R) (ng nv ncols : ℕ) (out : ℕ → R) (x y : ℕ) (hx : x < nv)
    (hy : y < nv) (hinc : ∀ r < ng * nv, IncOn L.i (L.p r) (L.p (r + 1)))
    (hcol : ∀ r < ng * nv, ∀ k, L.p r ≤ k → k < L.p (r + 1) → L.i k < ncols) :
    blockDiagSelfDot L ng nv out (x * nv + y) = ∑ j ∈ Finset.range ng,
      ∑ q ∈ Finset.range ncols, L.entry q (j * nv + x) * L.entry q (j * nv + y) := by
  rw [blockDiag_acc, accAll_eq, sum_flatMap', fold_store _ List.nodup_range, if_pos, zero_add]
  · have : ∀ f : ℕ → R, ((List.range ng).map f).sum = ∑ j ∈ Finset.range ng, f j := fun _ => rfl
    rw [this]
    apply Finset.sum_congr rfl
    intro j hj
    rw [Finset.mem_range] at hj
    rw [bd_sum L nv j x y hx hy]
    have hr : ∀ z < nv, j * nv + z < ng * nv := by
      intro z hz
      have : (j + 1) * nv ≤ ng * nv := Nat.mul_le_mul_right _ (by omega)
      rw [Nat.add_mul] at this; omega
    split
    · next h => subst h; exact selfDot_entry L _ ncols (hinc _ (hr x hx)) (hcol _ (hr x hx))
    · split
      · exact mergeDot_entry L _ _ ncols (hinc _ (hr x hx)) (hinc _ (hr y hy)) (hcol _ (hr x hx))
      · rw [rowDot, mergeDot_entry L _ _ ncols (hinc _ (hr y hy)) (hinc _ (hr x hx))
          (hcol _ (hr y hy))]
        exact Finset.sum_congr rfl fun q _ => mul_comm _ _
  · rw [List.mem_range]
    have : (x + 1) * nv ≤ nv * nv := Nat.mul_le_mul_right _ (by omega)
    rw [Nat.add_mul] at this; omega

/-! tile, repeat, dense product -/

theorem nested_store (m n : ℕ) (f : ℕ → ℕ → R) (out : ℕ → R) (k : ℕ) :
    (List.range m).foldl (fun out i =>
      (List.range n).foldl (fun out j => store out (i * n + j) (f i j)) out) out k =
      if k < m * n then f (k / n) (k % n) else out k := by
  rw [nested_fold (fun i j out => store out (i * n + j) (f i j))]
  simp only [Nat.div_add_mod']
  rw [fold_store _ List.nodup_range (fun c => f (c / n) (c % n))]
  simp only [List.mem_range]

end Verif.Sparse
