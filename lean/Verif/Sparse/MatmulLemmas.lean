import Verif.Sparse.AddLemmas
/-! Lemmas for `cs_matmul_inplace`. -/
namespace Verif.Sparse

variable {R : Type*} [CommRing R]

/-- Row/value pairs visited while column `j` of the product is built. -/
def prodList (A B : Csc R) (j : ℕ) : List (ℕ × R) :=
  (loopRange (B.p j) (B.p (j + 1))).flatMap fun i =>
    (loopRange (A.p (B.i i)) (A.p (B.i i + 1))).map fun k => (A.i k, B.x i * A.x k)

/-- Invariant of the accumulation of one column. -/
structure ColInv (j : ℕ) (s0 s : MM R) (P : List (ℕ × R)) : Prop where
  le : s0.nz ≤ s.nz
  frame : ∀ k < s0.nz, s.C.i k = s0.C.i k
  inj : ∀ k l, s0.nz ≤ k → k < s.nz → s0.nz ≤ l → l < s.nz → s.C.i k = s.C.i l → k = l
  rows : ∀ r, (∃ v, (r, v) ∈ P) ↔ ∃ k, s0.nz ≤ k ∧ k < s.nz ∧ s.C.i k = r
  win : ∀ r, (∃ v, (r, v) ∈ P) → s.w r = j
  wout : ∀ r, (¬ ∃ v, (r, v) ∈ P) → s.w r = s0.w r
  xin : ∀ r, (∃ v, (r, v) ∈ P) → s.x r = (P.map fun rv => if rv.1 = r then rv.2 else 0).sum
  cp : s.C.p = s0.C.p
  cx : s.C.x = s0.C.x

theorem sum_not_mem (P : List (ℕ × R)) (r : ℕ) (h : ¬ ∃ v, (r, v) ∈ P) :
    (P.map fun rv => if rv.1 = r then rv.2 else 0).sum = 0 := by
  induction P with
  | nil => simp
  | cons a P ih =>
    obtain ⟨a1, a2⟩ := a
    rw [List.map_cons, List.sum_cons, ih (fun ⟨v, hv⟩ => h ⟨v, by simp [hv]⟩), add_zero]
    have : a1 ≠ r := by rintro rfl; exact h ⟨a2, by simp⟩
    simp [this]

theorem colInv_add (j : ℕ) (s0 s : MM R) (P : List (ℕ × R)) (iv : ℕ × R)
    (hw : ∀ r, s0.w r < j) (h : ColInv j s0 s P) : ColInv j s0 (s.add j iv) (P ++ [iv]) := by
  obtain ⟨r0, v0⟩ := iv
  have memsnoc : ∀ r, (∃ v, (r, v) ∈ P ++ [(r0, v0)]) ↔ (∃ v, (r, v) ∈ P) ∨ r = r0 := by
    intro r
    constructor
    · rintro ⟨v, hv⟩
      rw [List.mem_append, List.mem_singleton] at hv
      rcases hv with hv | hv
      · exact Or.inl ⟨v, hv⟩
      · exact Or.inr (Prod.mk.inj hv).1
    · rintro (⟨v, hv⟩ | rfl)
      · exact ⟨v, by simp [hv]⟩
      · exact ⟨v0, by simp⟩
  by_cases hnew : ∃ v, (r0, v) ∈ P
  · have hwj : s.w r0 = j := h.win r0 hnew
    have e : s.add j (r0, v0) = { s with x := store s.x r0 (s.x r0 + v0) } := by
      unfold MM.add; rw [if_neg (by simp [hwj])]
    rw [e]
    have hs : ∀ r, (∃ v, (r, v) ∈ P ++ [(r0, v0)]) ↔ ∃ v, (r, v) ∈ P := by
      intro r; rw [memsnoc]
      exact ⟨fun h => h.elim id (fun h => by subst h; exact hnew), Or.inl⟩
    refine ⟨h.le, h.frame, h.inj, fun r => (hs r).trans (h.rows r),
      fun r hr => h.win r ((hs r).1 hr), fun r hr => h.wout r (fun h' => hr ((hs r).2 h')), ?_,
      h.cp, h.cx⟩
    intro r hr
    rw [hs] at hr
    rw [List.map_append, List.sum_append, ← h.xin r hr]
    by_cases hr0 : r = r0
    · subst hr0; simp
    · simp only; rw [store_ne _ _ _ _ hr0]; simp [Ne.symm hr0]
  · have hwj : s.w r0 < j := by rw [h.wout r0 hnew]; exact hw r0
    have e : s.add j (r0, v0) =
        { w := store s.w r0 j, x := store s.x r0 v0,
          C := { s.C with i := store s.C.i s.nz r0 }, nz := s.nz + 1 } := by
      unfold MM.add; rw [if_pos hwj]
    rw [e]
    have hle := h.le
    have hno : ∀ k, s0.nz ≤ k → k < s.nz → s.C.i k ≠ r0 := by
      intro k h1 h2 h3
      exact hnew ((h.rows r0).2 ⟨k, h1, h2, h3⟩)
    refine ⟨by simp only; omega, ?_, ?_, ?_, ?_, ?_, ?_, h.cp, h.cx⟩
    · intro k hk
      simp only
      rw [store_ne _ _ _ _ (by omega)]
      exact h.frame k hk
    · intro k l hk1 hk2 hl1 hl2 hkl
      simp only at hk2 hl2 hkl
      by_cases hk : k = s.nz <;> by_cases hl : l = s.nz
      · omega
      · subst hk
        rw [store_same, store_ne _ _ _ _ hl] at hkl
        exact absurd hkl.symm (hno l hl1 (by omega))
      · subst hl
        rw [store_same, store_ne _ _ _ _ hk] at hkl
        exact absurd hkl (hno k hk1 (by omega))
      · rw [store_ne _ _ _ _ hk, store_ne _ _ _ _ hl] at hkl
        exact h.inj k l hk1 (by omega) hl1 (by omega) hkl
    · intro r
      rw [memsnoc, h.rows]
      simp only
      constructor
      · rintro (⟨k, h1, h2, h3⟩ | rfl)
        · exact ⟨k, h1, by omega, by rw [store_ne _ _ _ _ (by omega)]; exact h3⟩
        · exact ⟨s.nz, hle, by omega, by simp⟩
      · rintro ⟨k, h1, h2, h3⟩
        by_cases hk : k = s.nz
        · subst hk; rw [store_same] at h3; exact Or.inr h3.symm
        · rw [store_ne _ _ _ _ hk] at h3
          exact Or.inl ⟨k, h1, by omega, h3⟩
    · intro r hr
      rw [memsnoc] at hr
      simp only
      by_cases hr0 : r = r0
      · subst hr0; simp
      · rw [store_ne _ _ _ _ hr0]
        exact h.win r (hr.resolve_right hr0)
    · intro r hr
      rw [memsnoc, not_or] at hr
      simp only
      rw [store_ne _ _ _ _ hr.2]
      exact h.wout r hr.1
    · intro r hr
      rw [memsnoc] at hr
      simp only
      rw [List.map_append, List.sum_append]
      by_cases hr0 : r = r0
      · subst hr0; rw [store_same, sum_not_mem P r hnew]; simp
      · rw [store_ne _ _ _ _ hr0, h.xin r (hr.resolve_right hr0)]
        simp [Ne.symm hr0]

theorem colInv_all (j : ℕ) (s0 : MM R) (hw : ∀ r, s0.w r < j) (P : List (ℕ × R)) :
    ColInv j s0 (P.foldl (fun s iv => s.add j iv) s0) P := by
  induction P using List.reverseRecOn with
  | nil =>
    exact ⟨le_rfl, fun _ _ => rfl, fun k l h1 h2 => absurd h2 (by simp only [List.foldl_nil]; omega),
      fun r => ⟨fun ⟨v, hv⟩ => by simp at hv, fun ⟨k, h1, h2, _⟩ =>
        absurd h2 (by simp only [List.foldl_nil]; omega)⟩,
      fun r ⟨v, hv⟩ => by simp at hv, fun _ _ => rfl, fun r ⟨v, hv⟩ => by simp at hv, rfl, rfl⟩
  | append_singleton P iv ih =>
    rw [List.foldl_append]
    exact colInv_add j s0 _ P iv hw ih

theorem fold_store (l : List ℕ) (hl : l.Nodup) (f : ℕ → R) (Cx : ℕ → R) (k : ℕ) :
    (l.foldl (fun Cx i => store Cx i (f i)) Cx) k = if k ∈ l then f k else Cx k := by
  induction l generalizing Cx with
  | nil => simp
  | cons a l ih =>
    rw [List.nodup_cons] at hl
    rw [List.foldl_cons, ih hl.2]
    by_cases h : k ∈ l
    · simp [h]
    · by_cases hk : k = a
      · subst hk; simp [h]
      · rw [if_neg h, store_ne _ _ _ _ hk]; simp [h, hk]

/-- The matrix stored after `m` columns. -/
def mmState (A B : Csc R) (m : ℕ) (C : Csc R) : MM R :=
  (List.range m).foldl (MM.col A B) { w := fun _ => -1, x := fun _ => 0, C := C, nz := 0 }

theorem mmState_succ (A B : Csc R) (m : ℕ) (C : Csc R) :
    mmState A B (m + 1) C = MM.col A B (mmState A B m C) m := by
  simp [mmState, List.range_succ]

theorem csMatmul_eq (A B : Csc R) (m : ℕ) (C : Csc R) :
    csMatmul A B m C = Csc.mk (store (mmState A B m C).C.p m (mmState A B m C).nz)
      (mmState A B m C).C.i (mmState A B m C).C.x := rfl

theorem mmcol_eq (A B : Csc R) (s : MM R) (j : ℕ) :
    let s1 : MM R := { s with C := { s.C with p := store s.C.p j s.nz } }
    let s2 := (prodList A B j).foldl (fun s iv => s.add j iv) s1
    MM.col A B s j = MM.mk s2.w s2.x (Csc.mk s2.C.p s2.C.i
      ((loopRange (s2.C.p j) s2.nz).foldl (fun Cx i => store Cx i (s2.x (s2.C.i i))) s2.C.x))
      s2.nz := by
  unfold MM.col prodList
  simp only [List.foldl_flatMap, List.foldl_map]

/-- What holds after `m` columns. -/
structure MMInv (A B : Csc R) (m : ℕ) (s : MM R) (C : Csc R) : Prop where
  w : ∀ r, s.w r < m
  last : C.p m = s.nz
  zero : C.p 0 = 0
  mono : ∀ c < m, C.p c ≤ C.p (c + 1)
  nodup : ∀ c < m, ∀ k l, C.p c ≤ k → k < C.p (c + 1) → C.p c ≤ l → l < C.p (c + 1) →
    C.i k = C.i l → k = l
  stored : ∀ c < m, ∀ r, (∃ v, (r, v) ∈ prodList A B c) ↔ C.Stored r c
  entry : ∀ c < m, ∀ r, C.entry r c =
    ((prodList A B c).map fun rv => if rv.1 = r then rv.2 else 0).sum

theorem mmInv (A B : Csc R) (C : Csc R) (m : ℕ) :
    MMInv A B m (mmState A B m C) (csMatmul A B m C) := by
  induction m with
  | zero =>
    refine ⟨fun r => by simp [mmState], by rw [csMatmul_eq]; simp, ?_, fun c hc => by omega,
      fun c hc => by omega, fun c hc => by omega, fun c hc => by omega⟩
    rw [csMatmul_eq]; simp [mmState]
  | succ m ih =>
    have hcm := csMatmul_eq A B m C
    have hcm1 := csMatmul_eq A B (m + 1) C
    rw [mmState_succ] at hcm1 ⊢
    set s := mmState A B m C with hs
    have hcol := mmcol_eq A B s m
    simp only at hcol
    set s1 : MM R := { s with C := { s.C with p := store s.C.p m s.nz } } with hs1
    have inv := colInv_all m s1 (by intro r; exact ih.w r) (prodList A B m)
    set s2 := (prodList A B m).foldl (fun s iv => s.add m iv) s1 with hs2
    have hpm : s2.C.p m = s.nz := by rw [inv.cp, hs1]; simp
    have hs1C : s1.C = csMatmul A B m C := by rw [hcm]
    have hs1nz : s1.nz = s.nz := rfl
    -- the fields of the new matrix
    set D := csMatmul A B (m + 1) C with hD
    have hDp : ∀ c ≤ m, D.p c = (csMatmul A B m C).p c := by
      intro c hc
      rw [hcm1, hcol]
      simp only
      rw [store_ne _ _ _ _ (by omega), inv.cp, hs1C]
    have hDp1 : D.p (m + 1) = s2.nz := by
      rw [hcm1, hcol]; simp
    have hDi : D.i = s2.C.i := by rw [hcm1, hcol]
    have hDx : ∀ k, D.x k = if s.nz ≤ k ∧ k < s2.nz then s2.x (s2.C.i k) else s1.C.x k := by
      intro k
      rw [hcm1, hcol]
      simp only
      rw [fold_store _ (nodup_loopRange _ _), hpm, inv.cx]
      simp only [mem_loopRange]
    have hlast := ih.last
    have hle := inv.le
    rw [hs1nz] at hle
    have pmle : ∀ c ≤ m, (csMatmul A B m C).p c ≤ s.nz := by
      intro c hc
      rw [← hlast]
      exact mono_le ih.mono hc le_rfl
    have old_i : ∀ k < s.nz, D.i k = (csMatmul A B m C).i k := by
      intro k hk
      rw [hDi, inv.frame k hk, hs1C]
    have old_x : ∀ k < s.nz, D.x k = (csMatmul A B m C).x k := by
      intro k hk
      rw [hDx, if_neg (by omega), hs1C]
    refine ⟨?_, ?_, ?_, ?_, ?_, ?_, ?_⟩
    · intro r
      rw [hcol]
      simp only
      by_cases hr : ∃ v, (r, v) ∈ prodList A B m
      · rw [inv.win r hr]; push_cast; omega
      · rw [inv.wout r hr]
        have := ih.w r
        have e : s1.w r = s.w r := rfl
        rw [e]; push_cast; omega
    · rw [hDp1, hcol]
    · rw [hDp 0 (by omega)]; exact ih.zero
    · intro c hc
      by_cases h : c = m
      · subst h; rw [hDp1, hDp _ le_rfl, hlast]; exact hle
      · rw [hDp c (by omega), hDp (c + 1) (by omega)]; exact ih.mono c (by omega)
    · intro c hc k l hk1 hk2 hl1 hl2 hkl
      by_cases h : c = m
      · subst h
        rw [hDp1] at hk2 hl2
        rw [hDp _ le_rfl, hlast] at hk1 hl1
        rw [hDi] at hkl
        exact inv.inj k l hk1 hk2 hl1 hl2 hkl
      · have := pmle (c + 1) (by omega)
        rw [hDp c (by omega)] at hk1 hl1
        rw [hDp (c + 1) (by omega)] at hk2 hl2
        rw [old_i k (by omega), old_i l (by omega)] at hkl
        exact ih.nodup c (by omega) k l hk1 hk2 hl1 hl2 hkl
    · intro c hc r
      by_cases h : c = m
      · subst h
        rw [inv.rows, Csc.Stored, hDp1, hDp _ le_rfl, hlast, hDi]
      · rw [ih.stored c (by omega)]
        have := pmle (c + 1) (by omega)
        unfold Csc.Stored
        rw [hDp c (by omega), hDp (c + 1) (by omega)]
        constructor
        · rintro ⟨k, h1, h2, h3⟩; exact ⟨k, h1, h2, by rw [old_i k (by omega)]; exact h3⟩
        · rintro ⟨k, h1, h2, h3⟩; exact ⟨k, h1, h2, by rw [old_i k (by omega)] at h3; exact h3⟩
    · intro c hc r
      by_cases h : c = m
      · subst h
        unfold Csc.entry
        rw [hDp1, hDp _ le_rfl, hlast, hDi]
        by_cases hr : ∃ v, (r, v) ∈ prodList A B c
        · obtain ⟨k, h1, h2, h3⟩ := (inv.rows r).1 hr
          rw [Finset.sum_eq_single k, if_pos h3, hDx, if_pos ⟨h1, h2⟩, h3, inv.xin r hr]
          · intro l hl hlk
            rw [Finset.mem_Ico] at hl
            rw [if_neg]
            intro h4
            exact hlk (inv.inj l k hl.1 hl.2 h1 h2 (h4.trans h3.symm))
          · intro hk; exact absurd (Finset.mem_Ico.2 ⟨h1, h2⟩) hk
        · rw [sum_not_mem _ _ hr]
          apply Finset.sum_eq_zero
          intro k hk
          rw [Finset.mem_Ico] at hk
          rw [if_neg]
          intro h3
          exact hr ((inv.rows r).2 ⟨k, hk.1, hk.2, h3⟩)
      · rw [← ih.entry c (by omega) r]
        unfold Csc.entry
        rw [hDp c (by omega), hDp (c + 1) (by omega)]
        apply Finset.sum_congr rfl
        intro k hk
        rw [Finset.mem_Ico] at hk
        have := pmle (c + 1) (by omega)
        rw [old_i k (by omega), old_x k (by omega)]

theorem prodList_sum (A B : Csc R) (j r Anc : ℕ)
    (hB : ∀ k, B.p j ≤ k → k < B.p (j + 1) → B.i k < Anc) :
    ((prodList A B j).map fun rv => if rv.1 = r then rv.2 else 0).sum =
      ∑ m ∈ Finset.range Anc, A.entry r m * B.entry m j := by
  unfold prodList
  rw [sum_flatMap']
  have h1 : ∀ i, (((loopRange (A.p (B.i i)) (A.p (B.i i + 1))).map
      fun k => (A.i k, B.x i * A.x k)).map fun rv => if rv.1 = r then rv.2 else 0).sum =
      B.x i * A.entry r (B.i i) := by
    intro i
    rw [List.map_map]
    have : ((loopRange (A.p (B.i i)) (A.p (B.i i + 1))).map
      ((fun rv : ℕ × R => if rv.1 = r then rv.2 else 0) ∘ fun k => (A.i k, B.x i * A.x k))).sum
      = ∑ k ∈ Finset.Ico (A.p (B.i i)) (A.p (B.i i + 1)),
          (if A.i k = r then B.x i * A.x k else 0) := rfl
    rw [this, Csc.entry, Finset.mul_sum]
    exact Finset.sum_congr rfl fun k _ => by rw [mul_ite, mul_zero]
  simp only [h1]
  rw [sum_loopRange]
  unfold Csc.entry
  simp only [Finset.mul_sum]
  rw [Finset.sum_comm]
  apply Finset.sum_congr rfl
  intro k hk
  rw [Finset.mem_Ico] at hk
  simp only [mul_ite, mul_zero]
  rw [Finset.sum_ite_eq, if_pos (Finset.mem_range.2 (hB k hk.1 hk.2)), Finset.sum_mul]
  exact Finset.sum_congr rfl fun x _ => by rw [ite_mul, zero_mul, mul_comm]

end Verif.Sparse
