import Verif.Sparse.KronLemmas
/-! Lemmas for `coo_to_csc`. -/
namespace Verif.Sparse

variable {R : Type*}

/-- Number of the first `n` triplets lying in column `c`. -/
def cntCol (Aj : ℕ → ℕ) (n c : ℕ) : ℕ := ((List.range n).filter fun k => Aj k = c).length

/-- Start of column `c`. -/
def startCol (Aj : ℕ → ℕ) (nz c : ℕ) : ℕ := ∑ c' ∈ Finset.range c, cntCol Aj nz c'

/-- The triplets of column `c` among the first `n`, in input order. -/
def triplesCol (Ai Aj : ℕ → ℕ) (Ax : ℕ → R) (n c : ℕ) : List (ℕ × R) :=
  ((List.range n).filter fun k => Aj k = c).map fun k => (Ai k, Ax k)

theorem triplesCol_length (Ai Aj : ℕ → ℕ) (Ax : ℕ → R) (n c : ℕ) :
    (triplesCol Ai Aj Ax n c).length = cntCol Aj n c := by
  simp [triplesCol, cntCol]

theorem cntCol_succ (Aj : ℕ → ℕ) (n c : ℕ) :
    cntCol Aj (n + 1) c = cntCol Aj n c + if Aj n = c then 1 else 0 := by
  unfold cntCol
  rw [List.range_succ, List.filter_append, List.length_append]
  by_cases h : Aj n = c <;> simp [h]

theorem triplesCol_succ (Ai Aj : ℕ → ℕ) (Ax : ℕ → R) (n c : ℕ) :
    triplesCol Ai Aj Ax (n + 1) c =
      triplesCol Ai Aj Ax n c ++ if Aj n = c then [(Ai n, Ax n)] else [] := by
  unfold triplesCol
  rw [List.range_succ, List.filter_append, List.map_append]
  by_cases h : Aj n = c <;> simp [h]

theorem countCols_eq (Aj : ℕ → ℕ) (nz c : ℕ) : countCols Aj nz (fun _ => 0) c = cntCol Aj nz c := by
  induction nz with
  | zero => simp [countCols, cntCol]
  | succ n ih =>
    have e : countCols Aj (n + 1) (fun _ => 0) =
        store (countCols Aj n (fun _ => 0)) (Aj n) (countCols Aj n (fun _ => 0) (Aj n) + 1) := by
      simp [countCols, List.range_succ]
    rw [e, cntCol_succ]
    by_cases h : Aj n = c
    · subst h; simp [ih]
    · rw [store_ne _ _ _ _ (Ne.symm h), ih]; simp [h]

theorem cum_fold (Bp : ℕ → ℕ) (m : ℕ) :
    let st := (List.range m).foldl
      (fun (st : (ℕ → ℕ) × ℕ) j => (store st.1 j st.2, st.2 + st.1 j)) (Bp, 0)
    st.2 = ∑ k ∈ Finset.range m, Bp k ∧
    ∀ j, st.1 j = if j < m then ∑ k ∈ Finset.range j, Bp k else Bp j := by
  induction m with
  | zero => simp
  | succ m ih =>
    simp only [List.range_succ, List.foldl_append, List.foldl_cons, List.foldl_nil] at ih ⊢
    obtain ⟨h2, h1⟩ := ih
    refine ⟨?_, ?_⟩
    · rw [h2, h1, if_neg (by omega), Finset.sum_range_succ]
    · intro j
      by_cases hj : j = m
      · subst hj; rw [store_same, h2, if_pos (by omega)]
      · rw [store_ne _ _ _ _ hj, h1]
        by_cases h : j < m
        · rw [if_pos h, if_pos (by omega)]
        · rw [if_neg h, if_neg (by omega)]

theorem cumCols_eq (Bp : ℕ → ℕ) (nc j : ℕ) (hj : j ≤ nc) :
    cumCols nc Bp j = ∑ k ∈ Finset.range j, Bp k := by
  obtain ⟨h2, h1⟩ := cum_fold Bp nc
  unfold cumCols
  by_cases h : j = nc
  · subst h; rw [store_same, h2]
  · rw [store_ne _ _ _ _ h, h1, if_pos (by omega)]

theorem shiftCols_eq (Bp : ℕ → ℕ) (nc j : ℕ) (hj : j ≤ nc) :
    shiftCols nc Bp j = if j = 0 then 0 else Bp (j - 1) := by
  have key : ∀ m, let st := ((List.range m).foldl
      (fun (st : (ℕ → ℕ) × ℕ) j => (store st.1 j st.2, st.1 j)) (Bp, 0));
      st.2 = (if m = 0 then 0 else Bp (m - 1)) ∧
      ∀ j, st.1 j = if j < m then (if j = 0 then 0 else Bp (j - 1)) else Bp j := by
    intro m
    induction m with
    | zero => simp
    | succ m ih =>
      simp only [List.range_succ, List.foldl_append, List.foldl_cons, List.foldl_nil] at ih ⊢
      obtain ⟨h2, h1⟩ := ih
      refine ⟨?_, ?_⟩
      · rw [h1, if_neg (by omega)]; simp
      · intro j
        by_cases hj : j = m
        · subst hj; rw [store_same, h2, if_pos (show j < j + 1 by omega)]
        · rw [store_ne _ _ _ _ hj, h1]
          by_cases h : j < m
          · rw [if_pos h, if_pos (show j < m + 1 by omega)]
          · rw [if_neg h, if_neg (by omega)]
  obtain ⟨_, h⟩ := key (nc + 1)
  unfold shiftCols
  rw [h, if_pos (by omega)]

theorem startCol_succ (Aj : ℕ → ℕ) (nz c : ℕ) :
    startCol Aj nz (c + 1) = startCol Aj nz c + cntCol Aj nz c := Finset.sum_range_succ _ _

theorem startCol_mono (Aj : ℕ → ℕ) (nz : ℕ) {a b : ℕ} (h : a ≤ b) :
    startCol Aj nz a ≤ startCol Aj nz b := by
  induction b with
  | zero => have : a = 0 := by omega
            subst this; exact le_rfl
  | succ b ih =>
    rw [startCol_succ]
    by_cases hb : a ≤ b
    · have := ih hb; omega
    · have : a = b + 1 := by omega
      subst this; rw [startCol_succ]

theorem cntCol_mono (Aj : ℕ → ℕ) (c : ℕ) {a b : ℕ} (h : a ≤ b) : cntCol Aj a c ≤ cntCol Aj b c := by
  induction b with
  | zero => have : a = 0 := by omega
            subst this; exact le_rfl
  | succ b ih =>
    rw [cntCol_succ]
    by_cases hb : a ≤ b
    · have := ih hb; omega
    · have : a = b + 1 := by omega
      subst this; rw [cntCol_succ]

theorem startCol_total (Aj : ℕ → ℕ) (nz nc : ℕ) (h : ∀ k < nz, Aj k < nc) :
    startCol Aj nz nc = nz := by
  unfold startCol
  induction nz with
  | zero => simp [cntCol]
  | succ n ih =>
    simp only [cntCol_succ]
    rw [Finset.sum_add_distrib, ih (fun k hk => h k (by omega)), Finset.sum_ite_eq]
    simp [h n (by omega)]

theorem placeCols_spec (Ai Aj : ℕ → ℕ) (Ax : ℕ → R) (nz nc : ℕ) (B : Csc R)
    (hj : ∀ k < nz, Aj k < nc) (hp : ∀ c < nc, B.p c = startCol Aj nz c) (n : ℕ) (hn : n ≤ nz) :
    (∀ c < nc, (placeCols Ai Aj Ax n B).p c = startCol Aj nz c + cntCol Aj n c) ∧
    ∀ c < nc, ∀ t, ∀ h : t < (triplesCol Ai Aj Ax n c).length,
      (placeCols Ai Aj Ax n B).i (startCol Aj nz c + t) = ((triplesCol Ai Aj Ax n c)[t]).1 ∧
      (placeCols Ai Aj Ax n B).x (startCol Aj nz c + t) = ((triplesCol Ai Aj Ax n c)[t]).2 := by
  induction n with
  | zero => exact ⟨fun c hc => by simpa [placeCols, cntCol] using hp c hc,
      fun c _ t h => by simp [triplesCol] at h⟩
  | succ n ih =>
    obtain ⟨ih1, ih2⟩ := ih (by omega)
    have hc0 := hj n (by omega)
    have e : placeCols Ai Aj Ax (n + 1) B =
        { i := store (placeCols Ai Aj Ax n B).i ((placeCols Ai Aj Ax n B).p (Aj n)) (Ai n),
          x := store (placeCols Ai Aj Ax n B).x ((placeCols Ai Aj Ax n B).p (Aj n)) (Ax n),
          p := store (placeCols Ai Aj Ax n B).p (Aj n)
            ((placeCols Ai Aj Ax n B).p (Aj n) + 1) } := by
      simp [placeCols, List.range_succ]
    rw [e]
    refine ⟨?_, ?_⟩
    · intro c hc
      simp only [cntCol_succ]
      by_cases h : c = Aj n
      · subst h; rw [store_same, ih1 _ hc]; simp; omega
      · rw [store_ne _ _ _ _ h, ih1 _ hc, if_neg (Ne.symm h), Nat.add_zero]
    · intro c hc t ht
      simp only
      rw [ih1 _ hc0]
      have hlen := triplesCol_length Ai Aj Ax n c
      have hlen1 := triplesCol_length Ai Aj Ax (n + 1) c
      have hb : cntCol Aj (n + 1) c ≤ cntCol Aj nz c := cntCol_mono Aj c (by omega)
      by_cases hnew : c = Aj n ∧ t = cntCol Aj n c
      · obtain ⟨h1, h2⟩ := hnew
        subst h1 h2
        simp only [store_same]
        have hs : triplesCol Ai Aj Ax (n + 1) (Aj n) =
            triplesCol Ai Aj Ax n (Aj n) ++ [(Ai n, Ax n)] := by
          rw [triplesCol_succ]; simp
        have : (triplesCol Ai Aj Ax (n + 1) (Aj n))[cntCol Aj n (Aj n)] = (Ai n, Ax n) := by
          simp only [hs]
          rw [List.getElem_append_right (by omega)]
          simp
        rw [this]; exact ⟨rfl, rfl⟩
      · have hne : startCol Aj nz c + t ≠ startCol Aj nz (Aj n) + cntCol Aj n (Aj n) := by
          by_cases hc1 : c = Aj n
          · subst hc1
            intro h; exact hnew ⟨rfl, by omega⟩
          · have hb2 : cntCol Aj (n + 1) (Aj n) ≤ cntCol Aj nz (Aj n) := cntCol_mono Aj _ (by omega)
            rw [cntCol_succ, if_pos rfl] at hb2
            rcases Nat.lt_or_gt_of_ne hc1 with hlt | hgt
            · have := startCol_mono Aj nz (show c + 1 ≤ Aj n by omega)
              rw [startCol_succ] at this; omega
            · have := startCol_mono Aj nz (show Aj n + 1 ≤ c by omega)
              rw [startCol_succ] at this; omega
        rw [store_ne _ _ _ _ hne, store_ne _ _ _ _ hne]
        have ht' : t < (triplesCol Ai Aj Ax n c).length := by
          rw [hlen]; rw [hlen1, cntCol_succ] at ht
          by_cases hc1 : Aj n = c
          · rw [if_pos hc1] at ht
            have : t ≠ cntCol Aj n c := fun h => hnew ⟨hc1.symm, h⟩
            omega
          · rw [if_neg hc1] at ht; omega
        have : (triplesCol Ai Aj Ax (n + 1) c)[t] = (triplesCol Ai Aj Ax n c)[t] := by
          simp only [triplesCol_succ Ai Aj Ax n c]
          rw [List.getElem_append_left ht']
        rw [this]
        exact ih2 c hc t ht'

section
variable [Zero R]

theorem cooToCsc_p (nc nz : ℕ) (Ai Aj : ℕ → ℕ) (Ax : ℕ → R) (hj : ∀ k < nz, Aj k < nc)
    (c : ℕ) (hc : c ≤ nc) : (cooToCsc nc nz Ai Aj Ax).p c = startCol Aj nz c := by
  unfold cooToCsc
  simp only
  rw [shiftCols_eq _ _ _ hc]
  rcases c with _ | c
  · simp [startCol]
  · rw [if_neg (by omega)]
    simp only [Nat.add_sub_cancel]
    have := (placeCols_spec Ai Aj Ax nz nc
      { p := cumCols nc (countCols Aj nz fun _ => 0), i := fun _ => 0, x := fun _ => 0 } hj
      (by intro c hc
          simp only
          rw [cumCols_eq _ _ _ (by omega)]
          exact Finset.sum_congr rfl fun k _ => countCols_eq Aj nz k) nz le_rfl).1 c (by omega)
    rw [this, startCol_succ]

theorem cooToCsc_colList (nc nz : ℕ) (Ai Aj : ℕ → ℕ) (Ax : ℕ → R) (hj : ∀ k < nz, Aj k < nc)
    (c : ℕ) (hc : c < nc) :
    (cooToCsc nc nz Ai Aj Ax).colList c = triplesCol Ai Aj Ax nz c := by
  have hp := cooToCsc_p nc nz Ai Aj Ax hj
  unfold Csc.colList
  rw [hp c (by omega), hp (c + 1) (by omega), startCol_succ, loopRange, Nat.add_sub_cancel_left]
  have hspec := (placeCols_spec Ai Aj Ax nz nc
      { p := cumCols nc (countCols Aj nz fun _ => 0), i := fun _ => 0, x := fun _ => 0 } hj
      (by intro c hc
          simp only
          rw [cumCols_eq _ _ _ (by omega)]
          exact Finset.sum_congr rfl fun k _ => countCols_eq Aj nz k) nz le_rfl).2 c hc
  apply List.ext_getElem
  · simp [triplesCol_length]
  · intro t h1 h2
    simp only [List.getElem_map, List.getElem_range', Nat.one_mul]
    obtain ⟨a, b⟩ := hspec t h2
    exact Prod.ext a b
end

theorem triplesCol_sum [AddCommMonoid R] (Ai Aj : ℕ → ℕ) (Ax : ℕ → R) (n c r : ℕ) :
    ((triplesCol Ai Aj Ax n c).map fun rv => if rv.1 = r then rv.2 else 0).sum =
      ∑ k ∈ Finset.range n, if Ai k = r ∧ Aj k = c then Ax k else 0 := by
  induction n with
  | zero => simp [triplesCol]
  | succ n ih =>
    rw [triplesCol_succ, List.map_append, List.sum_append, ih, Finset.sum_range_succ]
    congr 1
    by_cases h1 : Aj n = c <;> by_cases h2 : Ai n = r <;> simp [h1, h2]

end Verif.Sparse
