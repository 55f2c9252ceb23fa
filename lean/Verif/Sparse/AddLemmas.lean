import Verif.Sparse.KronLemmas
/-! Lemmas for `cs_add`. -/
namespace Verif.Sparse

variable {R : Type*} [CommRing R]

theorem scatter_list (Mi : ℕ → ℕ) (Mx : ℕ → R) (alpha : R) (l : List ℕ) (x : ℕ → R) (r : ℕ) :
    (l.foldl (fun x p => store x (Mi p) (x (Mi p) + alpha * Mx p)) x) r =
      x r + alpha * (l.map fun p => if Mi p = r then Mx p else 0).sum := by
  induction l generalizing x with
  | nil => simp
  | cons a l ih =>
    simp only [List.foldl_cons, List.map_cons, List.sum_cons]
    rw [ih]
    by_cases h : Mi a = r
    · subst h; simp; ring
    · rw [store_ne _ _ _ _ (Ne.symm h)]; simp [h]

theorem scatterCol_eq (M : Csc R) (alpha : R) (j : ℕ) (x : ℕ → R) (r : ℕ) :
    scatterCol M alpha j x r = x r + alpha * M.entry r j := by
  unfold scatterCol
  rw [scatter_list, sum_loopRange]
  rfl

/-- The gather loop over any list of positions. -/
def gatherList (Ci : ℕ → ℕ) (l : List ℕ) (st : (ℕ → R) × (ℕ → R)) : (ℕ → R) × (ℕ → R) :=
  l.foldl (fun st p => (store st.1 p (st.2 (Ci p)), store st.2 (Ci p) 0)) st

theorem gather_frame (Ci : ℕ → ℕ) (l : List ℕ) (st : (ℕ → R) × (ℕ → R)) (q : ℕ) (hq : q ∉ l) :
    (gatherList Ci l st).1 q = st.1 q := by
  induction l generalizing st with
  | nil => rfl
  | cons a l ih =>
    rw [List.mem_cons, not_or] at hq
    show (gatherList Ci l _).1 q = _
    rw [ih _ hq.2]
    exact store_ne _ _ _ _ hq.1

theorem gather_x (Ci : ℕ → ℕ) (l : List ℕ) (st : (ℕ → R) × (ℕ → R)) (r : ℕ) :
    (gatherList Ci l st).2 r = if ∃ p ∈ l, Ci p = r then 0 else st.2 r := by
  induction l generalizing st with
  | nil => simp [gatherList]
  | cons a l ih =>
    show (gatherList Ci l _).2 r = _
    rw [ih]
    by_cases h : Ci a = r
    · subst h; simp
    · by_cases h2 : ∃ p ∈ l, Ci p = r
      · rw [if_pos h2, if_pos (by obtain ⟨p, hp, e⟩ := h2; exact ⟨p, by simp [hp], e⟩)]
      · rw [if_neg h2, if_neg (by
          rintro ⟨p, hp, e⟩
          rcases List.mem_cons.1 hp with rfl | hp
          · exact h e
          · exact h2 ⟨p, hp, e⟩)]
        exact store_ne _ _ _ _ (Ne.symm h)

theorem gather_sum (Ci : ℕ → ℕ) (l : List ℕ) (hl : l.Nodup) (st : (ℕ → R) × (ℕ → R)) (r : ℕ) :
    (l.map fun p => if Ci p = r then (gatherList Ci l st).1 p else 0).sum =
      if ∃ p ∈ l, Ci p = r then st.2 r else 0 := by
  induction l generalizing st with
  | nil => simp
  | cons a l ih =>
    rw [List.nodup_cons] at hl
    have e : gatherList Ci (a :: l) st =
        gatherList Ci l (store st.1 a (st.2 (Ci a)), store st.2 (Ci a) 0) := rfl
    rw [e]
    simp only [List.map_cons, List.sum_cons]
    rw [ih hl.2, gather_frame _ _ _ _ hl.1]
    simp only [store_same]
    by_cases h : Ci a = r
    · subst h; simp
    · rw [if_neg h, zero_add, store_ne _ _ _ _ (Ne.symm h)]
      simp [h]

theorem gatherCol_list (Cp Ci : ℕ → ℕ) (j : ℕ) (st : (ℕ → R) × (ℕ → R)) :
    gatherCol Cp Ci j st = gatherList Ci (loopRange (Cp j) (Cp (j + 1))) st := rfl

theorem mem_loopRange {lo hi k : ℕ} : k ∈ loopRange lo hi ↔ lo ≤ k ∧ k < hi := by
  rw [loopRange, List.mem_range'_1]; omega

theorem nodup_loopRange (lo hi : ℕ) : (loopRange lo hi).Nodup := List.nodup_range'

/-- Row `r` is stored in column `j`. -/
def Csc.Stored (M : Csc R) (r j : ℕ) : Prop := ∃ k, M.p j ≤ k ∧ k < M.p (j + 1) ∧ M.i k = r

omit [CommRing R] in
theorem stored_iff (M : Csc R) (r j : ℕ) :
    (∃ k ∈ loopRange (M.p j) (M.p (j + 1)), M.i k = r) ↔ M.Stored r j := by
  simp only [mem_loopRange, Csc.Stored, and_assoc]

/-- One column of `cs_add`. -/
def addCol (A B : Csc R) (alpha beta : R) (C : Csc R) (st : (ℕ → R) × (ℕ → R)) (j : ℕ) :
    (ℕ → R) × (ℕ → R) :=
  gatherCol C.p C.i j (st.1, scatterCol B beta j (scatterCol A alpha j st.2))

theorem mono_le {f : ℕ → ℕ} {n : ℕ} (h : ∀ c < n, f c ≤ f (c + 1)) {a b : ℕ} (hab : a ≤ b)
    (hb : b ≤ n) : f a ≤ f b := by
  induction b with
  | zero => have : a = 0 := by omega
            subst this; exact le_rfl
  | succ b ih =>
    by_cases h1 : a ≤ b
    · exact (ih h1 (by omega)).trans (h b (by omega))
    · have : a = b + 1 := by omega
      subst this; exact le_rfl

theorem csAdd_inv (A B : Csc R) (alpha beta : R) (C : Csc R) (nc : ℕ)
    (hmono : ∀ c < nc, C.p c ≤ C.p (c + 1))
    (hcov : ∀ r, ∀ c < nc, ¬ C.Stored r c → alpha * A.entry r c + beta * B.entry r c = 0)
    (m : ℕ) (hm : m ≤ nc) :
    let st := (List.range m).foldl (addCol A B alpha beta C) (C.x, fun _ => 0)
    (∀ r, st.2 r = 0) ∧
    (∀ k, C.p m ≤ k → st.1 k = C.x k) ∧
    ∀ c < m, ∀ r, ((loopRange (C.p c) (C.p (c + 1))).map
      fun k => if C.i k = r then st.1 k else 0).sum = alpha * A.entry r c + beta * B.entry r c := by
  induction m with
  | zero => simp
  | succ m ih =>
    obtain ⟨h1, h2, h3⟩ := ih (by omega)
    simp only [List.range_succ, List.foldl_append, List.foldl_cons, List.foldl_nil]
    set st := (List.range m).foldl (addCol A B alpha beta C) (C.x, fun _ => 0) with hst
    have hx : ∀ r, scatterCol B beta m (scatterCol A alpha m st.2) r =
        alpha * A.entry r m + beta * B.entry r m := by
      intro r
      rw [scatterCol_eq, scatterCol_eq, h1, zero_add]
    unfold addCol
    rw [gatherCol_list]
    refine ⟨?_, ?_, ?_⟩
    · intro r
      rw [gather_x]
      by_cases h : C.Stored r m
      · rw [if_pos ((stored_iff C r m).2 h)]
      · rw [if_neg (fun h' => h ((stored_iff C r m).1 h'))]; simp only; rw [hx, hcov r m (by omega) h]
    · intro k hk
      rw [gather_frame _ _ _ _ (by rw [mem_loopRange]; omega)]
      exact h2 k (le_trans (hmono m (by omega)) hk)
    · intro c hc r
      by_cases hcm : c = m
      · subst hcm
        rw [gather_sum _ _ (nodup_loopRange _ _)]
        by_cases h : C.Stored r c
        · rw [if_pos ((stored_iff C r c).2 h)]; simp only; rw [hx]
        · rw [if_neg (fun h' => h ((stored_iff C r c).1 h')), hcov r c (by omega) h]
      · rw [← h3 c (by omega) r]
        congr 1
        apply List.map_congr_left
        intro k hk
        rw [mem_loopRange] at hk
        have : C.p (c + 1) ≤ C.p m := mono_le hmono (by omega) (by omega)
        rw [gather_frame _ _ _ _ (by rw [mem_loopRange]; omega)]

theorem csAdd_entry (A B : Csc R) (alpha beta : R) (C : Csc R) (nc : ℕ)
    (hmono : ∀ c < nc, C.p c ≤ C.p (c + 1))
    (hcov : ∀ r, ∀ c < nc, ¬ C.Stored r c → alpha * A.entry r c + beta * B.entry r c = 0)
    (r c : ℕ) (hc : c < nc) :
    (csAdd A B alpha beta C nc).entry r c = alpha * A.entry r c + beta * B.entry r c :=
  (csAdd_inv A B alpha beta C nc hmono hcov nc le_rfl).2.2 c hc r

end Verif.Sparse
