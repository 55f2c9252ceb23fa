import Verif.Transf.CovCorr
import Verif.Transf.Jac
import Verif.Index.Props
import Verif.Vec.Props
import Mathlib.Data.List.Sort
import Mathlib.Data.List.GetD
/-! # Positions of the half-vectorised matrix -/
namespace Verif.Transf
open Verif.Np Verif.Vec Verif.Index Real

/-- Position of cell `(r, s)`. -/
def hp (n r s : ℕ) : ℕ := (vechIndsForwards r s n).toNat

variable {n : ℕ}

theorem hp_eq {r s : ℕ} (h1 : s ≤ r) (h2 : r < n) : (hp n r s : ℤ) = vechIndsForwards r s n :=
  Int.toNat_of_nonneg (C02_vech_reverse_forwards n r s (by omega) (by omega) (by omega)).1

theorem two_hv (n : ℕ) : 2 * matSizeToHvSize n = n * (n + 1) := by
  unfold matSizeToHvSize
  have : n * (n + 1) % 2 = 0 := Nat.even_iff.1 (Nat.even_mul_succ_self n)
  omega

theorem hp_lt {r s : ℕ} (h1 : s ≤ r) (h2 : r < n) : hp n r s < matSizeToHvSize n := by
  have h := (C02_vech_reverse_forwards n r s (by omega) (by omega) (by omega)).2.1
  rw [← hp_eq h1 h2] at h
  have := two_hv n
  zify at this ⊢
  linarith

theorem hp_surj {p : ℕ} (hp' : p < matSizeToHvSize n) : ∃ r s, s ≤ r ∧ r < n ∧ hp n r s = p := by
  have h2 := two_hv n
  obtain ⟨a, b, c, d⟩ := C02_vech_forwards_reverse n p (by omega) (by omega) (by
    zify at h2 hp'; linarith)
  refine ⟨(vechIndsReverse p n).1.toNat, (vechIndsReverse p n).2.toNat, by omega, by omega, ?_⟩
  unfold hp
  rw [Int.toNat_of_nonneg (by omega), Int.toNat_of_nonneg a, d]; rfl

theorem hp_inj {r s r' s' : ℕ} (h1 : s ≤ r) (h2 : r < n) (h1' : s' ≤ r') (h2' : r' < n)
    (h : hp n r s = hp n r' s') : r = r' ∧ s = s' := by
  have e := (C02_vech_reverse_forwards n r s (by omega) (by omega) (by omega)).2.2
  have e' := (C02_vech_reverse_forwards n r' s' (by omega) (by omega) (by omega)).2.2
  rw [← hp_eq h1 h2] at e
  rw [← hp_eq h1' h2', ← h, e] at e'
  simp only [Prod.mk.injEq] at e'
  omega

theorem hvRow_hp {r s : ℕ} (h1 : s ≤ r) (h2 : r < n) : hvRow n (hp n r s) = r := by
  obtain ⟨i, e, h⟩ := C02_vech_element (fun i _ => i) n r s h1 h2
  unfold hvRow hp
  rw [e, Int.toNat_natCast, List.getD_eq_getElem?_getD, h]; rfl

theorem hvCol_hp {r s : ℕ} (h1 : s ≤ r) (h2 : r < n) : hvCol n (hp n r s) = s := by
  obtain ⟨i, e, h⟩ := C02_vech_element (fun _ j => j) n r s h1 h2
  unfold hvCol hp
  rw [e, Int.toNat_natCast, List.getD_eq_getElem?_getD, h]; rfl

theorem hp_diag_lt {k l : ℕ} (h : k < l) (hl : l < n) : hp n k k < hp n l l := by
  have e1 := hp_eq (n := n) (le_refl k) (by omega)
  have e2 := hp_eq (n := n) (le_refl l) (by omega)
  zify
  rw [e1, e2]
  have t1 := two_tri (k : ℤ)
  have t2 := two_tri (l : ℤ)
  have : 2 * vechIndsForwards k k n < 2 * vechIndsForwards l l n := by
    unfold vechIndsForwards
    zify at h hl
    nlinarith
  omega

theorem mem_diagInds {p : ℕ} : p ∈ diagInds n ↔ ∃ k, k < n ∧ p = hp n k k := by
  unfold diagInds
  simp only [List.mem_filter, List.mem_range, decide_eq_true_eq]
  constructor
  · rintro ⟨h, e⟩
    obtain ⟨r, s, h1, h2, rfl⟩ := hp_surj h
    rw [hvRow_hp h1 h2, hvCol_hp h1 h2] at e
    exact ⟨r, h2, by rw [e]⟩
  · rintro ⟨k, hk, rfl⟩
    exact ⟨hp_lt le_rfl hk, by rw [hvRow_hp le_rfl hk, hvCol_hp le_rfl hk]⟩

theorem diagInds_eq (n : ℕ) : diagInds n = (List.range n).map fun k => hp n k k := by
  have s1 : (diagInds n).Pairwise (· < ·) := (List.pairwise_lt_range).filter _
  have s2 : ((List.range n).map fun k => hp n k k).Pairwise (· < ·) := by
    rw [List.pairwise_map]
    refine List.Pairwise.imp_of_mem ?_ (List.pairwise_lt_range (n := n))
    intro a b _ hb hab
    exact hp_diag_lt hab (List.mem_range.1 hb)
  refine List.Perm.eq_of_pairwise' (r := (· < ·)) s1 s2 ?_
  rw [List.perm_ext_iff_of_nodup (s1.imp ne_of_lt) (s2.imp ne_of_lt)]
  intro p
  rw [mem_diagInds]
  simp [eq_comm]

theorem diagInds_getD {k : ℕ} (hk : k < n) : (diagInds n).getD k 0 = hp n k k := by
  rw [diagInds_eq, List.getD_eq_getElem _ _ (by simpa using hk)]
  simp

theorem rowDiag_hp {r s : ℕ} (h1 : s ≤ r) (h2 : r < n) : rowDiag n (hp n r s) = hp n r r := by
  rw [rowDiag, hvRow_hp h1 h2, diagInds_getD h2]

theorem colDiag_hp {r s : ℕ} (h1 : s ≤ r) (h2 : r < n) : colDiag n (hp n r s) = hp n s s := by
  rw [colDiag, hvCol_hp h1 h2, diagInds_getD (by omega)]

theorem diag_facts {p : ℕ} (h : p ∈ diagInds n) :
    p < matSizeToHvSize n ∧ rowDiag n p = p ∧ colDiag n p = p := by
  obtain ⟨k, hk, rfl⟩ := mem_diagInds.1 h
  exact ⟨hp_lt le_rfl hk, rowDiag_hp le_rfl hk, colDiag_hp le_rfl hk⟩

/-- An off-diagonal position and the two diagonal positions of its row and column are three
different positions. -/
theorem off_facts {p : ℕ} (hp' : p < matSizeToHvSize n) (h : p ∉ diagInds n) :
    rowDiag n p ≠ colDiag n p ∧ rowDiag n p ≠ p ∧ colDiag n p ≠ p ∧
      rowDiag n p ∈ diagInds n ∧ colDiag n p ∈ diagInds n := by
  obtain ⟨r, s, h1, h2, rfl⟩ := hp_surj hp'
  have hrs : r ≠ s := by
    rintro rfl; exact h (mem_diagInds.2 ⟨r, h2, rfl⟩)
  rw [rowDiag_hp h1 h2, colDiag_hp h1 h2]
  refine ⟨fun e => ?_, fun e => ?_, fun e => ?_, mem_diagInds.2 ⟨r, h2, rfl⟩,
    mem_diagInds.2 ⟨s, by omega, rfl⟩⟩
  · exact hrs (hp_inj le_rfl h2 le_rfl (by omega) e).1
  · exact hrs (hp_inj le_rfl h2 h1 h2 e).2
  · exact hrs (hp_inj le_rfl (by omega) h1 h2 e).1.symm

theorem mem_tril {p : ℕ} : p ∈ trilInds n ↔ p < matSizeToHvSize n ∧ p ∉ diagInds n := by
  unfold trilInds diagInds
  simp only [List.mem_filter, List.mem_range, decide_eq_true_eq]
  tauto

theorem offInds_eq (n : ℕ) : offInds n = trilInds n := by
  unfold offInds
  rw [trilInds]
  refine List.filter_congr fun p hp' => ?_
  rw [List.mem_range] at hp'
  by_cases h : p ∈ diagInds n
  · have := diag_facts h
    have e : hvRow n p = hvCol n p := by
      unfold diagInds at h; simpa using (List.mem_filter.1 h).2
    simp [this.2.1, this.2.2, e]
  · have := (off_facts hp' h).1
    have e : hvRow n p ≠ hvCol n p := fun e => h (List.mem_filter.2 ⟨List.mem_range.2 hp', by simpa⟩)
    simp [this, e]

theorem scatter2_zip_self {α : Type*} (l : List ℕ) (v : ℕ → α) (a : ℕ → ℕ → α) (p q : ℕ) :
    scatter2 a (l.zip l) (l.map v) p q = if p = q ∧ p ∈ l then v p else a p q := by
  have e : l.zip l = l.map fun p => (p, p) := by
    induction l with
    | nil => rfl
    | cons b l ih => simp [ih]
  have e2 : l.map v = (l.zip l).map fun z => v z.1 := by
    rw [e, List.map_map]; rfl
  rw [e2, scatter2_map, e]
  refine if_congr ?_ rfl rfl
  simp only [List.mem_map, Prod.mk.injEq]
  constructor
  · rintro ⟨b, hb, rfl, rfl⟩; exact ⟨rfl, hb⟩
  · rintro ⟨rfl, h⟩; exact ⟨p, h, rfl, rfl⟩

theorem zip_flatMap_pair {α β : Type*} (l : List ℕ) (a b : ℕ → α) (c d : ℕ → β) :
    (l.flatMap fun p => [a p, b p]).zip (l.flatMap fun p => [c p, d p]) =
      l.flatMap fun p => [(a p, c p), (b p, d p)] := by
  induction l with
  | nil => rfl
  | cons x l ih => simp [ih]

/-- Closed form of the scattered Jacobian. -/
theorem ccJac_off {t1 t2 t3 : ℕ → ℝ} {p : ℕ} (hp' : p < matSizeToHvSize n) (h : p ∉ diagInds n)
    (q : ℕ) : ccJac n t1 t2 t3 p q =
      if q = p then t1 p else if q = colDiag n p then t3 p else if q = rowDiag n p then t2 p else 0 := by
  have ht : p ∈ trilInds n := mem_tril.2 ⟨hp', h⟩
  obtain ⟨f1, f2, f3, -, -⟩ := off_facts hp' h
  unfold ccJac stackOff dcPerm drPerm stackOff
  rw [offInds_eq, zip_flatMap_pair]
  have e : (trilInds n).flatMap (fun p => [t3 p, t2 p]) =
      ((trilInds n).flatMap fun p => [(p, colDiag n p), (p, rowDiag n p)]).map
        fun z => if z.2 = colDiag n z.1 then t3 z.1 else t2 z.1 := by
    rw [List.map_flatMap]
    refine List.flatMap_congr fun p hq => ?_
    obtain ⟨a, b⟩ := mem_tril.1 hq
    simp [(off_facts a b).1]
  rw [e, scatter2_map, scatter2_zip_self, scatter2_zip_self]
  have m : (p, q) ∈ (trilInds n).flatMap (fun p => [(p, colDiag n p), (p, rowDiag n p)]) ↔
      q = colDiag n p ∨ q = rowDiag n p := by
    simp only [List.mem_flatMap, List.mem_cons, List.not_mem_nil, or_false, Prod.mk.injEq]
    constructor
    · rintro ⟨a, _, ⟨rfl, rfl⟩ | ⟨rfl, rfl⟩⟩ <;> simp
    · rintro (rfl | rfl)
      · exact ⟨p, ht, Or.inl ⟨rfl, rfl⟩⟩
      · exact ⟨p, ht, Or.inr ⟨rfl, rfl⟩⟩
  simp only [m, ht, h, and_true, and_false, if_false]
  by_cases a : q = p
  · subst a; simp [Ne.symm f2, Ne.symm f3]
  · by_cases b : q = colDiag n p
    · simp [b, f3]
    · by_cases c : q = rowDiag n p
      · simp [c, f1, f2]
      · simp [a, b, c, Ne.symm a]

theorem ccJac_diag {t1 t2 t3 : ℕ → ℝ} {p : ℕ} (h : p ∈ diagInds n) (q : ℕ) :
    ccJac n t1 t2 t3 p q = if q = p then 1 else 0 := by
  have ht : p ∉ trilInds n := fun a => (mem_tril.1 a).2 h
  unfold ccJac stackOff dcPerm drPerm stackOff
  rw [offInds_eq, zip_flatMap_pair]
  have e : (trilInds n).flatMap (fun p => [t3 p, t2 p]) =
      ((trilInds n).flatMap fun p => [(p, colDiag n p), (p, rowDiag n p)]).map
        fun z => if z.2 = colDiag n z.1 then t3 z.1 else t2 z.1 := by
    rw [List.map_flatMap]
    refine List.flatMap_congr fun p hq => ?_
    obtain ⟨a, b⟩ := mem_tril.1 hq
    simp [(off_facts a b).1]
  rw [e, scatter2_map, scatter2_zip_self, scatter2_zip_self]
  have m : ¬ (p, q) ∈ (trilInds n).flatMap (fun p => [(p, colDiag n p), (p, rowDiag n p)]) := by
    simp only [List.mem_flatMap, List.mem_cons, List.not_mem_nil, or_false, Prod.mk.injEq]
    rintro ⟨a, ha, ⟨rfl, rfl⟩ | ⟨rfl, rfl⟩⟩ <;> exact ht ha
  simp only [m, ht, h, and_true, and_false, if_false, eq_comm]

/-! ## the Hessian loop -/

section
variable (x : ℕ → ℝ) (dij dik djj djk dkk : ℝ → ℝ → ℝ → ℝ)

theorem ccHess_keep (l : List ℕ) (H : ℕ → ℕ → ℕ → ℝ) (p : ℕ) (h : p ∉ l) (a b : ℕ) :
    l.foldl (ccHessStep n x dij dik djj djk dkk) H p a b = H p a b := by
  induction l generalizing H with
  | nil => rfl
  | cons i l ih =>
    simp only [List.mem_cons, not_or] at h
    rw [List.foldl_cons, ih _ h.2]
    unfold ccHessStep
    split_ifs with c
    · simp [put3, h.1]
    · rfl

theorem ccHess_slice {p : ℕ} (hp' : p < matSizeToHvSize n) (a b : ℕ) :
    ccHess n x dij dik djj djk dkk p a b =
      ccHessStep n x dij dik djj djk dkk (fun _ _ _ => 0) p p a b := by
  unfold ccHess
  have e : List.range (matSizeToHvSize n) =
      List.range p ++ p :: List.range' (p + 1) (matSizeToHvSize n - p - 1) := by
    have e1 := List.range'_append (s := 0) (m := p) (n := matSizeToHvSize n - p) (step := 1)
    rw [List.range_eq_range', List.range_eq_range', ← List.range'_succ]
    simp only [one_mul, zero_add] at e1
    rw [show matSizeToHvSize n - p - 1 + 1 = matSizeToHvSize n - p by omega, e1]
    congr 1; omega
  rw [e, List.foldl_append, List.foldl_cons, ccHess_keep _ _ _ _ _ _ _ _ _ (by simp)]
  have k := fun a b => ccHess_keep (n := n) x dij dik djj djk dkk (List.range p) (fun _ _ _ => 0) p
    (by simp) a b
  generalize (List.range p).foldl (ccHessStep n x dij dik djj djk dkk) (fun _ _ _ => 0) = G at k
  unfold ccHessStep
  split_ifs with c
  · simp [put3, k]
  · exact k a b

theorem ccHess_diag {p : ℕ} (h : p ∈ diagInds n) (a b : ℕ) :
    ccHess n x dij dik djj djk dkk p a b = 0 := by
  obtain ⟨h1, h2, h3⟩ := diag_facts h
  rw [ccHess_slice _ _ _ _ _ _ h1]
  unfold ccHessStep
  rw [h2, h3]; simp

/-- The gradient of each Jacobian entry stored by the loop. -/
theorem ccHess_off {p : ℕ} (hp' : p < matSizeToHvSize n) (h : p ∉ diagInds n) (v : ℕ → ℝ) (a : ℕ) :
    let j := rowDiag n p
    let k := colDiag n p
    dotN (matSizeToHvSize n) (ccHess n x dij dik djj djk dkk p a) v =
      if a = p then dij (x p) (x j) (x k) * v j + dik (x p) (x j) (x k) * v k
      else if a = k then dik (x p) (x j) (x k) * v p + djk (x p) (x j) (x k) * v j +
        dkk (x p) (x j) (x k) * v k
      else if a = j then dij (x p) (x j) (x k) * v p + djj (x p) (x j) (x k) * v j +
        djk (x p) (x j) (x k) * v k
      else 0 := by
  intro j k
  obtain ⟨f1, f2, f3, f4, f5⟩ := off_facts hp' h
  have hj := (diag_facts f4).1
  have hk := (diag_facts f5).1
  have g1 : j ≠ k := f1
  have g2 : j ≠ p := f2
  have g3 : k ≠ p := f3
  have e : ∀ q, ccHess n x dij dik djj djk dkk p a q =
      ccHessStep n x dij dik djj djk dkk (fun _ _ _ => 0) p p a q := fun q =>
    ccHess_slice _ _ _ _ _ _ hp' a q
  rw [dotN_sub (B := {p, j, k})]
  · rw [Finset.sum_insert (by simp [Ne.symm g2, Ne.symm g3]), Finset.sum_insert (by simp [g1]),
      Finset.sum_singleton, e, e, e]
    unfold ccHessStep
    simp only [if_pos f1, put3]
    by_cases c1 : a = p
    · subst c1
      simp [f1, f2, f3, Ne.symm f1, Ne.symm f2, Ne.symm f3, j, k]
    · by_cases c2 : a = k
      · simp [c2, f1, f2, f3, Ne.symm f1, Ne.symm f2, Ne.symm f3, j, k]; ring
      · by_cases c3 : a = j
        · simp [c3, f1, f2, f3, Ne.symm f1, Ne.symm f2, Ne.symm f3, j, k]; ring
        · simp [c1, c2, c3, j, k]
  · intro q hq
    simp only [Finset.mem_insert, Finset.mem_singleton] at hq
    rw [Finset.mem_range]
    rcases hq with rfl | rfl | rfl <;> assumption
  · intro q _ hq
    simp only [Finset.mem_insert, Finset.mem_singleton, not_or] at hq
    rw [e]
    unfold ccHessStep
    simp only [if_pos f1, put3]
    simp [hq.1, show q ≠ rowDiag n p from hq.2.1, show q ≠ colDiag n p from hq.2.2]
end

theorem ccJac_off_dot {t1 t2 t3 : ℕ → ℝ} {p : ℕ} (hp' : p < matSizeToHvSize n)
    (h : p ∉ diagInds n) (v : ℕ → ℝ) :
    dotN (matSizeToHvSize n) (ccJac n t1 t2 t3 p) v =
      t1 p * v p + t2 p * v (rowDiag n p) + t3 p * v (colDiag n p) := by
  obtain ⟨f1, f2, f3, f4, f5⟩ := off_facts hp' h
  rw [dotN_sub (B := {p, rowDiag n p, colDiag n p})]
  · rw [Finset.sum_insert (by simp [Ne.symm f2, Ne.symm f3]), Finset.sum_insert (by simp [f1]),
      Finset.sum_singleton, ccJac_off hp' h, ccJac_off hp' h, ccJac_off hp' h]
    simp [f1, f2, f3]; ring
  · intro q hq
    simp only [Finset.mem_insert, Finset.mem_singleton] at hq
    rw [Finset.mem_range]
    rcases hq with rfl | rfl | rfl
    · assumption
    · exact (diag_facts f4).1
    · exact (diag_facts f5).1
  · intro q _ hq
    simp only [Finset.mem_insert, Finset.mem_singleton, not_or] at hq
    rw [ccJac_off hp' h]; simp [hq]

theorem ccJac_diag_dot {t1 t2 t3 : ℕ → ℝ} {p : ℕ} (h : p ∈ diagInds n) (v : ℕ → ℝ) :
    dotN (matSizeToHvSize n) (ccJac n t1 t2 t3 p) v = v p := by
  rw [dotN_sub (B := {p})]
  · rw [Finset.sum_singleton, ccJac_diag h]; simp
  · simp [(diag_facts h).1]
  · intro q _ hq
    rw [ccJac_diag h]; simp at hq; simp [hq]

theorem put3s_at (l : List ℕ) (w : ℕ → ℝ) (H : ℕ → ℕ → ℕ → ℝ) (a b c : ℕ) :
    l.foldl (fun H p => put3 H p p p (w p)) H a b c =
      if a ∈ l ∧ b = a ∧ c = a then w a else H a b c := by
  induction l generalizing H with
  | nil => simp
  | cons i l ih =>
    rw [List.foldl_cons, ih]
    by_cases h : a ∈ l ∧ b = a ∧ c = a
    · rw [if_pos h, if_pos ⟨by simp [h.1], h.2⟩]
    · rw [if_neg h]
      unfold put3
      by_cases h2 : a = i ∧ b = i ∧ c = i
      · obtain ⟨rfl, rfl, rfl⟩ := h2; simp
      · rw [if_neg h2, if_neg]
        rintro ⟨h3, rfl, rfl⟩
        rcases List.mem_cons.1 h3 with rfl | h4
        · exact h2 ⟨rfl, rfl, rfl⟩
        · exact h ⟨h4, rfl, rfl⟩

end Verif.Transf
