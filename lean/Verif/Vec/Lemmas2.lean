import Verif.Vec.SpecialLemmas
import Mathlib.Algebra.BigOperators.Field
/-! Lemmas on products with the special matrices. -/
namespace Verif.Vec
open Verif.Np Verif.Index

variable {R : Type*}

theorem triu_getElem? (n r s : ℕ) (h1 : s ≤ r) (h2 : r < n) :
    (npTriu n 0)[colOff n s + (r - s)]? = some (s, r) := by
  have h := trilF_getElem? n 0 r s (by omega) h2
  simp only [trilIndices, Nat.cast_zero, neg_zero, zero_mul, if_true, Nat.add_zero,
    List.getElem?_map, Option.map_eq_some_iff] at h
  obtain ⟨⟨a, b⟩, h3, h4⟩ := h
  simp at h4
  rw [colOff, h3, h4.1, h4.2]

theorem vech_getElem? (X : ℕ → ℕ → R) (n r s : ℕ) (h1 : s ≤ r) (h2 : r < n) :
    (vech X n)[colOff n s + (r - s)]? = some (X r s) := by
  simp [vech, triu_getElem? n r s h1 h2]

theorem vec_getElem? (X : ℕ → ℕ → R) (m n r s : ℕ) (h1 : r < m) (h2 : s < n) :
    (vec X m n)[s * m + r]? = some (X r s) := by
  have := getElem?_flatMap_range (fun j => (List.range m).map fun i => X i j) n s r h2
    (by simpa using h1)
  simp only [List.length_map, List.length_range, Finset.sum_const, Finset.card_range,
    smul_eq_mul] at this
  rw [vec, this]
  simp [h1]

theorem vec_length (X : ℕ → ℕ → R) (m n : ℕ) : (vec X m n).length = m * n := by
  rw [vec, length_flatMap_range]; simp [Nat.mul_comm]

theorem vech_length (X : ℕ → ℕ → R) (n : ℕ) : (vech X n).length = n * (n + 1) / 2 := by
  rw [vech, List.length_map, length_npTriu_zero]

/-- every vech position is a cell -/
theorem exists_cell (n i : ℕ) (hi : i < n * (n + 1) / 2) :
    ∃ r s, s ≤ r ∧ r < n ∧ i = colOff n s + (r - s) := by
  have hl := length_npTriu_zero n
  have hi' : i < (npTriu n 0).length := by omega
  have hm : (npTriu n 0)[i] ∈ npTriu n 0 := List.getElem_mem hi'
  rcases hx : (npTriu n 0)[i] with ⟨s, r⟩
  rw [hx, mem_npTriu] at hm
  have hsr : s ≤ r := by omega
  refine ⟨r, s, hsr, hm.2.1, ?_⟩
  have h2 := triu_getElem? n r s hsr hm.2.1
  rw [List.getElem?_eq_some_iff] at h2
  obtain ⟨h3, h4⟩ := h2
  have := (List.Nodup.getElem_inj_iff (nodup_npTriu n 0) (hi := hi') (hj := h3)).1 (by rw [hx, h4])
  exact this

theorem cell_inj (n r s r' s' : ℕ) (h1 : s ≤ r) (h2 : r < n) (h1' : s' ≤ r') (h2' : r' < n)
    (h : colOff n s + (r - s) = colOff n s' + (r' - s')) : r = r' ∧ s = s' := by
  have a := triu_getElem? n r s h1 h2
  have b := triu_getElem? n r' s' h1' h2'
  rw [h, b] at a
  simp at a
  exact ⟨a.2.symm, a.1.symm⟩

theorem cell_lt (n r s : ℕ) (h1 : s ≤ r) (h2 : r < n) :
    colOff n s + (r - s) < n * (n + 1) / 2 := by
  have a := triu_getElem? n r s h1 h2
  rw [List.getElem?_eq_some_iff] at a
  obtain ⟨h, _⟩ := a
  rwa [length_npTriu_zero] at h

/-- column of row `k` of the duplication matrix -/
def dcol (n k : ℕ) : ℕ :=
  if k % n < k / n then colOff n (k % n) + (k / n - k % n) else colOff n (k / n) + (k % n - k / n)

theorem div_lt_of_sq {n k : ℕ} (hk : k < n ^ 2) : 0 < n ∧ k / n < n ∧ k % n < n := by
  have hn : 0 < n := by
    rcases Nat.eq_zero_or_pos n with h | h
    · subst h; simp at hk
    · exact h
  exact ⟨hn, Nat.div_lt_of_lt_mul (by rwa [← pow_two]), Nat.mod_lt _ hn⟩

theorem dmatCols_getElem?' (n k : ℕ) (hk : k < n ^ 2) : (dmatCols n)[k]? = some (dcol n k : ℤ) := by
  obtain ⟨_, h1, h2⟩ := div_lt_of_sq hk
  have := dmatCols_getElem? n (k / n) (k % n) h1 h2
  rw [Nat.div_add_mod' k n] at this
  rw [this]; rfl

theorem dmat_eq [One R] (n : ℕ) :
    (dmat n : List (R × ℕ × ℕ)) = (List.range (n ^ 2)).map fun k => (1, k, dcol n k) := by
  unfold dmat
  rw [zip_range_eq (n ^ 2) (dmatCols n) (fun k => (dcol n k : ℤ)) (dmatCols_length n)
    (fun k hk => dmatCols_getElem?' n k hk)]
  simp

theorem dpmat_eq [Field R] (n : ℕ) :
    (dpmat n : List (R × ℕ × ℕ)) = (List.range (n ^ 2)).map fun k =>
      (if k % (n + 1) = 0 then 1 else 1 * (1 / 2), dcol n k, k) := by
  unfold dpmat
  rw [zip_range_eq (n ^ 2) (dmatCols n) (fun k => (dcol n k : ℤ)) (dmatCols_length n)
    (fun k hk => dmatCols_getElem?' n k hk)]
  simp

theorem kmat_eq [One R] (p q : ℕ) :
    (kmat p q : List (R × ℕ × ℕ)) =
      (List.range (p * q)).map fun k => (1, k, (k % q) * p + k / q) := by
  unfold kmat
  rw [zip_range_eq (p * q) (kmatCols p q) (fun k => (k % q) * p + k / q) (kmatCols_length p q)
    (fun k hk => kmatCols_getElem? p q k hk)]

/-- column of row `k` of the elimination matrix -/
def lcol (n k : ℕ) : ℕ := ((npTriu n 0).getD k (0, 0)).1 * n + ((npTriu n 0).getD k (0, 0)).2

theorem lmat_eq [One R] (n : ℕ) :
    (lmat n : List (R × ℕ × ℕ)) =
      (List.range (n * (n + 1) / 2)).map fun k => (1, k, lcol n k) := by
  unfold lmat
  rw [zip_range_eq (n * (n + 1) / 2) (lmatCols n) (lcol n)
    (by rw [lmatCols_eq_tril, List.length_map, length_npTriu_zero])]
  intro i hi
  rw [lmatCols_eq_tril, List.getElem?_map]
  have : i < (npTriu n 0).length := by rw [length_npTriu_zero]; exact hi
  unfold lcol
  rw [List.getD_eq_getElem?_getD, List.getElem?_eq_getElem this]
  simp

theorem matVec_rows [Semiring R] (N M : ℕ) (k : ℕ → ℕ) (x : ℕ → R) (i : ℕ) (hi : i < N)
    (hk : k i < M) :
    matVec M (cooEntry ((List.range N).map fun i => ((1 : R), i, k i))) x i = x (k i) := by
  unfold matVec
  rw [Finset.sum_eq_single (k i)]
  · rw [cooEntry_rows]; simp [hi]
  · intro b _ hb
    rw [cooEntry_rows]
    have : ¬ k i = b := fun h => hb h.symm
    simp [this]
  · intro h
    simp at h
    omega

theorem dcol_lt (n k : ℕ) (hk : k < n ^ 2) : dcol n k < n * (n + 1) / 2 := by
  obtain ⟨_, h1, h2⟩ := div_lt_of_sq hk
  unfold dcol
  split
  · exact cell_lt n _ _ (by omega) h1
  · exact cell_lt n _ _ (by omega) h2

theorem dcol_iff (n k r s : ℕ) (hk : k < n ^ 2) (h1 : s ≤ r) (h2 : r < n) :
    dcol n k = colOff n s + (r - s) ↔ k = s * n + r ∨ k = r * n + s := by
  obtain ⟨hn, a1, a2⟩ := div_lt_of_sq hk
  have key : k = k / n * n + k % n := (Nat.div_add_mod' k n).symm
  constructor
  · intro h
    unfold dcol at h
    split at h
    · obtain ⟨e1, e2⟩ := cell_inj n _ _ _ _ (by omega) a1 h1 h2 h
      right; rw [e1, e2] at key; exact key
    · obtain ⟨e1, e2⟩ := cell_inj n _ _ _ _ (by omega) a2 h1 h2 h
      left; rw [e1, e2] at key; exact key
  · have dm : ∀ a b, b < n → (a * n + b) / n = a ∧ (a * n + b) % n = b := by
      intro a b hb
      constructor
      · rw [Nat.add_comm, Nat.add_mul_div_right _ _ hn, Nat.div_eq_of_lt hb]; omega
      · rw [Nat.add_comm, Nat.add_mul_mod_self_right, Nat.mod_eq_of_lt hb]
    rintro (h | h)
    · obtain ⟨b1, b2⟩ := dm s r h2
      unfold dcol
      rw [h, b1, b2, if_neg (by omega)]
    · obtain ⟨b1, b2⟩ := dm r s (by omega)
      unfold dcol
      rw [h, b1, b2]
      rcases Nat.lt_or_ge s r with h3 | h3
      · rw [if_pos h3]
      · have : r = s := by omega
        subst this
        rw [if_neg (by omega)]

theorem cell_lt_sq (n a b : ℕ) (ha : a < n) (hb : b < n) : a * n + b < n ^ 2 := by
  rw [pow_two]; nlinarith

theorem diag_mod (n k : ℕ) (hk : k < n ^ 2) : k % (n + 1) = 0 ↔ k / n = k % n := by
  obtain ⟨hn, a1, a2⟩ := div_lt_of_sq hk
  have key : k = k / n * n + k % n := (Nat.div_add_mod' k n).symm
  constructor
  · intro h
    obtain ⟨c, hc⟩ := Nat.dvd_of_mod_eq_zero h
    have hcn : c < n := by
      by_contra hcon
      have : n ≤ c := by omega
      rw [pow_two] at hk
      nlinarith
    have e : k = c * n + c := by rw [hc]; ring
    have b1 : k / n = c := by
      rw [e, Nat.add_comm, Nat.add_mul_div_right _ _ hn, Nat.div_eq_of_lt hcn]; omega
    have b2 : k % n = c := by
      rw [e, Nat.add_comm, Nat.add_mul_mod_self_right, Nat.mod_eq_of_lt hcn]
    rw [b1, b2]
  · intro h
    rw [← h] at key
    have : k = (n + 1) * (k / n) := by
      calc k = k / n * n + k / n := key
        _ = (n + 1) * (k / n) := by ring
    exact Nat.mod_eq_zero_of_dvd ⟨_, this⟩

/-- `dpmat(n)` applied to a vector averages the two mirrored entries. -/
theorem dp_matVec [Field R] [CharZero R] (n r s : ℕ) (h1 : s ≤ r) (h2 : r < n) (x : ℕ → R) :
    matVec (n ^ 2) (cooEntry (dpmat n)) x (colOff n s + (r - s)) =
      (x (s * n + r) + x (r * n + s)) / 2 := by
  unfold matVec
  have e : ∀ k ∈ Finset.range (n ^ 2),
      cooEntry (dpmat n) (colOff n s + (r - s)) k * x k =
        if k = s * n + r ∨ k = r * n + s then (if r = s then 1 else 1 / 2) * x k else 0 := by
    intro k hk
    simp only [Finset.mem_range] at hk
    rw [dpmat_eq, cooEntry_cols]
    simp only [hk, true_and, dcol_iff n k r s hk h1 h2]
    by_cases h : k = s * n + r ∨ k = r * n + s
    · simp only [h, if_true]
      congr 1
      have hd := diag_mod n k hk
      obtain ⟨hn, _, _⟩ := div_lt_of_sq hk
      have dm : ∀ a b, b < n → (a * n + b) / n = a ∧ (a * n + b) % n = b := by
        intro a b hb
        constructor
        · rw [Nat.add_comm, Nat.add_mul_div_right _ _ hn, Nat.div_eq_of_lt hb]; omega
        · rw [Nat.add_comm, Nat.add_mul_mod_self_right, Nat.mod_eq_of_lt hb]
      have : k / n = k % n ↔ r = s := by
        rcases h with h | h
        · obtain ⟨b1, b2⟩ := dm s r h2
          rw [h, b1, b2]; exact eq_comm
        · obtain ⟨b1, b2⟩ := dm r s (by omega)
          rw [h, b1, b2]
      rw [this] at hd
      simp only [hd, one_mul]
    · simp [h]
  rw [Finset.sum_congr rfl e, ← Finset.sum_filter]
  by_cases hrs : r = s
  · subst hrs
    have : (Finset.range (n ^ 2)).filter (fun k => k = r * n + r ∨ k = r * n + r) = {r * n + r} := by
      ext k
      simp only [or_self, Finset.mem_filter, Finset.mem_range, Finset.mem_singleton]
      constructor
      · exact fun h => h.2
      · intro h; exact ⟨h ▸ cell_lt_sq n r r h2 h2, h⟩
    rw [this, Finset.sum_singleton]
    simp only [if_true]
    ring
  · have hne : s * n + r ≠ r * n + s := by
      intro h
      have : (s : ℤ) * n + r = r * n + s := by exact_mod_cast h
      have h3 : ((n : ℤ) - 1) * (r - s) = 0 := by linarith
      have h4 : (n : ℤ) - 1 ≠ 0 := by omega
      rcases mul_eq_zero.1 h3 with h5 | h5
      · exact h4 h5
      · omega
    have : (Finset.range (n ^ 2)).filter (fun k => k = s * n + r ∨ k = r * n + s) =
        {s * n + r, r * n + s} := by
      ext k
      simp only [Finset.mem_filter, Finset.mem_range, Finset.mem_singleton, Finset.mem_insert]
      constructor
      · exact fun h => h.2
      · intro h
        refine ⟨?_, h⟩
        rcases h with h | h
        · exact h ▸ cell_lt_sq n s r (by omega) h2
        · exact h ▸ cell_lt_sq n r s h2 (by omega)
    rw [this, Finset.sum_pair hne]
    simp only [hrs, if_false]
    ring

end Verif.Vec
