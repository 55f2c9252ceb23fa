import Verif.Vec.MaskLemmas
/-! Lemmas computing the index lists of the special matrices in closed form. -/
namespace Verif.Vec
open Verif.Np Verif.Index

variable {R : Type*}

theorem sliceAssign_replicate {α : Type*} (done v : List α) (N : ℕ) (z : α)
    (_h : v.length ≤ N) :
    sliceAssign (done ++ List.replicate N z) done.length v =
      (done ++ v) ++ List.replicate (N - v.length) z := by
  unfold sliceAssign
  rw [List.take_left', List.drop_append, List.drop_eq_nil_of_le (by omega)]
  · simp
  · rfl

/-! ### kmat -/

theorem kmat_fold (p q : ℕ) (f : ℕ → List ℕ) (hf : ∀ i, (f i).length = q) (k : ℕ) (hk : k ≤ p) :
    (List.range k).foldl (fun l i => sliceAssign l (i * q) (f i)) (List.replicate (p * q) 0) =
      (List.range k).flatMap f ++ List.replicate ((p - k) * q) 0 := by
  induction k with
  | zero => simp
  | succ k ih =>
    rw [List.range_succ, List.foldl_append, ih (by omega)]
    simp only [List.foldl_cons, List.foldl_nil, List.flatMap_append]
    have hl : ((List.range k).flatMap f).length = k * q := by
      rw [length_flatMap_range]; simp [hf]
    obtain ⟨d, rfl⟩ : ∃ d, p = k + 1 + d := ⟨p - (k + 1), by omega⟩
    have e1 : (k + 1 + d - k) * q = q + d * q := by
      rw [show k + 1 + d - k = 1 + d by omega]; ring
    have e2 : (k + 1 + d - (k + 1)) * q = d * q := by
      rw [show k + 1 + d - (k + 1) = d by omega]
    rw [e1, e2, ← hl, sliceAssign_replicate _ _ _ _ (by rw [hf]; omega), hf]
    simp

theorem kmatCols_eq (p q : ℕ) :
    kmatCols p q = (List.range p).flatMap fun i => (List.range q).map fun j => j * p + i := by
  unfold kmatCols
  have := kmat_fold p q (fun i => ((List.range q).map (· * p)).map (· + i)) (by simp) p le_rfl
  simp only [Nat.sub_self, Nat.zero_mul, List.replicate_zero, List.append_nil] at this
  rw [this]
  simp [Function.comp_def]

theorem kmatCols_getElem? (p q i : ℕ) (hi : i < p * q) :
    (kmatCols p q)[i]? = some ((i % q) * p + i / q) := by
  have hq : 0 < q := by
    rcases Nat.eq_zero_or_pos q with h | h
    · subst h; simp at hi
    · exact h
  rw [kmatCols_eq]
  have h1 : i / q < p := Nat.div_lt_of_lt_mul (by rw [Nat.mul_comm]; exact hi)
  have h2 : i % q < q := Nat.mod_lt _ hq
  have := getElem?_flatMap_range (fun i => (List.range q).map fun j => j * p + i) p (i / q)
    (i % q) h1 (by simpa using h2)
  simp only [List.length_map, List.length_range, Finset.sum_const, Finset.card_range,
    smul_eq_mul] at this
  rw [Nat.div_add_mod' i q] at this
  rw [this]
  simp [h2]

theorem kmatCols_length (p q : ℕ) : (kmatCols p q).length = p * q := by
  rw [kmatCols_eq, length_flatMap_range]; simp

/-! ### lmat -/

/-- column lengths prefix sum -/
def colOff (n i : ℕ) : ℕ := ∑ t ∈ Finset.range i, (n - t)

theorem colOff_succ (n i : ℕ) : colOff n (i + 1) = colOff n i + (n - i) := by
  simp [colOff, Finset.sum_range_succ]

theorem colOff_le (n i : ℕ) (hi : i ≤ n) : colOff n i ≤ n * (n + 1) / 2 := by
  have h1 := sum_tri n
  have : colOff n i ≤ colOff n n := by
    unfold colOff
    apply Finset.sum_le_sum_of_subset
    intro x hx; simp at hx ⊢; omega
  have h2 : colOff n n = ∑ t ∈ Finset.range n, (n - t) := rfl
  omega

theorem colOff_self (n : ℕ) : colOff n n = n * (n + 1) / 2 := by
  have h1 := sum_tri n
  have h2 : colOff n n = ∑ t ∈ Finset.range n, (n - t) := rfl
  omega

/-- the vech position of a lower-triangular cell -/
theorem colOff_eq (n s : ℕ) (hs : s ≤ n) : 2 * colOff n s + s * s = 2 * (s * n) + s :=
  sum_len_zero n s hs

theorem lmat_fold (n k : ℕ) (hk : k ≤ n) :
    (List.range k).foldl
      (fun (st : List ℕ × List ℕ × ℕ) i =>
        let (k, template, a) := st
        (sliceAssign k a template, template.dropLast.map (· + n + 1), a + n - i))
      (List.replicate (n * (n + 1) / 2) 0, List.range n, 0) =
    ((List.range k).flatMap (fun i => (List.range (n - i)).map fun t => t + i * (n + 1)) ++
        List.replicate (n * (n + 1) / 2 - colOff n k) 0,
      (List.range (n - k)).map fun t => t + k * (n + 1), colOff n k) := by
  induction k with
  | zero => simp [colOff]
  | succ k ih =>
    rw [List.range_succ, List.foldl_append, ih (by omega)]
    simp only [List.foldl_cons, List.foldl_nil, List.flatMap_append]
    have hl : ((List.range k).flatMap
        (fun i => (List.range (n - i)).map fun t => t + i * (n + 1))).length = colOff n k := by
      rw [length_flatMap_range]; simp [colOff]
    have hle := colOff_le n (k + 1) hk
    rw [colOff_succ] at hle
    rw [← hl, sliceAssign_replicate _ _ _ _ (by rw [hl]; simp; omega), hl, colOff_succ]
    refine Prod.ext ?_ (Prod.ext ?_ ?_)
    · simp [Nat.sub_sub]
    · simp only
      rw [← List.map_dropLast, List.map_map]
      have : (List.range (n - k)).dropLast = List.range (n - (k + 1)) := by
        rw [show n - k = (n - (k + 1)) + 1 by omega, List.range_succ, List.dropLast_concat]
      rw [this]
      apply List.map_congr_left
      intro a _
      simp only [Function.comp]
      ring
    · simp only; omega

theorem lmatCols_eq (n : ℕ) :
    lmatCols n = (List.range n).flatMap fun i => (List.range (n - i)).map fun t => t + i * (n + 1) := by
  unfold lmatCols
  rw [lmat_fold n n le_rfl, colOff_self]
  simp

theorem lmatCols_eq_tril (n : ℕ) :
    lmatCols n = (npTriu n 0).map fun p => p.1 * n + p.2 := by
  rw [lmatCols_eq]
  have := npTriu_eq n 0
  simp only [Nat.cast_zero] at this
  rw [this, List.map_flatMap]
  congr 1
  funext i
  rw [List.map_map, Nat.add_zero, List.range'_eq_map_range, List.map_map]
  apply List.map_congr_left
  intro a _
  simp only [Function.comp]
  ring

/-! ### dmat -/

theorem cumsum_append (l : List ℤ) (x : ℤ) : cumsum (l ++ [x]) = cumsum l ++ [l.sum + x] := by
  induction l with
  | nil => simp [cumsum]
  | cons a l ih =>
    simp only [List.cons_append, cumsum, ih, List.map_append, List.sum_cons, List.map_cons,
      List.map_nil]
    rw [add_assoc]

theorem list_sum_range (i : ℕ) (g : ℕ → ℤ) :
    ((List.range i).map g).sum = ∑ u ∈ Finset.range i, g u := by
  induction i with
  | zero => simp
  | succ i ih => rw [List.range_succ, Finset.sum_range_succ, ← ih]; simp

theorem cumsum_range (i : ℕ) (g : ℕ → ℤ) :
    cumsum ((List.range i).map g) =
      (List.range i).map fun t => ∑ u ∈ Finset.range (t + 1), g u := by
  induction i with
  | zero => simp [cumsum]
  | succ i ih =>
    rw [List.range_succ, List.map_append, List.map_append, List.map_singleton, cumsum_append, ih]
    congr 2
    rw [list_sum_range]
    simp only [Finset.sum_range_succ]

/-- contents (0-based) of the block of `_dmat` written for column `i` of the matrix -/
def dblock (n i : ℕ) : List ℤ :=
  (List.range n).map fun (t : ℕ) =>
    if t < i then (colOff n t : ℤ) + (i - t) else (colOff n i : ℤ) + (t - i)

theorem map_range_split {α : Type*} (n i : ℕ) (hi : i ≤ n) (f g : ℕ → α) :
    (List.range i).map f ++ (List.range (n - i)).map (fun u => g (i + u)) =
      (List.range n).map fun t => if t < i then f t else g t := by
  obtain ⟨d, rfl⟩ : ∃ d, n = i + d := ⟨n - i, by omega⟩
  rw [Nat.add_sub_cancel_left, List.range_add, List.map_append, List.map_map]
  congr 1
  · apply List.map_congr_left
    intro a ha
    simp at ha
    simp [ha]
  · apply List.map_congr_left
    intro a _
    simp

theorem dmat_block (n i : ℕ) (hi : i < n) :
    ((cumsum ((List.range i).map fun (t : ℕ) => (n : ℤ) - t)).map
          fun c => (i : ℤ) - n + c + 1) ++
      ((List.range' (colOff n i) (n - i)).map fun (t : ℕ) => (t : ℤ) + 1) =
    (dblock n i).map (· + 1) := by
  rw [cumsum_range, List.range'_eq_map_range, List.map_map, List.map_map, dblock, List.map_map]
  have := map_range_split n i (le_of_lt hi)
    (fun (t : ℕ) => (i : ℤ) - n + (∑ u ∈ Finset.range (t + 1), ((n : ℤ) - u)) + 1)
    (fun (t : ℕ) => ((colOff n i + (t - i) : ℕ) : ℤ) + 1)
  have e2 : (fun u => ((colOff n i + (i + u - i) : ℕ) : ℤ) + 1) =
      (fun (t : ℕ) => (t : ℤ) + 1) ∘ fun x => colOff n i + x := by
    funext u; simp
  simp only [e2] at this
  rw [show ((fun c => (i : ℤ) - n + c + 1) ∘ fun t => ∑ u ∈ Finset.range (t + 1), ((n : ℤ) - u)) =
    (fun (t : ℕ) => (i : ℤ) - n + (∑ u ∈ Finset.range (t + 1), ((n : ℤ) - u)) + 1) from rfl, this]
  apply List.map_congr_left
  intro t ht
  simp only [List.mem_range] at ht
  simp only [Function.comp]
  by_cases h : t < i
  · simp only [h, if_true]
    have hs : ∑ u ∈ Finset.range (t + 1), ((n : ℤ) - u) = (colOff n (t + 1) : ℤ) := by
      unfold colOff
      push_cast
      apply Finset.sum_congr rfl
      intro u hu
      simp at hu
      omega
    rw [hs, colOff_succ]
    omega
  · simp only [h, if_false]
    omega

theorem dmat_fold (n k : ℕ) (hk : k ≤ n) :
    (List.range k).foldl
      (fun (st : List ℤ × ℕ × ℕ) i =>
        let (d, r, a) := st
        let d := sliceAssign d r
          ((cumsum ((List.range i).map fun (t : ℕ) => (n : ℤ) - t)).map
            fun c => (i : ℤ) - n + c + 1)
        let r := r + i
        let d := sliceAssign d r ((List.range' a (n - i)).map fun (t : ℕ) => (t : ℤ) + 1)
        (d, r + n - i, a + n - i))
      (List.replicate (n ^ 2) 0, 0, 0) =
    ((List.range k).flatMap (fun i => (dblock n i).map (· + 1)) ++
        List.replicate (n ^ 2 - k * n) 0, k * n, colOff n k) := by
  induction k with
  | zero => simp [colOff]
  | succ k ih =>
    rw [List.range_succ, List.foldl_append, ih (by omega)]
    simp only [List.foldl_cons, List.foldl_nil, List.flatMap_append]
    have hl : ((List.range k).flatMap
        (fun i => (dblock n i).map (· + 1))).length = k * n := by
      rw [length_flatMap_range]; simp [dblock]
    have hkn : (k + 1) * n ≤ n ^ 2 := by
      rw [pow_two]; exact Nat.mul_le_mul_right _ hk
    have hkn' : k * n + n ≤ n ^ 2 := by nlinarith
    generalize hA : (cumsum ((List.range k).map fun (t : ℕ) => (n : ℤ) - t)).map
            (fun c => (k : ℤ) - n + c + 1) = A
    have hAl : A.length = k := by
      rw [← hA, cumsum_range]; simp
    have hblock := dmat_block n k (by omega)
    rw [hA] at hblock
    rw [← hl, sliceAssign_replicate _ _ _ _ (by rw [hl, hAl]; omega)]
    have hlen2 : ((List.range k).flatMap (fun i => (dblock n i).map (· + 1))).length + k =
        ((List.range k).flatMap (fun i => (dblock n i).map (· + 1)) ++ A).length := by
      rw [List.length_append, hAl]
    rw [hlen2, sliceAssign_replicate _ _ _ _ (by rw [hl, hAl]; simp; omega)]
    rw [List.length_append, hl, hAl, colOff_succ]
    refine Prod.ext ?_ (Prod.ext ?_ ?_)
    · simp only [List.flatMap_cons, List.flatMap_nil, List.append_nil, List.append_assoc]
      rw [← List.append_assoc A, hblock]
      congr 3
      simp
      rw [Nat.add_mul]; omega
    · simp only
      rw [Nat.add_mul]; omega
    · simp only; omega

theorem dmatCols_eq (n : ℕ) : dmatCols n = (List.range n).flatMap (dblock n) := by
  unfold dmatCols
  rw [dmat_fold n n le_rfl]
  simp only [pow_two, Nat.sub_self, List.replicate_zero, List.append_nil, List.map_flatMap,
    List.map_map]
  congr 1
  funext i
  simp [Function.comp_def]

theorem dmatCols_getElem? (n i t : ℕ) (hi : i < n) (ht : t < n) :
    (dmatCols n)[i * n + t]? =
      some (((if t < i then colOff n t + (i - t) else colOff n i + (t - i) : ℕ)) : ℤ) := by
  rw [dmatCols_eq]
  have := getElem?_flatMap_range (dblock n) n i t hi (by simpa [dblock] using ht)
  have hl : ∀ t, (dblock n t).length = n := by intro t; simp [dblock]
  simp only [hl, Finset.sum_const, Finset.card_range, smul_eq_mul] at this
  rw [this]
  simp only [dblock, List.getElem?_map, List.getElem?_range ht, Option.map_some, Option.some.injEq]
  split <;> push_cast <;> omega

theorem dmatCols_length (n : ℕ) : (dmatCols n).length = n ^ 2 := by
  rw [dmatCols_eq, length_flatMap_range]
  have hl : ∀ t, (dblock n t).length = n := by intro t; simp [dblock]
  simp [hl, pow_two]

/-! ### triplet lists with one entry per row -/

theorem zip_range_eq {α β : Type*} [Inhabited α] (N : ℕ) (c : List α) (k : ℕ → α)
    (hc : c.length = N)
    (hk : ∀ i, i < N → c[i]? = some (k i)) (f : ℕ × α → β) :
    ((List.range N).zip c).map f = (List.range N).map fun i => f (i, k i) := by
  have : c = (List.range N).map k := by
    apply List.ext_getElem?
    intro i
    by_cases h : i < N
    · rw [hk i h]; simp [h]
    · rw [List.getElem?_eq_none (by omega), List.getElem?_eq_none (by simp; omega)]
  subst this
  rw [List.zip_map_right, List.map_map]
  have : (List.range N).zip (List.range N) = (List.range N).map fun i => (i, i) := by
    apply List.ext_getElem?
    intro i
    by_cases h : i < N
    · simp [h]
    · rw [List.getElem?_eq_none (by simp; omega), List.getElem?_eq_none (by simp; omega)]
  rw [this, List.map_map]
  rfl

theorem cooEntry_rows [AddCommMonoid R] (N : ℕ) (val : ℕ → R) (k : ℕ → ℕ) (i j : ℕ) :
    cooEntry ((List.range N).map fun i => (val i, i, k i)) i j =
      if i < N ∧ k i = j then val i else 0 := by
  unfold cooEntry
  induction N with
  | zero => simp
  | succ N ih =>
    rw [List.range_succ, List.map_append, List.filter_append, List.map_append, List.sum_append, ih]
    simp only [List.map_cons, List.map_nil, List.filter_cons, List.filter_nil]
    by_cases h : N = i
    · subst h
      by_cases h2 : k N = j
      · simp [h2]
      · simp [h2]
    · have : (i < N + 1) ↔ i < N := by omega
      simp [h, this]

theorem cooEntry_cols [AddCommMonoid R] (N : ℕ) (val : ℕ → R) (k : ℕ → ℕ) (i j : ℕ) :
    cooEntry ((List.range N).map fun i => (val i, k i, i)) i j =
      if j < N ∧ k j = i then val j else 0 := by
  unfold cooEntry
  induction N with
  | zero => simp
  | succ N ih =>
    rw [List.range_succ, List.map_append, List.filter_append, List.map_append, List.sum_append, ih]
    simp only [List.map_cons, List.map_nil, List.filter_cons, List.filter_nil]
    by_cases h : N = j
    · subst h
      by_cases h2 : k N = i
      · simp [h2]
      · simp [h2]
    · have : (j < N + 1) ↔ j < N := by omega
      simp [h, this]

end Verif.Vec
