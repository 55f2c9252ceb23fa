import Verif.Rand.Corr
import Verif.Cov.PsdProps
import Mathlib.Analysis.SpecialFunctions.Sqrt
import Mathlib.Tactic.Linarith
import Mathlib.Tactic.Ring
import Mathlib.Tactic.NormNum
import Mathlib.Algebra.BigOperators.Ring.Finset

/-!
Claim C168: `vine_corr` and `onion_corr` return correlation matrices.
-/

namespace Verif.Rand

/-- The quadratic form of a `d` by `d` matrix. -/
def quad (d : ℕ) (S : ℕ → ℕ → ℝ) (x : ℕ → ℝ) : ℝ := ∑ i ∈ Finset.range d, ∑ j ∈ Finset.range d, x i * S i j * x j

/-- A correlation matrix of size `d`. -/
structure IsCorr (d : ℕ) (S : ℕ → ℕ → ℝ) : Prop where
  diag : ∀ i < d, S i i = 1
  symm : ∀ i < d, ∀ j < d, S i j = S j i
  psd : ∀ x, 0 ≤ quad d S x

/-- A Gram matrix is non-negative. -/
theorem quad_gram (d m : ℕ) (A : ℕ → ℕ → ℝ) (S : ℕ → ℕ → ℝ) (h : ∀ i < d, ∀ j < d, S i j = ∑ k ∈ Finset.range m, A i k * A j k) (x : ℕ → ℝ) :
    quad d S x = ∑ k ∈ Finset.range m, (∑ i ∈ Finset.range d, x i * A i k) ^ 2 := by
  unfold quad
  have e1 : ∀ i ∈ Finset.range d, ∀ j ∈ Finset.range d, x i * S i j * x j = ∑ k ∈ Finset.range m, (x i * A i k) * (x j * A j k) := by
    intro i hi j hj
    rw [h i (Finset.mem_range.1 hi) j (Finset.mem_range.1 hj), Finset.mul_sum, Finset.sum_mul]
    exact Finset.sum_congr rfl fun k _ => by ring
  rw [Finset.sum_congr rfl fun i hi => Finset.sum_congr rfl fun j hj => e1 i hi j hj]
  simp only [sq, Finset.sum_mul_sum]
  rw [Finset.sum_congr rfl fun i _ => Finset.sum_comm, Finset.sum_comm]

/-! ### `vine_corr` -/

theorem step_abs {p a b : ℝ} (hp : |p| ≤ 1) (ha : |a| ≤ 1) (hb : |b| ≤ 1) : |p * √((1 - a ^ 2) * (1 - b ^ 2)) + a * b| ≤ 1 := by
  have ha' : 0 ≤ 1 - a ^ 2 := by nlinarith [sq_abs a, abs_nonneg a]
  have hb' : 0 ≤ 1 - b ^ 2 := by nlinarith [sq_abs b, abs_nonneg b]
  set s := √((1 - a ^ 2) * (1 - b ^ 2)) with hs
  have hs0 : 0 ≤ s := Real.sqrt_nonneg _
  have hs2 : s ^ 2 = (1 - a ^ 2) * (1 - b ^ 2) := Real.sq_sqrt (mul_nonneg ha' hb')
  have h1 : |p * s + a * b| ≤ s + |a| * |b| := by
    refine (abs_add_le _ _).trans ?_
    rw [abs_mul, abs_mul, abs_of_nonneg hs0]
    nlinarith
  refine h1.trans ?_
  have hab : 0 ≤ |a| * |b| := by positivity
  have hab1 : |a| * |b| ≤ 1 := by nlinarith [abs_nonneg a, abs_nonneg b]
  have h2 : s ^ 2 ≤ (1 - |a| * |b|) ^ 2 := by
    rw [hs2]; nlinarith [sq_nonneg (|a| - |b|), sq_abs a, sq_abs b]
  linarith [(abs_le_of_sq_le_sq' h2 (by linarith)).2]

/-- **C168**: the matrix of `vine_corr` is symmetric with ones on the diagonal and entries between minus one and one. -/
theorem C168_vine_entries (P : ℕ → ℕ → ℝ) (hP : ∀ k i, |P k i| ≤ 1) (i j : ℕ) :
    vineCorr P i i = 1 ∧ vineCorr P i j = vineCorr P j i ∧ |vineCorr P i j| ≤ 1 := by
  have hf : ∀ (k i : ℕ) (l : List ℕ) (p : ℝ), |p| ≤ 1 → |l.foldl (vineStep P k i) p| ≤ 1 := by
    intro k i l
    induction l with
    | nil => intro p hp; exact hp
    | cons a l ih => intro p hp; exact ih _ (step_abs hp (hP _ _) (hP _ _))
  unfold vineCorr vineMat
  refine ⟨if_pos rfl, ?_, ?_⟩
  · rcases lt_trichotomy i j with h | h | h
    · rw [if_neg h.ne, if_pos h, if_neg h.ne', if_neg (not_lt.2 h.le)]
    · subst h; rfl
    · rw [if_neg h.ne', if_neg (not_lt.2 h.le), if_neg h.ne, if_pos h]
  · split
    · simp
    · split <;> exact hf _ _ _ _ (hP _ _)

/-- The loop over all smaller indices. -/
def fullLs (k : ℕ) : List ℕ := (List.range k).reverse

/-- The row of the triangular factor built from the partial correlations. -/
noncomputable def vineFac (P : ℕ → ℕ → ℝ) (i j : ℕ) : ℝ :=
  if j < i then P j i * ∏ l ∈ Finset.range j, √(1 - P l i ^ 2)
  else if j = i then ∏ l ∈ Finset.range i, √(1 - P l i ^ 2) else 0

theorem full_entry (P : ℕ → ℕ → ℝ) (hP : ∀ k i, |P k i| ≤ 1) (k i m : ℕ) (p : ℝ) :
    ((List.range m).reverse).foldl (vineStep P k i) p =
      p * (∏ l ∈ Finset.range m, √(1 - P l i ^ 2)) * (∏ l ∈ Finset.range m, √(1 - P l k ^ 2)) +
      ∑ j ∈ Finset.range m, (P j i * ∏ l ∈ Finset.range j, √(1 - P l i ^ 2)) * (P j k * ∏ l ∈ Finset.range j, √(1 - P l k ^ 2)) := by
  induction m generalizing p with
  | zero => simp
  | succ m ih =>
    rw [List.range_succ, List.reverse_append, List.reverse_singleton, List.singleton_append, List.foldl_cons, ih,
      Finset.prod_range_succ, Finset.prod_range_succ, Finset.sum_range_succ]
    unfold vineStep
    rw [Real.sqrt_mul (by nlinarith [hP m i, sq_abs (P m i), abs_nonneg (P m i)])]
    ring

theorem sq_prod (P : ℕ → ℕ → ℝ) (hP : ∀ k i, |P k i| ≤ 1) (i m : ℕ) :
    ∑ j ∈ Finset.range m, (P j i * ∏ l ∈ Finset.range j, √(1 - P l i ^ 2)) ^ 2 + (∏ l ∈ Finset.range m, √(1 - P l i ^ 2)) ^ 2 = 1 := by
  induction m with
  | zero => simp
  | succ m ih =>
    rw [Finset.sum_range_succ, Finset.prod_range_succ, mul_pow _ (√_), Real.sq_sqrt (by nlinarith [hP m i, sq_abs (P m i), abs_nonneg (P m i)])]
    linear_combination ih

/-- **C168**: running the loop over all the smaller indices gives `L Lᵀ` for a triangular factor, hence a correlation matrix, whatever the
partial correlations. -/
theorem C168_vine_full (P : ℕ → ℕ → ℝ) (hP : ∀ k i, |P k i| ≤ 1) (d : ℕ) : IsCorr d (vineMat fullLs P) := by
  have hsym : ∀ i j, vineMat fullLs P i j = vineMat fullLs P j i := by
    intro i j
    unfold vineMat
    rcases lt_trichotomy i j with h | h | h
    · rw [if_neg h.ne, if_pos h, if_neg h.ne', if_neg (not_lt.2 h.le)]
    · subst h; rfl
    · rw [if_neg h.ne', if_neg (not_lt.2 h.le), if_neg h.ne, if_pos h]
  have hle : ∀ i j, i ≤ j → j < d → vineMat fullLs P i j = ∑ k ∈ Finset.range d, vineFac P i k * vineFac P j k := by
    intro i j hij hj
    have hsplit : ∑ k ∈ Finset.range d, vineFac P i k * vineFac P j k = ∑ k ∈ Finset.range (i + 1), vineFac P i k * vineFac P j k := by
      symm
      refine Finset.sum_subset (fun k hk => Finset.mem_range.2 (by have := Finset.mem_range.1 hk; omega)) fun k _ hk => ?_
      have hk : i + 1 ≤ k := by simpa using hk
      unfold vineFac
      rw [if_neg (by omega), if_neg (by omega), zero_mul]
    rw [hsplit, Finset.sum_range_succ]
    have hii : vineFac P i i = ∏ l ∈ Finset.range i, √(1 - P l i ^ 2) := by
      unfold vineFac; rw [if_neg (lt_irrefl _), if_pos rfl]
    have hlt : ∀ a k, k < a → vineFac P a k = P k a * ∏ l ∈ Finset.range k, √(1 - P l a ^ 2) := by
      intro a k h; unfold vineFac; rw [if_pos h]
    rcases hij.eq_or_lt with rfl | h
    · unfold vineMat
      rw [if_pos rfl, ← sq_prod P hP i i, hii]
      congr 1
      · exact Finset.sum_congr rfl fun k hk => by rw [hlt i k (Finset.mem_range.1 hk)]; ring
      · ring
    · unfold vineMat
      rw [if_neg h.ne, if_pos h]
      unfold vineEntry fullLs
      rw [full_entry P hP, hii, hlt j i h, add_comm]
      congr 1
      · refine Finset.sum_congr rfl fun k hk => ?_
        have hk := Finset.mem_range.1 hk
        rw [hlt i k hk, hlt j k (by omega)]; ring
      · ring
  refine ⟨fun i _ => if_pos rfl, fun i _ j _ => hsym i j, fun x => ?_⟩
  rw [quad_gram d d (vineFac P) (vineMat fullLs P)]
  · exact Finset.sum_nonneg fun _ _ => sq_nonneg _
  · intro i hi j hj
    rcases le_total i j with h | h
    · exact hle i j h hj
    · rw [hsym, hle j i h hi]; exact Finset.sum_congr rfl fun _ _ => mul_comm _ _

theorem foldl_id (P : ℕ → ℕ → ℝ) (k i : ℕ) (l : List ℕ) (h : ∀ a ∈ l, P a i = 0 ∧ P a k = 0) (p : ℝ) : l.foldl (vineStep P k i) p = p := by
  induction l generalizing p with
  | nil => rfl
  | cons a l ih =>
    rw [List.foldl_cons, ih fun b hb => h b (List.mem_cons_of_mem _ hb)]
    obtain ⟨h1, h2⟩ := h a List.mem_cons_self
    simp [vineStep, h1, h2]

/-- **C168**: when the first two rows of partial correlations are zero, the skipped indices do not matter and the result is a correlation matrix. -/
theorem C168_vine_partial (P : ℕ → ℕ → ℝ) (hP : ∀ k i, |P k i| ≤ 1) (h0 : ∀ i, P 0 i = 0 ∧ P 1 i = 0) (d : ℕ) : IsCorr d (vineCorr P) := by
  have : vineCorr P = vineMat fullLs P := by
    have he : ∀ k i, vineEntry vineLs P k i = vineEntry fullLs P k i := by
      intro k i
      unfold vineEntry vineLs fullLs
      conv_rhs => rw [← List.take_append_drop 2 (List.range k), List.reverse_append, List.foldl_append]
      refine (foldl_id P k i _ (fun a ha => ?_) _).symm
      have ha := List.mem_reverse.1 ha
      have : a < 2 := by
        obtain ⟨n, hn, e⟩ := List.getElem_of_mem ha
        rw [List.getElem_take, List.getElem_range] at e
        simp at hn; omega
      have : a = 0 ∨ a = 1 := by omega
      rcases this with rfl | rfl
      · exact ⟨(h0 _).1, (h0 _).1⟩
      · exact ⟨(h0 _).2, (h0 _).2⟩
    funext i j
    unfold vineCorr vineMat
    rw [he, he]
  rw [this]; exact C168_vine_full P hP d

/-- Witness: independence. -/
example : ∃ P : ℕ → ℕ → ℝ, (∀ k i, |P k i| ≤ 1) ∧ ∀ i, P 0 i = 0 ∧ P 1 i = 0 := ⟨fun _ _ => 0, by simp, by simp⟩

/-- **C168 (violated)**: `range(k-1, 1, -1)` leaves out the indices zero and one, so for three variables the draws are used as plain correlations
and the result need not be a correlation matrix. -/
theorem C168_vine_violated : ∃ P : ℕ → ℕ → ℝ, (∀ k i, |P k i| < 1) ∧ ∃ x, quad 3 (vineCorr P) x < 0 := by
  refine ⟨fun k i => if k = 1 then -(9 / 10) else 9 / 10, fun k i => ?_, fun i => if i = 0 then -1 else 1, ?_⟩
  · dsimp only; split <;> norm_num [abs_lt]
  · norm_num [quad, Finset.sum_range_succ, vineCorr, vineMat, vineEntry, vineLs, List.range, List.range.loop]

theorem C168_vine_small (P : ℕ → ℕ → ℝ) (d : ℕ) (hd : d ≤ 2) (hP : ∀ k i, |P k i| ≤ 1) : IsCorr d (vineCorr P) := by
  have he : ∀ i j, i < d → j < d → vineCorr P i j = vineMat fullLs P i j := by
    intro i j hi hj
    unfold vineCorr vineMat
    split
    · rfl
    · split
      · have : i = 0 := by omega
        subst this; rfl
      · have : j = 0 := by omega
        subst this; rfl
  have h := C168_vine_full P hP d
  refine ⟨fun i hi => by rw [he i i hi hi]; exact h.diag i hi, fun i hi j hj => by rw [he i j hi hj, he j i hj hi]; exact h.symm i hi j hj, fun x => ?_⟩
  have : quad d (vineCorr P) x = quad d (vineMat fullLs P) x :=
    Finset.sum_congr rfl fun i hi => Finset.sum_congr rfl fun j hj => by rw [he i j (Finset.mem_range.1 hi) (Finset.mem_range.1 hj)]
  rw [this]; exact h.psd x

/-- What `eigh` returns: orthonormal rows and columns, and `S = V diag(u) Vᵀ`. -/
structure EigRes (d : ℕ) (S : ℕ → ℕ → ℝ) (u : ℕ → ℝ) (V : ℕ → ℕ → ℝ) : Prop where
  fac : ∀ i < d, ∀ j < d, S i j = assemble d u V i j
  row : ∀ i < d, ∀ j < d, ∑ k ∈ Finset.range d, V i k * V j k = if i = j then 1 else 0
  col : ∀ k < d, ∀ l < d, ∑ i ∈ Finset.range d, V i k * V i l = if k = l then 1 else 0

theorem quad_assemble (d : ℕ) (u : ℕ → ℝ) (hu : ∀ k < d, 0 ≤ u k) (V : ℕ → ℕ → ℝ) (S : ℕ → ℕ → ℝ)
    (h : ∀ i < d, ∀ j < d, S i j = assemble d u V i j) (x : ℕ → ℝ) :
    quad d S x = ∑ k ∈ Finset.range d, (∑ i ∈ Finset.range d, x i * (V i k * √(u k))) ^ 2 := by
  refine quad_gram d d (fun i k => V i k * √(u k)) S (fun i hi j hj => ?_) x
  rw [h i hi j hj]
  refine Finset.sum_congr rfl fun k hk => ?_
  have := Real.mul_self_sqrt (hu k (Finset.mem_range.1 hk))
  linear_combination (-(V i k * V j k)) * this

/-- **C168**: the repair of `min_eig=True` gives a correlation matrix from any symmetric matrix with unit diagonal. -/
theorem C168_repair (d : ℕ) (S : ℕ → ℕ → ℝ) (hS : ∀ i < d, S i i = 1) (u : ℕ → ℝ) (umin : ℝ) (V : ℕ → ℕ → ℝ) (hm : 0 < umin)
    (h : EigRes d S u V) : IsCorr d (repair d u umin V) := by
  have hge : ∀ k, u k ≤ fixEig d u umin k ∧ 0 ≤ fixEig d u umin k := by
    intro k
    unfold fixEig
    split
    · rename_i hk
      have : 0 < umin * (0.5 : ℝ) ^ (((((Finset.range k).filter fun i => u i < 0).card + 1 : ℕ) : ℝ) / (((Finset.range d).filter fun i => u i < 0).card : ℝ)) :=
        mul_pos hm (Real.rpow_pos_of_pos (by norm_num) _)
      exact ⟨hk.le.trans this.le, this.le⟩
    · rename_i hk; exact ⟨le_rfl, not_lt.1 hk⟩
  have hd : ∀ i < d, 1 ≤ assemble d (fixEig d u umin) V i i := by
    intro i hi
    rw [← hS i hi, h.fac i hi i hi]
    refine Finset.sum_le_sum fun k _ => ?_
    nlinarith [mul_nonneg (sub_nonneg.2 (hge k).1) (sq_nonneg (V i k))]
  refine ⟨fun i hi => ?_, fun i _ j _ => ?_, fun x => ?_⟩
  · have h1 := hd i hi
    unfold repair
    dsimp only
    have hs := Real.mul_self_sqrt (show 0 ≤ assemble d (fixEig d u umin) V i i by linarith)
    have hpos : 0 < √(assemble d (fixEig d u umin) V i i) := Real.sqrt_pos.2 (by linarith)
    field_simp
    nlinarith
  · unfold repair
    dsimp only
    have : assemble d (fixEig d u umin) V i j = assemble d (fixEig d u umin) V j i := Finset.sum_congr rfl fun _ _ => by ring
    rw [this]; ring
  · have : quad d (repair d u umin V) x = quad d (assemble d (fixEig d u umin) V) fun i => x i * (1 / √(assemble d (fixEig d u umin) V i i)) := by
      unfold quad repair
      exact Finset.sum_congr rfl fun i _ => Finset.sum_congr rfl fun j _ => by ring
    rw [this, quad_assemble d _ (fun k _ => (hge k).2) V _ fun i _ j _ => rfl]
    exact Finset.sum_nonneg fun _ _ => sq_nonneg _

/-! ### `onion_corr` -/

theorem eig_nonneg {n : ℕ} {S : ℕ → ℕ → ℝ} {c : ℕ → ℝ} {V : ℕ → ℕ → ℝ} (hp : ∀ x, 0 ≤ quad n S x) (h : EigRes n S c V) {k : ℕ} (hk : k < n) :
    0 ≤ c k := by
  have h1 := hp fun i => V i k
  have : quad n S (fun i => V i k) = c k := by
    unfold quad
    calc ∑ i ∈ Finset.range n, ∑ j ∈ Finset.range n, V i k * S i j * V j k
        = ∑ i ∈ Finset.range n, ∑ j ∈ Finset.range n, ∑ l ∈ Finset.range n, c l * ((V i k * V i l) * (V j k * V j l)) := by
          refine Finset.sum_congr rfl fun i hi => Finset.sum_congr rfl fun j hj => ?_
          rw [h.fac i (Finset.mem_range.1 hi) j (Finset.mem_range.1 hj), assemble, Finset.mul_sum, Finset.sum_mul]
          exact Finset.sum_congr rfl fun l _ => by ring
      _ = ∑ l ∈ Finset.range n, c l * ((∑ i ∈ Finset.range n, V i k * V i l) * ∑ j ∈ Finset.range n, V j k * V j l) := by
          rw [Finset.sum_congr rfl fun i _ => Finset.sum_comm, Finset.sum_comm]
          refine Finset.sum_congr rfl fun l _ => ?_
          rw [Finset.sum_mul_sum, Finset.mul_sum]
          exact Finset.sum_congr rfl fun i _ => by rw [Finset.mul_sum]
      _ = ∑ l ∈ Finset.range n, if l = k then c k else 0 := by
          refine Finset.sum_congr rfl fun l hl => ?_
          rw [h.col k hk l (Finset.mem_range.1 hl)]
          by_cases e : k = l
          · subst e; simp
          · rw [if_neg e, if_neg (Ne.symm e)]; ring
      _ = c k := by rw [Finset.sum_ite_eq', if_pos (Finset.mem_range.2 hk)]
  rwa [this] at h1

/-- **C168**: bordering a correlation matrix by `q = S^{1/2} w` with `|w| ≤ 1` gives a correlation matrix. -/
theorem C168_border (n : ℕ) (S : ℕ → ℕ → ℝ) (hS : IsCorr n S) (c : ℕ → ℝ) (V : ℕ → ℕ → ℝ) (h : EigRes n S c V) (w : ℕ → ℝ)
    (hw : ∑ i ∈ Finset.range n, w i ^ 2 ≤ 1) : IsCorr (n + 1) (border n S (onionQ n c V w)) := by
  set q := onionQ n c V w with hq
  have hb : ∀ i < n, ∀ j < n, border n S q i j = S i j := fun i hi j hj => by unfold border; rw [if_pos ⟨hi, hj⟩]
  have hin : ∀ i < n, border n S q i n = q i := fun i hi => by
    unfold border; rw [if_neg (by omega), if_pos hi, if_pos rfl]
  have hni : ∀ i < n, border n S q n i = q i := fun i hi => by
    unfold border; rw [if_neg (by omega), if_neg (by omega), if_pos hi, if_pos rfl]
  have hnn : border n S q n n = 1 := by
    unfold border; rw [if_neg (by omega), if_neg (by omega), if_neg (by omega), if_pos ⟨rfl, rfl⟩]
  refine ⟨fun i hi => ?_, fun i hi j hj => ?_, fun x => ?_⟩
  · rcases Nat.lt_succ_iff_lt_or_eq.1 hi with h1 | rfl
    · rw [hb i h1 i h1, hS.diag i h1]
    · exact hnn
  · rcases Nat.lt_succ_iff_lt_or_eq.1 hi with h1 | rfl
    · rcases Nat.lt_succ_iff_lt_or_eq.1 hj with h2 | rfl
      · rw [hb i h1 j h2, hb j h2 i h1, hS.symm i h1 j h2]
      · rw [hin i h1, hni i h1]
    · rcases Nat.lt_succ_iff_lt_or_eq.1 hj with h2 | rfl
      · rw [hin j h2, hni j h2]
      · rfl
  · set t := x n
    set y : ℕ → ℝ := fun k => ∑ i ∈ Finset.range n, x i * (V i k * √(c k)) with hy
    set z : ℕ → ℝ := fun k => ∑ j ∈ Finset.range n, V j k * w j with hz
    have hxq : ∑ i ∈ Finset.range n, x i * q i = ∑ k ∈ Finset.range n, y k * z k := by
      have e1 : ∀ i, x i * q i = ∑ k ∈ Finset.range n, ∑ j ∈ Finset.range n, x i * (V i k * √(c k)) * (V j k * w j) := by
        intro i
        rw [hq, onionQ, Finset.mul_sum, Finset.sum_comm]
        refine Finset.sum_congr rfl fun j _ => ?_
        rw [Finset.sum_mul, Finset.mul_sum]
        exact Finset.sum_congr rfl fun k _ => by ring
      rw [Finset.sum_congr rfl fun i _ => e1 i, Finset.sum_comm]
      exact Finset.sum_congr rfl fun k _ => by rw [hy, hz, Finset.sum_mul_sum]
    have hzz : ∑ k ∈ Finset.range n, z k ^ 2 = ∑ i ∈ Finset.range n, w i ^ 2 := by
      simp only [hz, sq, Finset.sum_mul_sum]
      rw [Finset.sum_comm]
      refine Finset.sum_congr rfl fun i hi => ?_
      rw [Finset.sum_comm]
      calc ∑ j ∈ Finset.range n, ∑ k ∈ Finset.range n, V i k * w i * (V j k * w j)
          = ∑ j ∈ Finset.range n, if i = j then w i * w j else 0 := by
            refine Finset.sum_congr rfl fun j hj => ?_
            have := h.row i (Finset.mem_range.1 hi) j (Finset.mem_range.1 hj)
            calc ∑ k ∈ Finset.range n, V i k * w i * (V j k * w j) = w i * w j * ∑ k ∈ Finset.range n, V i k * V j k := by
                  rw [Finset.mul_sum]; exact Finset.sum_congr rfl fun _ _ => by ring
              _ = _ := by rw [this]; split <;> ring
        _ = w i * w i := by rw [Finset.sum_ite_eq, if_pos hi]
    have hq1 : quad (n + 1) (border n S q) x = quad n S x + 2 * t * ∑ i ∈ Finset.range n, x i * q i + t ^ 2 := by
      unfold quad
      rw [Finset.sum_range_succ]
      have e1 : ∀ i ∈ Finset.range n, ∑ j ∈ Finset.range (n + 1), x i * border n S q i j * x j =
          (∑ j ∈ Finset.range n, x i * S i j * x j) + t * (x i * q i) := by
        intro i hi
        have hi := Finset.mem_range.1 hi
        rw [Finset.sum_range_succ, hin i hi]
        congr 1
        · exact Finset.sum_congr rfl fun j hj => by rw [hb i hi j (Finset.mem_range.1 hj)]
        · ring
      rw [Finset.sum_congr rfl e1, Finset.sum_add_distrib, ← Finset.mul_sum, Finset.sum_range_succ, hnn]
      have e2 : ∑ j ∈ Finset.range n, x n * border n S q n j * x j = t * ∑ i ∈ Finset.range n, x i * q i := by
        rw [Finset.mul_sum]
        exact Finset.sum_congr rfl fun j hj => by rw [hni j (Finset.mem_range.1 hj)]; ring
      rw [e2]; ring
    rw [hq1, hxq, quad_assemble n c (fun k hk => eig_nonneg hS.psd h hk) V S h.fac x]
    have e3 : ∑ k ∈ Finset.range n, y k ^ 2 + 2 * t * ∑ k ∈ Finset.range n, y k * z k + t ^ 2 =
        ∑ k ∈ Finset.range n, (y k + t * z k) ^ 2 + t ^ 2 * (1 - ∑ k ∈ Finset.range n, z k ^ 2) := by
      have : ∀ k ∈ Finset.range n, (y k + t * z k) ^ 2 = y k ^ 2 + 2 * t * (y k * z k) + t ^ 2 * z k ^ 2 := fun k _ => by ring
      rw [Finset.sum_congr rfl this, Finset.sum_add_distrib, Finset.sum_add_distrib, ← Finset.mul_sum, ← Finset.mul_sum]; ring
    rw [e3, hzz]
    exact add_nonneg (Finset.sum_nonneg fun _ _ => sq_nonneg _) (mul_nonneg (sq_nonneg _) (by linarith))

theorem onionGo_ok (eig : ℕ → (ℕ → ℕ → ℝ) → (ℕ → ℝ) × (ℕ → ℕ → ℝ)) (he : ∀ n S, IsCorr n S → EigRes n S (eig n S).1 (eig n S).2)
    (ws : List (ℕ → ℝ)) (hw : ∀ w ∈ ws, ∀ n, ∑ i ∈ Finset.range n, w i ^ 2 ≤ 1) (n : ℕ) (S : ℕ → ℕ → ℝ) (hS : IsCorr n S) :
    (onionGo eig n S ws).1 = n + ws.length ∧ IsCorr (onionGo eig n S ws).1 (onionGo eig n S ws).2 := by
  induction ws generalizing n S with
  | nil => exact ⟨rfl, hS⟩
  | cons w ws ih =>
    have := ih (fun v hv => hw v (List.mem_cons_of_mem _ hv)) (n + 1) _ (C168_border n S hS _ _ (he n S hS) w (hw w List.mem_cons_self n))
    unfold onionGo
    refine ⟨this.1.trans ?_, this.2⟩
    rw [List.length_cons]; omega

/-- **C168**: for two or more variables `onion_corr` returns a correlation matrix of the size asked for, provided the eigenvectors are orthonormal. -/
theorem C168_onion_partial (eig : ℕ → (ℕ → ℕ → ℝ) → (ℕ → ℝ) × (ℕ → ℕ → ℝ)) (he : ∀ n S, IsCorr n S → EigRes n S (eig n S).1 (eig n S).2)
    (d : ℕ) (hd : 2 ≤ d) (u : ℝ) (hu : 0 ≤ u ∧ u ≤ 1) (ws : List (ℕ → ℝ)) (hl : ws.length = d - 2)
    (hw : ∀ w ∈ ws, ∀ n, ∑ i ∈ Finset.range n, w i ^ 2 ≤ 1) :
    (onionCorr eig d u ws).1 = d ∧ IsCorr d (onionCorr eig d u ws).2 := by
  have h0 : IsCorr 2 (onionInit (2 * u - 1)) := by
    refine ⟨fun i hi => ?_, fun i hi j hj => ?_, fun x => ?_⟩
    · simp [onionInit, hi]
    · simp only [onionInit, hi, hj, and_self, if_true, eq_comm]
    · norm_num [quad, Finset.sum_range_succ, onionInit]
      nlinarith [mul_nonneg hu.1 (sq_nonneg (x 0 + x 1)), mul_nonneg (sub_nonneg.2 hu.2) (sq_nonneg (x 0 - x 1))]
  unfold onionCorr
  rw [← hl, List.take_length]
  have := onionGo_ok eig he ws hw 2 _ h0
  have e : 2 + ws.length = d := by omega
  rw [e] at this
  refine ⟨this.1, ?_⟩
  have h2 := this.2
  rwa [this.1] at h2

open Matrix in
/-- Such eigenvectors exist. -/
theorem eigRes_exists : ∃ eig : ℕ → (ℕ → ℕ → ℝ) → (ℕ → ℝ) × (ℕ → ℕ → ℝ), ∀ n S, IsCorr n S → EigRes n S (eig n S).1 (eig n S).2 := by
  have key : ∀ n S, ∃ e : (ℕ → ℝ) × (ℕ → ℕ → ℝ), IsCorr n S → EigRes n S e.1 e.2 := by
    intro n S
    obtain ⟨eigh, he⟩ := Verif.Cov.eigh_exists n
    by_cases hS : IsCorr n S
    · set M : Matrix (Fin n) (Fin n) ℝ := Matrix.of fun i j => S i j
      have hM : M.IsSymm := by ext i j; exact hS.symm j j.2 i i.2
      obtain ⟨h1, h2⟩ := he M hM
      set u := (eigh M).1
      set Q := (eigh M).2
      have h1' : Q * Qᵀ = 1 := mul_eq_one_comm.1 h1
      refine ⟨(fun k => if h : k < n then u ⟨k, h⟩ else 0, fun i k => if h : i < n ∧ k < n then Q ⟨i, h.1⟩ ⟨k, h.2⟩ else 0), fun _ => ⟨?_, ?_, ?_⟩⟩
      · intro i hi j hj
        have := congrFun (congrFun h2 ⟨i, hi⟩) ⟨j, hj⟩
        rw [Matrix.mul_apply] at this
        unfold assemble
        rw [Finset.sum_range]
        refine this.trans (Finset.sum_congr rfl fun k _ => ?_)
        simp [hi, hj, k.2, Matrix.mul_diagonal]
      · intro i hi j hj
        have := congrFun (congrFun h1' ⟨i, hi⟩) ⟨j, hj⟩
        rw [Matrix.mul_apply, Matrix.one_apply] at this
        rw [Finset.sum_range]
        simpa [hi, hj] using this
      · intro i hi j hj
        have := congrFun (congrFun h1 ⟨i, hi⟩) ⟨j, hj⟩
        rw [Matrix.mul_apply, Matrix.one_apply] at this
        rw [Finset.sum_range]
        simpa [hi, hj] using this
    · exact ⟨(0, 0), fun h => absurd h hS⟩
  choose e he using key
  exact ⟨e, he⟩

/-- Witness: three variables. -/
example : ∃ eig : ℕ → (ℕ → ℕ → ℝ) → (ℕ → ℝ) × (ℕ → ℕ → ℝ), (∀ n S, IsCorr n S → EigRes n S (eig n S).1 (eig n S).2) ∧
    IsCorr 3 (onionCorr eig 3 (3 / 4) [fun i => if i = 0 then 1 / 2 else 0]).2 := by
  obtain ⟨eig, he⟩ := eigRes_exists
  refine ⟨eig, he, (C168_onion_partial eig he 3 (by norm_num) _ (by norm_num) _ rfl ?_).2⟩
  intro w hw n
  obtain rfl := List.mem_singleton.1 hw
  have : ∀ i ∈ Finset.range n, ((if i = 0 then 1 / 2 else 0 : ℝ)) ^ 2 = if i = 0 then 1 / 4 else 0 := by
    intro i _; split <;> norm_num
  rw [Finset.sum_congr rfl this, Finset.sum_ite_eq']
  split <;> norm_num

/-- **C168 (violated)**: for one variable `onion_corr` returns a two by two matrix. -/
theorem C168_onion_one_violated (eig : ℕ → (ℕ → ℕ → ℝ) → (ℕ → ℝ) × (ℕ → ℕ → ℝ)) (u : ℝ) (ws : List (ℕ → ℝ)) : (onionCorr eig 1 u ws).1 = 2 := by
  simp [onionCorr, onionGo]

end Verif.Rand
