import Verif.Indep.Model
import Verif.Indep.KernelLemmas
import Mathlib.Algebra.Order.Chebyshev
import Mathlib.Tactic.FieldSimp
import Mathlib.Tactic.Linarith

/-! # Closed forms of `Verif.Indep.Model` -/

namespace Verif.Indep

open Matrix

variable {n m k : ℕ}

theorem sqDiff_eq (X : Fin n → Fin m → ℝ) : sqDiff X = sq X := rfl

private theorem inner_fold (f : Fin n → Fin n → ℝ) (i : Fin n) : ∀ (l : List (Fin n)) (A : Sq n), (∀ j ∈ l, j < i) → ∀ a b,
    l.foldl (fun A j => setCell (setCell A i j (f i j)) j i (f i j)) A a b =
      if a = i ∧ b ∈ l then f i b else if b = i ∧ a ∈ l then f i a else A a b := by
  intro l
  induction l with
  | nil => intro A _ a b; simp
  | cons j l ih =>
    intro A h a b
    rw [List.foldl_cons, ih _ (fun x hx => h x (List.mem_cons_of_mem _ hx)) a b]
    have hj := h j List.mem_cons_self
    have hl : ∀ x ∈ l, x < i := fun x hx => h x (List.mem_cons_of_mem _ hx)
    by_cases h1 : a = i ∧ b ∈ l
    · rw [if_pos h1, if_pos ⟨h1.1, List.mem_cons_of_mem _ h1.2⟩]
    · rw [if_neg h1]
      by_cases h2 : b = i ∧ a ∈ l
      · have ha := hl a h2.2
        rw [if_pos h2, if_neg (fun hh => by rw [hh.1] at ha; exact lt_irrefl _ ha), if_pos ⟨h2.1, List.mem_cons_of_mem _ h2.2⟩]
      · rw [if_neg h2]
        simp only [setCell, List.mem_cons]
        by_cases h3 : a = j ∧ b = i
        · have : ¬ (a = i ∧ (b = j ∨ b ∈ l)) := fun hh => by rw [← h3.1, hh.1] at hj; exact lt_irrefl _ hj
          rw [if_pos h3, if_neg this, if_pos ⟨h3.2, Or.inl h3.1⟩, h3.1]
        · rw [if_neg h3]
          by_cases h4 : a = i ∧ b = j
          · rw [if_pos h4, if_pos ⟨h4.1, Or.inl h4.2⟩, h4.2]
          · rw [if_neg h4]
            have e1 : ¬ (a = i ∧ (b = j ∨ b ∈ l)) := by tauto
            have e2 : ¬ (b = i ∧ (a = j ∨ a ∈ l)) := by tauto
            rw [if_neg e1, if_neg e2]

private theorem outer_fold (f : Fin n → Fin n → ℝ) : ∀ (l : List (Fin n)) (A : Sq n) (a b : Fin n),
    l.foldl (fun A i => ((List.finRange n).filter (· < i)).foldl
      (fun A j => setCell (setCell A i j (f i j)) j i (f i j)) A) A a b =
      if b < a ∧ a ∈ l then f a b else if a < b ∧ b ∈ l then f b a else A a b := by
  intro l
  induction l with
  | nil => intro A a b; simp
  | cons i l ih =>
    intro A a b
    rw [List.foldl_cons, ih, inner_fold f i _ _ (by simp)]
    simp only [List.mem_filter, List.mem_finRange, true_and, decide_eq_true_eq, List.mem_cons]
    by_cases h1 : b < a ∧ a ∈ l
    · rw [if_pos h1, if_pos ⟨h1.1, Or.inr h1.2⟩]
    · rw [if_neg h1]
      by_cases h2 : a < b ∧ b ∈ l
      · rw [if_pos h2, if_neg (fun hh => lt_asymm hh.1 h2.1), if_pos ⟨h2.1, Or.inr h2.2⟩]
      · rw [if_neg h2]
        by_cases h3 : a = i ∧ b < i
        · have : b < a ∧ (a = i ∨ a ∈ l) := ⟨by rw [h3.1]; exact h3.2, Or.inl h3.1⟩
          rw [if_pos h3, if_pos this, h3.1]
        · rw [if_neg h3]
          by_cases h4 : b = i ∧ a < i
          · have e1 : ¬ (b < a ∧ (a = i ∨ a ∈ l)) := fun hh => lt_asymm hh.1 (by rw [h4.1]; exact h4.2)
            rw [if_pos h4, if_neg e1, if_pos ⟨by rw [h4.1]; exact h4.2, Or.inl h4.1⟩, h4.1]
          · have e1 : ¬ (b < a ∧ (a = i ∨ a ∈ l)) := by
              rintro ⟨x, y | y⟩
              · exact h3 ⟨y, y ▸ x⟩
              · exact h1 ⟨x, y⟩
            have e2 : ¬ (a < b ∧ (b = i ∨ b ∈ l)) := by
              rintro ⟨x, y | y⟩
              · exact h4 ⟨y, y ▸ x⟩
              · exact h2 ⟨x, y⟩
            rw [if_neg h4, if_neg e1, if_neg e2]

theorem fillLower_apply (f : Fin n → Fin n → ℝ) (a b : Fin n) :
    fillLower f a b = if b < a then f a b else if a < b then f b a else 0 := by
  rw [fillLower, outer_fold]; simp

theorem fillLower_symm {f : Fin n → Fin n → ℝ} (hs : ∀ i j, f i j = f j i) (h0 : ∀ i, f i i = 0) : fillLower f = f := by
  funext a b
  rw [fillLower_apply]
  rcases lt_trichotomy a b with h | h | h
  · rw [if_neg (lt_asymm h), if_pos h, hs]
  · subst h; simp [h0]
  · rw [if_pos h]

theorem euclid_eq (X : Fin n → Fin m → ℝ) : euclid X = fun i j => Real.sqrt (sq X i j) :=
  fillLower_symm (fun i j => by rw [sqDiff_eq, sq_comm]) fun i => by rw [sqDiff_eq, sq_self, Real.sqrt_zero]

theorem euclid_comm (X : Fin n → Fin m → ℝ) (i j : Fin n) : euclid X i j = euclid X j i := by
  rw [euclid_eq]; beta_reduce; rw [sq_comm]

theorem euclid_self (X : Fin n → Fin m → ℝ) (i : Fin n) : euclid X i i = 0 := by rw [euclid_eq]; simp [sq_self]

/-- The doubly centred matrix. -/
noncomputable def dc (A : Sq n) : Sq n := fun i j => A i j - rowSum A i / n - colSum A j / n + (∑ l, colSum A l) / ((n * n : ℕ) : ℝ)

theorem centerBiased_eq (A : Sq n) (hn : 0 < n) : centerBiased A = some (dc A) := by
  simp only [centerBiased]
  rw [if_neg (by positivity)]
  rfl

/-- The U-centred matrix. -/
noncomputable def uc (A : Sq n) : Sq n := fun i j =>
  if i = j then 0 else A i j - rowSum A i / (n - 2) - colSum A j / (n - 2) + (∑ l, colSum A l) / ((n - 1) * (n - 2))

theorem centerUnbiased_eq (A : Sq n) (hn : 3 ≤ n) : centerUnbiased A = some (uc A) := by
  simp only [centerUnbiased]
  have h : ((n:ℤ) - 1) * (n - 2) ≠ 0 := by
    have : (3:ℤ) ≤ n := by exact_mod_cast hn
    have h1 : (0:ℤ) < n - 1 := by linarith
    have h2 : (0:ℤ) < n - 2 := by linarith
    positivity
  rw [if_neg h]
  congr 1
  funext i j
  push_cast
  rfl

/-- Frobenius inner product. -/
def fro (A B : Sq n) : ℝ := ∑ i, ∑ j, A i j * B i j

theorem fro_comm (A B : Sq n) : fro A B = fro B A := by simp only [fro, mul_comm]

theorem fro_self_nonneg (A : Sq n) : 0 ≤ fro A A := Finset.sum_nonneg fun _ _ => Finset.sum_nonneg fun _ _ => mul_self_nonneg _

theorem fro_self_zero {A : Sq n} (h : fro A A = 0) : A = 0 := by
  ext i j
  have h1 := (Finset.sum_eq_zero_iff_of_nonneg fun i _ => Finset.sum_nonneg fun j _ => mul_self_nonneg (A i j)).1 h i (Finset.mem_univ i)
  have h2 := (Finset.sum_eq_zero_iff_of_nonneg fun j _ => mul_self_nonneg (A i j)).1 h1 j (Finset.mem_univ j)
  exact mul_self_eq_zero.1 h2

theorem fro_cs (A B : Sq n) : fro A B ^ 2 ≤ fro A A * fro B B := by
  have := Finset.sum_mul_sq_le_sq_mul_sq (Finset.univ : Finset (Fin n × Fin n)) (fun p => A p.1 p.2) fun p => B p.1 p.2
  simpa only [fro, pow_two, Fintype.sum_prod_type] using this

theorem meanMul_eq (A B : Sq n) : meanMul A B = fro A B / (n * n) := rfl

/-- The value of `_dcorr` for centred matrices. -/
noncomputable def ratio (A B : Sq n) : Option ℝ :=
  if fro A A = 0 ∨ fro B B = 0 then none else some (fro A B / Real.sqrt (fro A A * fro B B))

theorem dcorr_aux (A B : Sq n) (hn : 0 < n) :
    (if Real.sqrt (meanMul A A * meanMul B B) = 0 then none else some (meanMul A B / Real.sqrt (meanMul A A * meanMul B B))) = ratio A B := by
  have hn' : (0:ℝ) < n := by exact_mod_cast hn
  have e : Real.sqrt (meanMul A A * meanMul B B) = Real.sqrt (fro A A * fro B B) / (n * n) := by
    rw [meanMul_eq, meanMul_eq, div_mul_div_comm, Real.sqrt_div' _ (by positivity)]
    congr 1
    rw [Real.sqrt_eq_iff_mul_self_eq] <;> positivity
  have h0 := mul_nonneg (fro_self_nonneg A) (fro_self_nonneg B)
  rw [e, ratio, meanMul_eq]
  by_cases h : fro A A = 0 ∨ fro B B = 0
  · rw [if_pos h, if_pos]
    rw [mul_eq_zero.2 h]; simp
  · have h1 : fro A A * fro B B ≠ 0 := fun hh => h (mul_eq_zero.1 hh)
    have h2 : Real.sqrt (fro A A * fro B B) ≠ 0 := (Real.sqrt_ne_zero h0).2 h1
    rw [if_neg h, if_neg (div_ne_zero h2 (by positivity))]
    congr 1
    field_simp

theorem dcorr_biased (X : Fin n → Fin m → ℝ) (Y : Fin n → Fin k → ℝ) (hn : 0 < n) :
    dcorr X Y false = ratio (dc (euclid X)) (dc (euclid Y)) := by
  simp only [dcorr, center, Bool.false_eq_true, if_false, centerBiased_eq _ hn]
  exact dcorr_aux _ _ hn

theorem dcorr_unbiased (X : Fin n → Fin m → ℝ) (Y : Fin n → Fin k → ℝ) (hn : 3 ≤ n) :
    dcorr X Y true = ratio (uc (euclid X)) (uc (euclid Y)) := by
  simp only [dcorr, center, if_true, centerUnbiased_eq _ hn]
  exact dcorr_aux _ _ (by omega)

/-- The matrix `_dcorr` uses. -/
noncomputable def cen (u : Bool) (A : Sq n) : Sq n := if u then uc A else dc A

theorem dcorr_eq (X : Fin n → Fin m → ℝ) (Y : Fin n → Fin k → ℝ) (u : Bool) (hn : if u then 3 ≤ n else 0 < n) :
    dcorr X Y u = ratio (cen u (euclid X)) (cen u (euclid Y)) := by
  cases u
  · exact dcorr_biased X Y hn
  · exact dcorr_unbiased X Y hn

theorem dcorr_small (X : Fin n → Fin m → ℝ) (Y : Fin n → Fin k → ℝ) (u : Bool) (hn : ¬ if u then 3 ≤ n else 0 < n) :
    dcorr X Y u = none := by
  cases u
  · have : n = 0 := by simpa using hn
    subst this
    simp [dcorr, center, centerBiased]
  · have h : n = 0 ∨ n = 1 ∨ n = 2 := by simp at hn; omega
    rcases h with h | h | h <;> subst h
    · simp [dcorr, center, centerUnbiased, meanMul]
    · simp [dcorr, center, centerUnbiased]
    · simp [dcorr, center, centerUnbiased]

theorem dcorr_none_or (X : Fin n → Fin m → ℝ) (Y : Fin n → Fin k → ℝ) (u : Bool) :
    dcorr X Y u = none ∨ dcorr X Y u = ratio (cen u (euclid X)) (cen u (euclid Y)) := by
  by_cases hn : if u then 3 ≤ n else 0 < n
  · exact Or.inr (dcorr_eq X Y u hn)
  · exact Or.inl (dcorr_small X Y u hn)

theorem ratio_some {A B : Sq n} {r : ℝ} (h : ratio A B = some r) :
    0 < fro A A ∧ 0 < fro B B ∧ r = fro A B / Real.sqrt (fro A A * fro B B) := by
  unfold ratio at h
  split_ifs at h with hc
  push Not at hc
  exact ⟨lt_of_le_of_ne (fro_self_nonneg A) (Ne.symm hc.1), lt_of_le_of_ne (fro_self_nonneg B) (Ne.symm hc.2), (Option.some.inj h).symm⟩

theorem ratio_comm (A B : Sq n) : ratio A B = ratio B A := by
  unfold ratio
  rw [fro_comm A B, mul_comm (fro A A)]
  simp only [or_comm]

theorem ratio_smul (A B : Sq n) {a : ℝ} (ha : 0 < a) : ratio (a • A) B = ratio A B := by
  have e1 : fro (a • A) (a • A) = a ^ 2 * fro A A := by
    simp only [fro, Matrix.smul_apply, smul_eq_mul, Finset.mul_sum]
    exact Finset.sum_congr rfl fun _ _ => Finset.sum_congr rfl fun _ _ => by ring
  have e2 : fro (a • A) B = a * fro A B := by
    simp only [fro, Matrix.smul_apply, smul_eq_mul, Finset.mul_sum, mul_assoc]
  unfold ratio
  rw [e1, e2]
  have : a ^ 2 * fro A A = 0 ↔ fro A A = 0 := by simp [ha.ne']
  simp only [this]
  split_ifs
  · rfl
  · rw [mul_assoc, Real.sqrt_mul (by positivity), Real.sqrt_sq ha.le, mul_div_mul_left _ _ ha.ne']

/-! ### Linear algebra of the centred matrices -/

theorem cen_smul (u : Bool) (A : Sq n) (a : ℝ) : cen u (a • A) = a • cen u A := by
  ext i j
  cases u
  · simp only [cen, dc, rowSum, colSum, Matrix.smul_apply, smul_eq_mul, ← Finset.mul_sum, Bool.false_eq_true, if_false]
    ring
  · simp only [cen, uc, rowSum, colSum, Matrix.smul_apply, smul_eq_mul, ← Finset.mul_sum, if_true]
    split_ifs <;> ring

theorem cen_perm (u : Bool) (A : Sq n) (σ : Equiv.Perm (Fin n)) : cen u (A.submatrix σ σ) = (cen u A).submatrix σ σ := by
  have h1 : ∀ i, rowSum (A.submatrix σ σ) i = rowSum A (σ i) := fun i => Equiv.sum_comp σ fun j => A (σ i) j
  have h2 : ∀ i, colSum (A.submatrix σ σ) i = colSum A (σ i) := fun i => Equiv.sum_comp σ fun j => A j (σ i)
  have h3 : ∑ l, colSum (A.submatrix σ σ) l = ∑ l, colSum A l := by simp only [h2]; exact Equiv.sum_comp σ fun l => colSum A l
  ext i j
  cases u
  · simp only [cen, dc, Bool.false_eq_true, if_false, h3, Matrix.submatrix_apply]
    rw [h1, h2]
  · simp only [cen, uc, if_true, h3, Matrix.submatrix_apply, σ.injective.eq_iff]
    rw [h1, h2]

theorem fro_perm (A B : Sq n) (σ : Equiv.Perm (Fin n)) : fro (A.submatrix σ σ) (B.submatrix σ σ) = fro A B := by
  simp only [fro, Matrix.submatrix_apply]
  rw [Equiv.sum_comp σ fun i => ∑ j, A i (σ j) * B i (σ j)]
  exact Finset.sum_congr rfl fun i _ => Equiv.sum_comp σ fun j => A i j * B i j

theorem euclid_perm (X : Fin n → Fin m → ℝ) (σ : Equiv.Perm (Fin n)) : euclid (fun i => X (σ i)) = (euclid X).submatrix σ σ := by
  rw [euclid_eq, euclid_eq]; rfl

theorem sum_colSum (A : Sq n) : ∑ l, colSum A l = ∑ i, rowSum A i := Finset.sum_comm

theorem dc_row (A : Sq n) (hn : 0 < n) (i : Fin n) : ∑ j, dc A i j = 0 := by
  have hn' : (n:ℝ) ≠ 0 := by positivity
  simp only [dc, Finset.sum_add_distrib, Finset.sum_sub_distrib, ← Finset.sum_div, Finset.sum_const, Finset.card_univ, Fintype.card_fin,
    nsmul_eq_mul, Nat.cast_mul]
  have : ∑ j, A i j = rowSum A i := rfl
  rw [this]
  field_simp
  ring

theorem dc_col (A : Sq n) (hn : 0 < n) (j : Fin n) : ∑ i, dc A i j = 0 := by
  have hn' : (n:ℝ) ≠ 0 := by positivity
  simp only [dc, Finset.sum_add_distrib, Finset.sum_sub_distrib, ← Finset.sum_div, Finset.sum_const, Finset.card_univ, Fintype.card_fin,
    nsmul_eq_mul, Nat.cast_mul]
  have : ∑ i, A i j = colSum A j := rfl
  rw [this, ← sum_colSum]
  field_simp
  ring

/-- Centring the matrix is centring the coefficients. -/
theorem qf_dc (A : Sq n) (hn : 0 < n) (c : Fin n → ℝ) : qf (dc A) c = qf A fun i => c i - (∑ l, c l) / n := by
  have hn' : (n:ℝ) ≠ 0 := by positivity
  set S := ∑ l, c l with hS
  have hl : qf (dc A) c = qf A c - (∑ i, c i * rowSum A i) * S / n - S * (∑ j, c j * colSum A j) / n + S * S * (∑ l, colSum A l) / (n * n) := by
    have : ∀ i, ∑ j, c i * c j * dc A i j = ∑ j, c i * c j * A i j - c i * rowSum A i * S / n - c i * (∑ j, c j * colSum A j) / n
        + c i * S * (∑ l, colSum A l) / (n * n) := by
      intro i
      rw [hS]
      simp only [dc, mul_add, mul_sub, Finset.sum_add_distrib, Finset.sum_sub_distrib, Nat.cast_mul]
      have e1 : ∑ j, c i * c j * (rowSum A i / n) = c i * rowSum A i * (∑ l, c l) / n := by
        rw [Finset.mul_sum, Finset.sum_div]; exact Finset.sum_congr rfl fun _ _ => by ring
      have e2 : ∑ j, c i * c j * (colSum A j / n) = c i * (∑ j, c j * colSum A j) / n := by
        rw [Finset.mul_sum, Finset.sum_div]; exact Finset.sum_congr rfl fun _ _ => by ring
      have e3 : ∑ j, c i * c j * ((∑ l, colSum A l) / (n * n)) = c i * (∑ l, c l) * (∑ l, colSum A l) / (n * n) := by
        rw [← Finset.sum_mul, ← Finset.mul_sum]; ring
      rw [e1, e2, e3]
    simp only [qf, this, Finset.sum_add_distrib, Finset.sum_sub_distrib, ← Finset.sum_div, ← Finset.sum_mul]
    rfl
  have hr : qf A (fun i => c i - S / n) = qf A c - (∑ i, c i * rowSum A i) * S / n - S * (∑ j, c j * colSum A j) / n
      + S * S * (∑ l, colSum A l) / (n * n) := by
    have h1 : ∀ i, ∑ j, (c i - S / n) * (c j - S / n) * A i j = ∑ j, c i * c j * A i j - c i * rowSum A i * S / n
        - S / n * (∑ j, c j * A i j) + S / n * (S / n) * rowSum A i := by
      intro i
      simp only [rowSum, Finset.mul_sum, Finset.sum_mul, Finset.sum_div, ← Finset.sum_sub_distrib, ← Finset.sum_add_distrib]
      exact Finset.sum_congr rfl fun _ _ => by ring
    simp only [qf, h1, Finset.sum_add_distrib, Finset.sum_sub_distrib, ← Finset.sum_div, ← Finset.sum_mul, ← Finset.mul_sum]
    have h2 : ∑ i, ∑ j, c j * A i j = ∑ j, c j * colSum A j := by
      rw [Finset.sum_comm]; simp only [colSum, Finset.mul_sum]
    rw [h2, sum_colSum]
    field_simp
  rw [hl, hr]

theorem fro_nonneg_of_psd {A B : Sq n} (hA : A.PosSemidef) (hB : B.PosSemidef) : 0 ≤ fro A B := by
  have := qf_posSemidef (hA.hadamard hB) fun _ => 1
  simpa [qf, fro, Matrix.hadamard] using this

theorem dc_symm {A : Sq n} (h : ∀ i j, A i j = A j i) (i j : Fin n) : dc A i j = dc A j i := by
  have hr : ∀ i, rowSum A i = colSum A i := fun i => Finset.sum_congr rfl fun l _ => h i l
  simp only [dc, hr, h i j]; ring

/-- The centred distances are negative semidefinite. -/
theorem neg_dc_euclid (X : Fin n → Fin m → ℝ) : (-dc (euclid X)).PosSemidef := by
  rcases Nat.eq_zero_or_pos n with h | hn
  · subst h
    exact posSemidef_of_qf (fun i => i.elim0) fun c => by simp [qf]
  refine posSemidef_of_qf (fun i j => by simp only [Matrix.neg_apply]; rw [dc_symm (euclid_comm X)]) fun c => ?_
  have e : qf (-dc (euclid X)) c = -qf (dc (euclid X)) c := by
    simp only [qf, Matrix.neg_apply, mul_neg, Finset.sum_neg_distrib]
  rw [e, qf_dc _ hn, euclid_eq, neg_nonneg]
  refine dist_negative_type X ?_
  have hn' : (n:ℝ) ≠ 0 := by positivity
  simp only [Finset.sum_sub_distrib, Finset.sum_const, Finset.card_univ, Fintype.card_fin, nsmul_eq_mul]
  field_simp
  ring

theorem fro_neg (A B : Sq n) : fro (-A) (-B) = fro A B := by simp [fro]

theorem dc_zero {A : Sq n} (hs : ∀ i j, A i j = A j i) (h0 : ∀ i, A i i = 0) (h : dc A = 0) : A = 0 := by
  have hr : ∀ i, rowSum A i = colSum A i := fun i => Finset.sum_congr rfl fun l _ => hs i l
  ext i j
  have e1 := congrFun (congrFun h i) j
  have e2 := congrFun (congrFun h i) i
  have e3 := congrFun (congrFun h j) j
  simp only [dc, hr, Matrix.zero_apply, h0] at e1 e2 e3
  simp only [Matrix.zero_apply]
  linarith

/-! ### The U-centred matrix of a symmetric matrix with zero diagonal -/

theorem uc_row {A : Sq n} (hn : 3 ≤ n) (hs : ∀ i j, A i j = A j i) (h0 : ∀ i, A i i = 0) (i : Fin n) : ∑ j, uc A i j = 0 := by
  have h3 : (3:ℝ) ≤ n := by exact_mod_cast hn
  have n1 : (n:ℝ) - 1 ≠ 0 := by linarith
  have n2 : (n:ℝ) - 2 ≠ 0 := by linarith
  have hr : ∀ i, rowSum A i = colSum A i := fun i => Finset.sum_congr rfl fun l _ => hs i l
  let f : Fin n → ℝ := fun j => A i j - rowSum A i / (n - 2) - colSum A j / (n - 2) + (∑ l, colSum A l) / ((n - 1) * (n - 2))
  have e : ∀ j, uc A i j = f j - if i = j then f j else 0 := by
    intro j; simp only [uc, f]; split_ifs <;> ring
  simp only [e, Finset.sum_sub_distrib, Finset.sum_ite_eq, Finset.mem_univ, if_true]
  have : ∑ j, f j = rowSum A i - n * (rowSum A i / (n - 2)) - (∑ l, colSum A l) / (n - 2) + n * ((∑ l, colSum A l) / ((n - 1) * (n - 2))) := by
    simp only [f, Finset.sum_add_distrib, Finset.sum_sub_distrib, ← Finset.sum_div, Finset.sum_const, Finset.card_univ, Fintype.card_fin,
      nsmul_eq_mul, rowSum]
    ring
  rw [this]
  simp only [f, h0, hr]
  field_simp
  ring

theorem uc_symm {A : Sq n} (hs : ∀ i j, A i j = A j i) (i j : Fin n) : uc A i j = uc A j i := by
  have hr : ∀ i, rowSum A i = colSum A i := fun i => Finset.sum_congr rfl fun l _ => hs i l
  simp only [uc, hr, hs i j, eq_comm (a := i)]
  split_ifs
  · rfl
  · ring

theorem uc_col {A : Sq n} (hn : 3 ≤ n) (hs : ∀ i j, A i j = A j i) (h0 : ∀ i, A i i = 0) (j : Fin n) : ∑ i, uc A i j = 0 := by
  rw [← uc_row hn hs h0 j]
  exact Finset.sum_congr rfl fun i _ => uc_symm hs i j

end Verif.Indep
