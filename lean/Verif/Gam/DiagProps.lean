import Verif.Gam.Diag
import Verif.Gam.SmoothProps
import Mathlib.Tactic.Linarith
import Mathlib.Tactic.IntervalCases

namespace Verif.Gam
open Matrix Finset

variable {r : ℕ} {S U : Matrix (Fin (r + 1)) (Fin (r + 1)) ℝ} {D : Fin (r + 1) → ℝ}

/-! ### One smooth -/

theorem scaleD_sq (i : Fin (r + 1)) (h : i ≠ Fin.last r → 0 < D i) : 0 < scaleD D i ∧
    scaleD D i ^ 2 = if i = Fin.last r then 1 else 1 / D i := by
  unfold scaleD
  split_ifs with h1
  · simp
  · have := h h1
    exact ⟨Real.sqrt_pos.2 (by positivity), Real.sq_sqrt (by positivity)⟩

/-- **C125** `V` and `Vi.T` are inverse to one another. -/
theorem C125_inverse (hU : Uᵀ * U = 1) (hD : ∀ i, i ≠ Fin.last r → 0 < D i) : diagV U D * (diagVi U D)ᵀ = 1 ∧ (diagVi U D)ᵀ * diagV U D = 1 := by
  have hd : diagonal (scaleD D) * diagonal (fun i => 1 / scaleD D i) = 1 := by
    rw [Matrix.diagonal_mul_diagonal, ← Matrix.diagonal_one]
    congr 1
    ext i
    exact mul_one_div_cancel (scaleD_sq i (hD i)).1.ne'
  have h1 : diagV U D * (diagVi U D)ᵀ = 1 := by
    rw [diagV, diagVi, Matrix.transpose_mul, Matrix.diagonal_transpose, Matrix.mul_assoc, ← Matrix.mul_assoc (diagonal _), hd, Matrix.one_mul]
    exact mul_eq_one_comm.1 hU
  exact ⟨h1, mul_eq_one_comm.1 h1⟩

theorem V_penalty (h : EigOk S U D) : (diagV U D)ᵀ * S * diagV U D = diagonal fun i => scaleD D i ^ 2 * D i := by
  obtain ⟨h1, h2, _⟩ := h
  rw [h2, diagV, Matrix.transpose_mul, Matrix.diagonal_transpose]
  calc _ = diagonal (scaleD D) * (Uᵀ * U) * diagonal D * (Uᵀ * U) * diagonal (scaleD D) := by simp only [Matrix.mul_assoc]
    _ = _ := by
      rw [h1, Matrix.mul_one, Matrix.mul_one, Matrix.diagonal_mul_diagonal, Matrix.diagonal_mul_diagonal]
      congr 1; ext i; ring

/-- **C125** In the new coordinates the penalty is the identity but for its last entry, which is the
smallest eigenvalue. -/
theorem C125_penalty (h : EigOk S U D) (hD : ∀ i, i ≠ Fin.last r → 0 < D i) :
    (diagV U D)ᵀ * S * diagV U D = diagonal fun i => if i = Fin.last r then D i else 1 := by
  rw [V_penalty h]
  congr 1
  ext i
  rw [(scaleD_sq i (hD i)).2]
  split_ifs with h1
  · rw [one_mul]
  · exact one_div_mul_cancel (hD i h1).ne'

theorem eig_col (h : EigOk S U D) (i : Fin (r + 1)) : S *ᵥ (fun j => U j i) = D i • fun j => U j i := by
  have e : (fun j => U j i) = U *ᵥ Pi.single i 1 := by ext j; simp
  rw [e, Matrix.mulVec_mulVec, h.2.1, Matrix.mul_assoc, h.1, Matrix.mul_one, ← Matrix.mulVec_mulVec, ← Matrix.mulVec_smul]
  congr 1
  ext j
  by_cases hj : j = i
  · subst hj; simp [Matrix.mulVec_diagonal]
  · simp [Matrix.mulVec_diagonal, hj]

theorem eig_nonneg (h : EigOk S U D) (hS : S.PosSemidef) (i : Fin (r + 1)) : 0 ≤ D i := by
  have h1 := hS.dotProduct_mulVec_nonneg (fun j => U j i)
  have h2 := congrFun (congrFun h.1 i) i
  simp only [Matrix.mul_apply, Matrix.transpose_apply, Matrix.one_apply_eq] at h2
  rw [eig_col h, dotProduct_smul] at h1
  simp only [star_trivial, dotProduct, h2, smul_eq_mul, mul_one] at h1
  exact h1

/-- A positive semidefinite matrix with a one dimensional null space has one zero eigenvalue, the
last. -/
theorem eig_one (h : EigOk S U D) (hS : S.PosSemidef) {g0 : Fin (r + 1) → ℝ} (h0 : g0 ≠ 0) (hg : ∀ g, S *ᵥ g = 0 ↔ ∃ s : ℝ, g = s • g0) :
    D (Fin.last r) = 0 ∧ ∀ i, i ≠ Fin.last r → 0 < D i := by
  have hUU : U * Uᵀ = 1 := mul_eq_one_comm.1 h.1
  have hlast : D (Fin.last r) = 0 := by
    by_contra hc
    have hp : ∀ i, 0 < D i := fun i =>
      lt_of_lt_of_le (lt_of_le_of_ne (eig_nonneg h hS _) (Ne.symm hc)) (h.2.2 (Fin.le_last i))
    have h1 : S *ᵥ g0 = 0 := (hg g0).2 ⟨1, by simp⟩
    have h2 : diagonal D *ᵥ (Uᵀ *ᵥ g0) = 0 := by
      have := congrArg (fun v => Uᵀ *ᵥ v) h1
      rw [h.2.1] at this
      simp only [Matrix.mulVec_mulVec, Matrix.mulVec_zero] at this
      rw [← Matrix.mul_assoc, ← Matrix.mul_assoc, h.1, Matrix.one_mul, ← Matrix.mulVec_mulVec] at this
      exact this
    have h3 : Uᵀ *ᵥ g0 = 0 := by
      ext i
      have := congrFun h2 i
      rw [Matrix.mulVec_diagonal] at this
      exact (mul_eq_zero.1 this).resolve_left (hp i).ne'
    apply h0
    have := congrArg (fun v => U *ᵥ v) h3
    simpa [Matrix.mulVec_mulVec, hUU] using this
  refine ⟨hlast, fun i hi => ?_⟩
  rcases (eig_nonneg h hS i).lt_or_eq with h1 | h1
  · exact h1
  exfalso
  obtain ⟨s, hs⟩ := (hg (fun j => U j i)).1 (by rw [eig_col h, ← h1, zero_smul])
  obtain ⟨t, ht⟩ := (hg (fun j => U j (Fin.last r))).1 (by rw [eig_col h, hlast, zero_smul])
  have a1 := congrFun (congrFun h.1 i) i
  have a2 := congrFun (congrFun h.1 (Fin.last r)) (Fin.last r)
  have a3 := congrFun (congrFun h.1 i) (Fin.last r)
  simp only [Matrix.mul_apply, Matrix.transpose_apply, Matrix.one_apply_eq, Matrix.one_apply_ne hi] at a1 a2 a3
  have es : ∀ j, U j i = s * g0 j := fun j => congrFun hs j
  have et : ∀ j, U j (Fin.last r) = t * g0 j := fun j => congrFun ht j
  simp only [es, et] at a1 a2 a3
  have f1 : ∑ j, s * g0 j * (s * g0 j) = s * s * ∑ j, g0 j * g0 j := by rw [Finset.mul_sum]; exact Finset.sum_congr rfl fun j _ => by ring
  have f2 : ∑ j, t * g0 j * (t * g0 j) = t * t * ∑ j, g0 j * g0 j := by rw [Finset.mul_sum]; exact Finset.sum_congr rfl fun j _ => by ring
  have f3 : ∑ j, s * g0 j * (t * g0 j) = s * t * ∑ j, g0 j * g0 j := by rw [Finset.mul_sum]; exact Finset.sum_congr rfl fun j _ => by ring
  rw [f1] at a1; rw [f2] at a2; rw [f3] at a3
  have : (s * s * ∑ j, g0 j * g0 j) * (t * t * ∑ j, g0 j * g0 j) = (s * t * ∑ j, g0 j * g0 j) ^ 2 := by ring
  rw [a1, a2, a3] at this
  norm_num at this

/-- **C125** For the cubic regression spline of a smooth set up by `get_smooth` the new penalty is the
identity with a zero in the last place. -/
theorem C125_cubic_partial {n : ℕ} {k : ℕ → ℝ} (hr : 1 ≤ r) (hk : Verif.Spl.Inc (r + 2) k) {P : Matrix (Fin (r + 2)) (Fin (r + 2)) ℝ} {F : ℕ → ℕ → ℝ}
    (h : Verif.Spl.crPenalty (r + 2) k = some (P, F)) {x : Fin n → ℝ} (hx : ∃ i j, x i ≠ x j)
    {q : Matrix (Fin (r + 2)) (Fin (r + 2)) ℝ} (hq : QrOk (colMean (crMat k F x)) q) (he : EigOk (absorbS q P) U D) :
    (diagV U D)ᵀ * absorbS q P * diagV U D = diagonal (fun i => if i = Fin.last r then 0 else 1) ∧
      diagV U D * (diagVi U D)ᵀ = 1 := by
  obtain ⟨hS, g0, h0, hg, _⟩ := C123_cubic (p := r + 1) (by omega) hk h hx hq
  obtain ⟨h1, h2⟩ := eig_one he hS h0 hg
  refine ⟨?_, (C125_inverse he.1 h2).1⟩
  rw [C125_penalty he h2]
  congr 1
  ext i
  split_ifs with hi
  · rw [hi, h1]
  · rfl

/-- **C125** For the cyclic spline the coefficient taken to be free has a positive penalty. -/
theorem C125_cyclic_violated {n : ℕ} {k : ℕ → ℝ} (hr : 1 ≤ r) (hk : Verif.Spl.Inc (r + 1 + 1 + 1) k) {P F : Matrix (Fin (r + 2)) (Fin (r + 2)) ℝ}
    (h : Verif.Spl.ccPenalty (r + 2) k = some (P, F)) (hn : 0 < n) {x : Fin n → ℝ}
    {q : Matrix (Fin (r + 2)) (Fin (r + 2)) ℝ} (hq : QrOk (colMean (ccMat k (Verif.Spl.rd F) x)) q) (he : EigOk (absorbS q P) U D) :
    0 < ((diagV U D)ᵀ * absorbS q P * diagV U D) (Fin.last r) (Fin.last r) := by
  have hP := C123_cyclic (p := r + 1) (by omega) hk h hn hq
  have hp : ∀ i, 0 < D i := by
    intro i
    have h2 := congrFun (congrFun he.1 i) i
    simp only [Matrix.mul_apply, Matrix.transpose_apply, Matrix.one_apply_eq] at h2
    have hne : (fun j => U j i) ≠ 0 := by
      intro hz
      have : ∀ j, U j i = 0 := fun j => congrFun hz j
      simp [this] at h2
    have h1 := hP.dotProduct_mulVec_pos hne
    rw [eig_col he, dotProduct_smul] at h1
    simp only [star_trivial, dotProduct, h2, smul_eq_mul, mul_one] at h1
    exact h1
  rw [C125_penalty he fun i _ => hp i]
  simp [hp]

/-! ### All smooths -/

/-- The loop keeps `T` and `Ti` inverse to one another: invariant up to the columns below `start`. -/
structure Inv2 (start : ℕ) (t : (ℕ → ℕ → ℝ) × (ℕ → ℕ → ℝ)) : Prop where
  off1 : ∀ i j, (i < start ∧ start ≤ j) ∨ (j < start ∧ start ≤ i) → t.1 i j = 0
  off2 : ∀ i j, (i < start ∧ start ≤ j) ∨ (j < start ∧ start ≤ i) → t.2 i j = 0
  new1 : ∀ i j, start ≤ i → start ≤ j → t.1 i j = eyeN i j
  new2 : ∀ i j, start ≤ i → start ≤ j → t.2 i j = eyeN i j
  inv : ∀ i j, i < start → j < start → ∑ k ∈ range start, t.1 i k * t.2 k j = eyeN i j

theorem inv2_start (s : ℕ) : Inv2 s (eyeN, eyeN) := by
  refine ⟨fun i j h => if_neg (by omega), fun i j h => if_neg (by omega), fun _ _ _ _ => rfl, fun _ _ _ _ => rfl, fun i j hi _ => ?_⟩
  rw [Finset.sum_eq_single i]
  · simp [eyeN]
  · intro k _ hk; simp [eyeN, Ne.symm hk]
  · intro h; exact absurd (mem_range.2 hi) h

theorem ent_val {m : ℕ} (M : Matrix (Fin m) (Fin m) ℝ) (i j : Fin m) : ent M i j = M i j := by simp [ent]

theorem inv2_step {start m : ℕ} {t : (ℕ → ℕ → ℝ) × (ℕ → ℕ → ℝ)} (h : Inv2 start t) {V W : Matrix (Fin m) (Fin m) ℝ} (hVW : Vᵀ * Wᵀ = 1) :
    Inv2 (start + m) (setBlock start V t.1, setBlock start W t.2) := by
  have key : ∀ (M : Matrix (Fin m) (Fin m) ℝ) (T : ℕ → ℕ → ℝ), (∀ i j, (i < start ∧ start ≤ j) ∨ (j < start ∧ start ≤ i) → T i j = 0) →
      (∀ i j, start ≤ i → start ≤ j → T i j = eyeN i j) →
      ∀ i j, (i < start + m ∧ start + m ≤ j) ∨ (j < start + m ∧ start + m ≤ i) → setBlock start M T i j = 0 := by
    intro M T h1 h2 i j hij
    rw [setBlock, if_neg (by omega)]
    by_cases hi : i < start
    · exact h1 i j (Or.inl ⟨hi, by omega⟩)
    by_cases hj : j < start
    · exact h1 i j (Or.inr ⟨hj, by omega⟩)
    rw [h2 i j (by omega) (by omega), eyeN, if_neg (by omega)]
  refine ⟨key V t.1 h.off1 h.new1, key W t.2 h.off2 h.new2, fun i j hi hj => ?_, fun i j hi hj => ?_, fun i j hi hj => ?_⟩
  · simp only [setBlock]; rw [if_neg (by omega)]; exact h.new1 i j (by omega) (by omega)
  · simp only [setBlock]; rw [if_neg (by omega)]; exact h.new2 i j (by omega) (by omega)
  rw [Finset.sum_range_add]
  simp only
  by_cases hi' : i < start
  · have z : ∑ x ∈ range m, setBlock start V t.1 i (start + x) * setBlock start W t.2 (start + x) j = 0 := by
      refine Finset.sum_eq_zero fun x _ => ?_
      rw [setBlock, if_neg (by omega), h.off1 i _ (Or.inl ⟨hi', by omega⟩), zero_mul]
    rw [z, add_zero]
    by_cases hj' : j < start
    · rw [← h.inv i j hi' hj']
      refine Finset.sum_congr rfl fun x _ => ?_
      rw [setBlock, if_neg (by omega), setBlock, if_neg (by omega)]
    · rw [eyeN, if_neg (by omega)]
      refine Finset.sum_eq_zero fun x hx => ?_
      have := mem_range.1 hx
      rw [setBlock, if_neg (by omega), setBlock, if_neg (by omega), h.off2 x j (Or.inl ⟨this, by omega⟩), mul_zero]
  · have z : ∑ x ∈ range start, setBlock start V t.1 i x * setBlock start W t.2 x j = 0 := by
      refine Finset.sum_eq_zero fun x hx => ?_
      have := mem_range.1 hx
      rw [setBlock, if_neg (by omega), h.off1 i x (Or.inr ⟨this, by omega⟩), zero_mul]
    rw [z, zero_add]
    by_cases hj' : j < start
    · rw [eyeN, if_neg (by omega)]
      refine Finset.sum_eq_zero fun x hx => ?_
      have := mem_range.1 hx
      rw [setBlock, setBlock, if_neg (by omega : ¬ (start ≤ start + x ∧ start + x < start + m ∧ start ≤ j ∧ j < start + m)), h.off2 _ j (Or.inr ⟨hj', by omega⟩), mul_zero]
    · obtain ⟨a, rfl⟩ : ∃ a, i = start + a := ⟨i - start, by omega⟩
      obtain ⟨b, rfl⟩ : ∃ b, j = start + b := ⟨j - start, by omega⟩
      have ha : a < m := by omega
      have hb : b < m := by omega
      have := congrFun (congrFun hVW ⟨a, ha⟩) ⟨b, hb⟩
      simp only [Matrix.mul_apply, Matrix.transpose_apply, Matrix.one_apply, Fin.mk.injEq] at this
      rw [eyeN]
      simp only [Nat.add_left_cancel_iff]
      rw [← this, ← Fin.sum_univ_eq_sum_range (fun x => setBlock start V t.1 (start + a) (start + x) * setBlock start W t.2 (start + x) (start + b)) m]
      refine Finset.sum_congr rfl fun x _ => ?_
      have hx := x.2
      rw [setBlock, setBlock, if_pos (by omega), if_pos (by omega)]
      simp only [Nat.add_sub_cancel_left]
      rw [ent, dif_pos ⟨hx, ha⟩, ent, dif_pos ⟨hb, hx⟩]

/-- **C125** `T` and `Ti` are inverse to one another, for any number of smooths. -/
theorem C125_all (es : List Eig) (hs : ∀ e ∈ es, e.Uᵀ * e.U = 1 ∧ ∀ i, i ≠ Fin.last e.r → 0 < e.D i) (start : ℕ) :
    ∀ i j, i < start + (es.map fun e => e.r + 1).sum → j < start + (es.map fun e => e.r + 1).sum →
      ∑ k ∈ range (start + (es.map fun e => e.r + 1).sum), (diagT start es).1 i k * (diagT start es).2 k j = eyeN i j := by
  have key : ∀ (es : List Eig), (∀ e ∈ es, e.Uᵀ * e.U = 1 ∧ ∀ i, i ≠ Fin.last e.r → 0 < e.D i) → ∀ start t, Inv2 start t →
      Inv2 (start + (es.map fun e => e.r + 1).sum) (diagLoop start es t) := by
    intro es
    induction es with
    | nil => intro _ start t h; simpa [diagLoop] using h
    | cons e es ih =>
      intro hs start t h
      rw [diagLoop, List.map_cons, List.sum_cons, ← add_assoc]
      refine ih (fun e' he' => hs e' (List.mem_cons_of_mem _ he')) _ _ (inv2_step h ?_)
      rw [Matrix.transpose_transpose]
      exact (C125_inverse (hs e (List.mem_cons_self)).1 (hs e List.mem_cons_self).2).1
  exact (key es hs start _ (inv2_start start)).inv

/-! ### Indices -/

theorem ixPen_mem (rs : List ℕ) : ∀ start i, i ∈ ixPen start rs → start ≤ i ∧ i < start + (rs.map (· + 1)).sum := by
  induction rs with
  | nil => intro _ _ h; simp [ixPen] at h
  | cons r rs ih =>
    intro start i h
    rw [ixPen, List.mem_append, List.mem_range'_1] at h
    simp only [List.map_cons, List.sum_cons]
    rcases h with h | h
    · omega
    · have := ih _ _ h; omega

theorem ixLast_mem (rs : List ℕ) : ∀ start i, i ∈ ixLast start rs → start ≤ i ∧ i < start + (rs.map (· + 1)).sum := by
  induction rs with
  | nil => intro _ _ h; simp [ixLast] at h
  | cons r rs ih =>
    intro start i h
    rw [ixLast, List.mem_cons] at h
    simp only [List.map_cons, List.sum_cons]
    rcases h with h | h
    · omega
    · have := ih _ _ h; omega

theorem ix_perm (rs : List ℕ) : ∀ start, (ixPen start rs ++ ixLast start rs).Perm (List.range' start (rs.map (· + 1)).sum) := by
  induction rs with
  | nil => intro _; simp [ixPen, ixLast]
  | cons r rs ih =>
    intro start
    rw [ixPen, ixLast, List.map_cons, List.sum_cons, ← List.range'_append_1, List.range'_1_concat]
    have h := ih (start + (r + 1))
    have e : (List.range' start r ++ ixPen (start + (r + 1)) rs ++ (start + r) :: ixLast (start + (r + 1)) rs).Perm
        (List.range' start r ++ [start + r] ++ (ixPen (start + (r + 1)) rs ++ ixLast (start + (r + 1)) rs)) := by
      simp only [List.append_assoc]
      refine List.Perm.append_left _ ?_
      simpa using List.perm_middle
    exact e.trans (List.Perm.append_left _ h)

/-- **C125** With two or more columns in the first smooth the penalised and the free indices are each
column once. -/
theorem C125_indices_partial (start r : ℕ) (rs : List ℕ) (hr : 1 ≤ r) : ∃ f, ixFree start (r :: rs) = some f ∧
    (f ++ ixPen start (r :: rs)).Perm (List.range (start + ((r :: rs).map (· + 1)).sum)) ∧
    (ixSmooth 0 (r :: rs)).length = (ixPen start (r :: rs)).length := by
  have hm : (ixPen start (r :: rs)).min? = some start := by
    rw [List.min?_eq_some_iff]
    refine ⟨?_, fun b hb => (ixPen_mem _ _ _ hb).1⟩
    rw [ixPen, List.mem_append, List.mem_range'_1]
    left; omega
  refine ⟨_, by rw [ixFree, hm], ?_, ?_⟩
  · have h := ix_perm (r :: rs) start
    have e : List.range (start + ((r :: rs).map (· + 1)).sum) = List.range start ++ List.range' start ((r :: rs).map (· + 1)).sum := by
      rw [List.range_eq_range', List.range_eq_range']
      have := List.range'_append_1 (s := 0) (m := start) (n := ((r :: rs).map (· + 1)).sum)
      rw [zero_add] at this
      exact this.symm
    rw [e, List.append_assoc]
    exact List.Perm.append_left _ (List.perm_append_comm.trans h)
  · have : ∀ (rs : List ℕ) (i start : ℕ), (ixSmooth i rs).length = (ixPen start rs).length := by
      intro rs
      induction rs with
      | nil => intros; rfl
      | cons r rs ih => intro i start; simp [ixSmooth, ixPen, ih (i + 1) (start + (r + 1))]
    exact this _ _ _

/-- **C125** When the first smooth has one column its index is repeated; a single smooth of one column raises. -/
theorem C125_indices_violated : ixFree 1 [0, 2] = some [0, 1, 1, 4] ∧ ixFree 1 [0] = none := by decide +kernel

/-- **C125** The prior written in Stan gives a coefficient the precision `lam ** 2`, not `lam`: it is the penalty
of the model only for `lam` equal to one. -/
theorem C125_prior_violated {lam b : ℝ} (hl : 0 < lam) (hb : b ≠ 0) : stanPrior lam b = -(1 / 2) * (lam * b ^ 2) ↔ lam = 1 := by
  unfold stanPrior
  have hb2 : b ^ 2 ≠ 0 := pow_ne_zero 2 hb
  have e : b / (1 / lam) = b * lam := by field_simp
  rw [e]
  constructor
  · intro h
    have : (lam - 1) * (lam * b ^ 2) = 0 := by nlinarith
    rcases mul_eq_zero.1 this with h | h
    · linarith
    · exact absurd h (mul_ne_zero hl.ne' hb2)
  · rintro rfl; ring

end Verif.Gam
