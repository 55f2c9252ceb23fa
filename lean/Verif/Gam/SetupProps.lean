import Verif.Gam.Setup
import Verif.Gam.GcvProps

namespace Verif.Gam
open Matrix

variable {n p m : ℕ}

/-- The columns of `q` after the first. -/
def rest (q : Matrix (Fin (p + 1)) (Fin (p + 1)) ℝ) : Matrix (Fin (p + 1)) (Fin p) ℝ := q.submatrix id Fin.succ

/-- **C123** `absorb_constraints` multiplies by the columns of `q` after the first. -/
theorem C123_absorb (q : Matrix (Fin (p + 1)) (Fin (p + 1)) ℝ) (X : Matrix (Fin n) (Fin (p + 1)) ℝ) (S : Matrix (Fin (p + 1)) (Fin (p + 1)) ℝ) :
    absorbX q X = X * rest q ∧ absorbS q S = (rest q)ᵀ * S * rest q := by
  constructor
  · ext i j
    simp only [absorbX, rest, Matrix.transpose_apply, Matrix.submatrix_apply, Matrix.mul_apply, id, mul_comm]
  · ext i j
    simp only [absorbS, rest, Matrix.transpose_apply, Matrix.submatrix_apply, Matrix.mul_apply, id]
    refine Finset.sum_congr rfl fun x _ => ?_
    rw [mul_comm]

section qr
variable {c : Fin (p + 1) → ℝ} {q : Matrix (Fin (p + 1)) (Fin (p + 1)) ℝ}

theorem qr_left (h : QrOk c q) : q * qᵀ = 1 := mul_eq_one_comm.1 h.1

theorem rest_orth (h : QrOk c q) : (rest q)ᵀ * rest q = 1 := by
  ext i j
  have := congrFun (congrFun h.1 i.succ) j.succ
  simp only [Matrix.mul_apply, Matrix.transpose_apply, Matrix.one_apply, Fin.succ_inj] at this
  simp only [Matrix.mul_apply, Matrix.transpose_apply, rest, Matrix.submatrix_apply, id, Matrix.one_apply, this]

theorem rest_c (h : QrOk c q) : (rest q)ᵀ *ᵥ c = 0 := by
  obtain ⟨r, hr⟩ := h.2
  ext j
  have := congrFun (congrFun h.1 j.succ) 0
  simp only [Matrix.mul_apply, Matrix.transpose_apply, Matrix.one_apply, Fin.succ_ne_zero, if_false] at this
  simp only [Matrix.mulVec, dotProduct, rest, Matrix.transpose_apply, Matrix.submatrix_apply, id, hr, Pi.zero_apply]
  calc ∑ x, q x j.succ * (r * q x 0) = r * ∑ x, q x j.succ * q x 0 := by rw [Finset.mul_sum]; exact Finset.sum_congr rfl fun x _ => by ring
    _ = 0 := by rw [this, mul_zero]

theorem rest_dot (h : QrOk c q) (g : Fin p → ℝ) : c ⬝ᵥ (rest q *ᵥ g) = 0 := by
  rw [Matrix.dotProduct_mulVec, ← Matrix.mulVec_transpose, rest_c h, zero_dotProduct]

/-- **C123** The columns of the constrained basis sum to zero. -/
theorem C123_centred {X : Matrix (Fin n) (Fin (p + 1)) ℝ} (h : QrOk (colMean X) q) (j : Fin p) : ∑ i, absorbX q X i j = 0 := by
  rcases Nat.eq_zero_or_pos n with rfl | hn
  · simp
  have h1 := congrFun (rest_c h) j
  rw [(C123_absorb q X 0).1]
  simp only [Matrix.mul_apply]
  rw [Finset.sum_comm]
  simp only [Matrix.mulVec, dotProduct, Matrix.transpose_apply, colMean, Pi.zero_apply] at h1
  have hn' : (n : ℝ) ≠ 0 := by positivity
  calc ∑ y, ∑ x, X x y * rest q y j = n * ∑ y, rest q y j * ((∑ i, X i y) / n) := by
        rw [Finset.mul_sum]
        refine Finset.sum_congr rfl fun y _ => ?_
        rw [← Finset.sum_mul]; field_simp
    _ = 0 := by rw [h1, mul_zero]

/-- **C123** The coefficients meeting the constraint are exactly the constrained ones, once each. -/
theorem C123_span (h : QrOk c q) (hc : c ≠ 0) (b : Fin (p + 1) → ℝ) : c ⬝ᵥ b = 0 ↔ ∃! g : Fin p → ℝ, b = rest q *ᵥ g := by
  constructor
  · intro hb
    obtain ⟨r, hr⟩ := h.2
    have hr0 : r ≠ 0 := by rintro rfl; exact hc (by ext i; simp [hr])
    have hq0 : ∑ i, q i 0 * b i = 0 := by
      have : r * ∑ i, q i 0 * b i = 0 := by
        rw [Finset.mul_sum, ← hb, dotProduct]; exact Finset.sum_congr rfl fun i _ => by rw [hr]; ring
      exact (mul_eq_zero.1 this).resolve_left hr0
    refine ⟨(rest q)ᵀ *ᵥ b, ?_, ?_⟩
    · have : b = q *ᵥ (qᵀ *ᵥ b) := by rw [Matrix.mulVec_mulVec, qr_left h, Matrix.one_mulVec]
      ext i
      conv_lhs => rw [this]
      simp only [Matrix.mulVec, dotProduct, Fin.sum_univ_succ (fun j => q i j * _), Matrix.transpose_apply, hq0, mul_zero, zero_add, rest, Matrix.submatrix_apply, id]
    · rintro g rfl
      rw [Matrix.mulVec_mulVec, rest_orth h, Matrix.one_mulVec]
  · rintro ⟨g, rfl, _⟩
    exact rest_dot h g

/-- **C123** Fitted values and penalties of the constrained smooth are those of the smooth at the
constrained coefficients. -/
theorem C123_fit (y : Fin n → ℝ) (X : Matrix (Fin n) (Fin (p + 1)) ℝ) (S : Matrix (Fin (p + 1)) (Fin (p + 1)) ℝ) (a : ℝ) (g : Fin p → ℝ) :
    absorbX q X *ᵥ g = X *ᵥ (rest q *ᵥ g) ∧ pls (absorbX q X) (absorbS q S) y a g = pls X S y a (rest q *ᵥ g) := by
  rw [(C123_absorb q X S).1, (C123_absorb q X S).2]
  have h1 : (X * rest q) *ᵥ g = X *ᵥ (rest q *ᵥ g) := by rw [Matrix.mulVec_mulVec]
  refine ⟨h1, ?_⟩
  simp only [pls, h1]
  congr 2
  rw [Matrix.mul_assoc, ← Matrix.mulVec_mulVec, Matrix.dotProduct_mulVec, Matrix.vecMul_transpose, Matrix.mulVec_mulVec]

/-- **C123** Least squares with the constrained basis and penalty is least squares under the
constraint. -/
theorem C123_constrained (h : QrOk c q) (hc : c ≠ 0) (y : Fin n → ℝ) (X : Matrix (Fin n) (Fin (p + 1)) ℝ) (S : Matrix (Fin (p + 1)) (Fin (p + 1)) ℝ) (a : ℝ) (g : Fin p → ℝ) :
    (∀ g', pls (absorbX q X) (absorbS q S) y a g ≤ pls (absorbX q X) (absorbS q S) y a g') ↔
      ∀ b, c ⬝ᵥ b = 0 → pls X S y a (rest q *ᵥ g) ≤ pls X S y a b := by
  simp only [(C123_fit y X S a _).2]
  constructor
  · intro hm b hb
    obtain ⟨g', rfl, _⟩ := (C123_span h hc b).1 hb
    exact hm g'
  · exact fun hm g' => hm _ (rest_dot h g')

end qr

/-! ### The centring constraint of a spline -/

/-- **C123** When the rows of a basis sum to one the constraint is not void. -/
theorem C123_not_void (hn : 0 < n) {X : Matrix (Fin n) (Fin (p + 1)) ℝ} (h : ∀ i, ∑ j, X i j = 1) : colMean X ≠ 0 := by
  intro h0
  have : ∑ j, colMean X j = 1 := by
    simp only [colMean, ← Finset.sum_div]
    rw [Finset.sum_comm]
    simp only [h, Finset.sum_const, Finset.card_univ, Fintype.card_fin, nsmul_eq_mul, mul_one]
    exact div_self (by positivity)
  rw [h0] at this
  simp at this

theorem absorbS_zero {q S : Matrix (Fin (p + 1)) (Fin (p + 1)) ℝ} (hS : S.PosSemidef) (g : Fin p → ℝ) :
    absorbS q S *ᵥ g = 0 ↔ S *ᵥ (rest q *ᵥ g) = 0 := by
  rw [(C123_absorb q (0 : Matrix (Fin 0) (Fin (p + 1)) ℝ) S).2, Matrix.mul_assoc, ← Matrix.mulVec_mulVec, ← Matrix.mulVec_mulVec]
  refine ⟨fun h => psd_zero hS ?_, fun h => by rw [h, Matrix.mulVec_zero]⟩
  have := congrArg (fun v => g ⬝ᵥ v) h
  simp only [dotProduct_zero] at this
  rwa [Matrix.dotProduct_mulVec, Matrix.vecMul_transpose] at this

theorem absorbS_psd {q S : Matrix (Fin (p + 1)) (Fin (p + 1)) ℝ} (hS : S.PosSemidef) : (absorbS q S).PosSemidef := by
  rw [(C123_absorb q (0 : Matrix (Fin 0) (Fin (p + 1)) ℝ) S).2]
  have := hS.conjTranspose_mul_mul_same (rest q)
  rwa [Matrix.conjTranspose_eq_transpose_of_trivial] at this

theorem colMean_dot (X : Matrix (Fin n) (Fin (p + 1)) ℝ) (b : Fin (p + 1) → ℝ) : colMean X ⬝ᵥ b = (∑ i, (X *ᵥ b) i) / n := by
  simp only [dotProduct, colMean, Matrix.mulVec]
  rw [Finset.sum_comm, Finset.sum_div]
  refine Finset.sum_congr rfl fun j _ => ?_
  rw [← Finset.sum_mul]; ring

/-- **C123** A penalty whose null space is the constants (cyclic splines) becomes positive definite. -/
theorem C123_constants (hn : 0 < n) {X : Matrix (Fin n) (Fin (p + 1)) ℝ} {q S : Matrix (Fin (p + 1)) (Fin (p + 1)) ℝ}
    (h : QrOk (colMean X) q) (h1 : X *ᵥ (fun _ => 1) = fun _ => 1) (hS : S.PosSemidef)
    (hnull : ∀ b, S *ᵥ b = 0 → ∃ a : ℝ, b = fun _ => a) : (absorbS q S).PosDef := by
  refine Matrix.PosDef.of_dotProduct_mulVec_pos (absorbS_psd hS).1 fun g hg => ?_
  rcases ((absorbS_psd (q := q) hS).dotProduct_mulVec_nonneg g).lt_or_eq with h' | h'
  · exact h'
  exfalso
  have h0 := psd_zero (absorbS_psd (q := q) hS) (v := g) (by simpa using h'.symm)
  obtain ⟨a, ha⟩ := hnull _ ((absorbS_zero hS g).1 h0)
  have hd := rest_dot h g
  have e : (fun _ : Fin (p + 1) => a) = a • fun _ => (1 : ℝ) := by ext; simp
  rw [ha, colMean_dot, e, Matrix.mulVec_smul, h1] at hd
  have hn' : (n : ℝ) ≠ 0 := by positivity
  simp [hn'] at hd
  apply hg
  have : (rest q)ᵀ *ᵥ (rest q *ᵥ g) = g := by rw [Matrix.mulVec_mulVec, rest_orth h, Matrix.one_mulVec]
  rw [← this, ha, hd]
  ext i; simp [Matrix.mulVec, dotProduct]

/-- **C123** A penalty whose null space is the lines (cubic regression splines) keeps exactly one
direction, the centred line, when the data take two or more values. -/
theorem C123_lines (hn : 0 < n) {X : Matrix (Fin n) (Fin (p + 1)) ℝ} {q S : Matrix (Fin (p + 1)) (Fin (p + 1)) ℝ} {k : Fin (p + 1) → ℝ} {x : Fin n → ℝ}
    (h : QrOk (colMean X) q) (h1 : X *ᵥ (fun _ => 1) = fun _ => 1) (hx : X *ᵥ k = x) (hS : S.PosSemidef) (hne : ∃ i j, x i ≠ x j)
    (hnull : ∀ b, S *ᵥ b = 0 ↔ ∃ a s : ℝ, b = fun i => a + s * k i) :
    ∃ g0 : Fin p → ℝ, g0 ≠ 0 ∧ (∀ g, absorbS q S *ᵥ g = 0 ↔ ∃ s : ℝ, g = s • g0) ∧
      absorbX q X *ᵥ g0 = fun i => x i - (∑ j, x j) / n := by
  have hn' : (n : ℝ) ≠ 0 := by positivity
  have hc : colMean X ≠ 0 := by
    refine C123_not_void hn fun i => ?_
    have := congrFun h1 i
    simpa [Matrix.mulVec, dotProduct] using this
  obtain ⟨μ, hμ⟩ : ∃ μ, μ = (∑ j, x j) / (n : ℝ) := ⟨_, rfl⟩
  have hline : ∀ a s : ℝ, X *ᵥ (fun i => a + s * k i) = fun i => a + s * x i := by
    intro a s
    have e : (fun i => a + s * k i) = a • (fun _ => (1 : ℝ)) + s • k := by ext; simp
    rw [e, Matrix.mulVec_add, Matrix.mulVec_smul, Matrix.mulVec_smul, h1, hx]
    ext i; simp
  have hdot : ∀ a s : ℝ, colMean X ⬝ᵥ (fun i => a + s * k i) = a + s * μ := by
    intro a s
    rw [colMean_dot, hline, Finset.sum_add_distrib, ← Finset.mul_sum, hμ]
    simp only [Finset.sum_const, Finset.card_univ, Fintype.card_fin, nsmul_eq_mul]
    field_simp
  obtain ⟨g0, hg0, _⟩ := (C123_span h hc (fun i => -μ + 1 * k i)).1 (by rw [hdot]; ring)
  have hX0 : absorbX q X *ᵥ g0 = fun i => x i - μ := by
    rw [(C123_fit (fun _ => 0) X S 0 g0).1, ← hg0, hline]
    ext i; ring
  refine ⟨g0, ?_, fun g => ⟨fun hg => ?_, ?_⟩, by rw [hX0, hμ]⟩
  · rintro rfl
    obtain ⟨i, j, hij⟩ := hne
    have e1 := congrFun hX0 i
    have e2 := congrFun hX0 j
    simp only [Matrix.mulVec_zero, Pi.zero_apply] at e1 e2
    exact hij (by linarith)
  · obtain ⟨a, s, hb⟩ := (hnull _).1 ((absorbS_zero hS g).1 hg)
    have hd := rest_dot h g
    rw [hb, hdot] at hd
    refine ⟨s, ?_⟩
    have e : rest q *ᵥ g = rest q *ᵥ (s • g0) := by
      rw [Matrix.mulVec_smul, ← hg0, hb]
      ext i; simp only [Pi.smul_apply, smul_eq_mul]; linear_combination hd
    have e2 := congrArg (fun v => (rest q)ᵀ *ᵥ v) e
    simpa only [Matrix.mulVec_mulVec, rest_orth h, Matrix.one_mulVec] using e2
  · rintro ⟨s, rfl⟩
    rw [absorbS_zero hS, Matrix.mulVec_smul, ← hg0]
    exact (hnull _).2 ⟨s * -μ, s, by ext i; simp only [Pi.smul_apply, smul_eq_mul]; ring⟩

/-! ### Scale -/

theorem le_maxOf (f : Fin (n + 1) → ℝ) (i : Fin (n + 1)) : f i ≤ maxOf f := Finset.le_sup' f (Finset.mem_univ i)

theorem maxOf_mul (f : Fin (n + 1) → ℝ) {c : ℝ} (hc : 0 ≤ c) : maxOf (fun i => c * f i) = c * maxOf f := by
  refine le_antisymm (Finset.sup'_le _ _ fun i _ => mul_le_mul_of_nonneg_left (le_maxOf f i) hc) ?_
  obtain ⟨i, _, hi⟩ := Finset.exists_mem_eq_sup' (s := Finset.univ) ⟨0, Finset.mem_univ _⟩ f
  rw [maxOf, hi]
  exact le_maxOf (fun i => c * f i) i

theorem norm1_pos {S : Matrix (Fin m) (Fin (p + 1)) ℝ} (h : S ≠ 0) : 0 < norm1 S := by
  by_contra hc
  apply h
  ext i j
  have h1 : ∑ i, |S i j| ≤ 0 := (le_maxOf (fun j => ∑ i, |S i j|) j).trans (not_lt.1 hc)
  have h2 : |S i j| ≤ ∑ i, |S i j| := Finset.single_le_sum (f := fun i => |S i j|) (fun _ _ => abs_nonneg _) (Finset.mem_univ i)
  exact abs_nonpos_iff.1 (h2.trans h1)

theorem rowMax_pos {X : Matrix (Fin (n + 1)) (Fin m) ℝ} (h : X ≠ 0) : 0 < rowMax X := by
  by_contra hc
  apply h
  ext i j
  have h1 : ∑ j, |X i j| ≤ 0 := (le_maxOf (fun i => ∑ j, |X i j|) i).trans (not_lt.1 hc)
  have h2 : |X i j| ≤ ∑ j, |X i j| := Finset.single_le_sum (f := fun j => |X i j|) (fun _ _ => abs_nonneg _) (Finset.mem_univ j)
  exact abs_nonpos_iff.1 (h2.trans h1)

/-- **C123** The scale is positive, and the penalty divided by it has the norm of the design squared. -/
theorem C123_scale {X : Matrix (Fin (n + 1)) (Fin (p + 1)) ℝ} {S : Matrix (Fin (p + 1)) (Fin (p + 1)) ℝ} (hX : X ≠ 0) (hS : S ≠ 0) :
    0 < penaltyScale X S ∧ norm1 ((1 / penaltyScale X S) • S) = rowMax X ^ 2 := by
  have h1 := norm1_pos hS
  have h2 := rowMax_pos hX
  have h3 : 0 < penaltyScale X S := div_pos h1 (by positivity)
  refine ⟨h3, ?_⟩
  have e : norm1 ((1 / penaltyScale X S) • S) = 1 / penaltyScale X S * norm1 S := by
    rw [norm1, norm1, ← maxOf_mul _ (by positivity)]
    congr 1
    ext j
    rw [Finset.mul_sum]
    refine Finset.sum_congr rfl fun i _ => ?_
    rw [Matrix.smul_apply, smul_eq_mul, abs_mul, abs_of_pos (by positivity)]
  rw [e, penaltyScale]
  field_simp

/-- **C123** Dividing the penalty by its scale only changes the unit of the smoothing parameter. -/
theorem C123_unit (q : Matrix (Fin (p + 1)) (Fin (p + 1)) ℝ) (X : Matrix (Fin (n + 1)) (Fin (p + 1)) ℝ) (S : Matrix (Fin (p + 1)) (Fin (p + 1)) ℝ) (y : Fin (n + 1) → ℝ) (a : ℝ) (g : Fin p → ℝ) :
    pls (getSmooth q X S).1 (getSmooth q X S).2 y a g = pls X S y (a / penaltyScale X S) (rest q *ᵥ g) := by
  rw [← (C123_fit y X S _ g).2]
  simp only [getSmooth, pls, Matrix.smul_mulVec, dotProduct_smul, smul_eq_mul]
  ring

/-! ### Categories -/

/-- **C123** With the indicators of a factor the designs by category add up to the design, and each
is zero outside its category. -/
theorem C123_by {k : ℕ} (v : Fin k → Fin n → ℝ) (hv : ∀ i, ∑ c, v c i = 1) (X : Matrix (Fin n) (Fin m) ℝ) :
    ∑ c, byRows (v c) X = X ∧ ∀ c i, v c i = 0 → ∀ j, byRows (v c) X i j = 0 := by
  constructor
  · ext i j
    rw [Matrix.sum_apply]
    simp only [byRows, ← Finset.mul_sum, hv, mul_one]
  · intro c i h j
    simp only [byRows, h, mul_zero]

/-- **C123** The values of a category lose the observations that are zero. -/
theorem C123_by_values_violated : byValues [0, 1, 2] [1, 1, 0] = [1] := by decide +kernel

end Verif.Gam
