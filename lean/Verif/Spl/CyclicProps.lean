import Verif.Spl.CubicProps
import Verif.Fa.RotationProps
/-!
# C119: cyclic cubic splines
-/
namespace Verif.Spl
open Finset Filter Topology

variable {n : ℕ} {k : ℕ → ℝ}

/-! ## The arrays -/

/-- The pattern of `ccB` and `ccD`. -/
noncomputable def cyc (n : ℕ) (a0 b0 c0 p q r : ℝ) (x y z : ℕ → ℝ) : ℕ → ℕ → ℝ :=
  put (put (put ((List.range' 1 (n - 2)).foldl (fun B i => put (put (put B i (i - 1) (x i)) i i (y i)) i (i + 1) (z i))
    (put (put (put (fun _ _ => 0) 0 0 a0) 0 1 b0) 0 (n - 1) c0)) (n - 1) (n - 2) p) (n - 1) (n - 1) q) (n - 1) 0 r

theorem ccB_eq (n : ℕ) (h : ℕ → ℝ) : ccB n h = cyc n ((h (n - 1) + h 0) / 3) (h 0 / 6) (h (n - 1) / 6) (h (n - 2) / 6)
    ((h (n - 2) + h (n - 1)) / 3) (h (n - 1) / 6) (fun i => h (i - 1) / 6) (fun i => (h (i - 1) + h i) / 3) (fun i => h i / 6) := rfl

theorem ccD_eq (n : ℕ) (h : ℕ → ℝ) : ccD n h = cyc n (-(1 / h 0 + 1 / h (n - 1))) (1 / h 0) (1 / h (n - 1)) (1 / h (n - 2))
    (-(1 / h (n - 2) + 1 / h (n - 1))) (1 / h (n - 1)) (fun i => 1 / h (i - 1)) (fun i => -(1 / h (i - 1) + 1 / h i)) (fun i => 1 / h i) := rfl

theorem cyc_fold (x y z : ℕ → ℝ) (B : ℕ → ℕ → ℝ) (N i j : ℕ) :
    (List.range' 1 N).foldl (fun B i => put (put (put B i (i - 1) (x i)) i i (y i)) i (i + 1) (z i)) B i j =
    if 1 ≤ i ∧ i ≤ N then (if j = i + 1 then z i else if j = i then y i else if j = i - 1 then x i else B i j) else B i j := by
  induction N with
  | zero => simp only [List.range'_zero, List.foldl_nil]; rw [if_neg (by omega)]
  | succ N ih =>
    rw [List.range'_1_concat, List.foldl_append]
    simp only [List.foldl_cons, List.foldl_nil, put]
    rw [ih]
    by_cases hi : i = 1 + N
    · subst hi
      simp only [true_and]
      rw [if_neg (by omega : ¬ (1 ≤ 1 + N ∧ 1 + N ≤ N)), if_pos (by omega : 1 ≤ 1 + N ∧ 1 + N ≤ N + 1)]
    · simp only [hi, false_and, if_false]
      by_cases h1 : 1 ≤ i ∧ i ≤ N
      · rw [if_pos h1, if_pos (by omega : 1 ≤ i ∧ i ≤ N + 1)]
      · rw [if_neg h1, if_neg (by omega : ¬ (1 ≤ i ∧ i ≤ N + 1))]

theorem three_sum (n : ℕ) (f : ℕ → ℝ) (v : ℕ → ℝ) {a b c : ℕ} {p q r : ℝ} (ha : a < n) (hb : b < n) (hc : c < n) (hab : a ≠ b) (hac : a ≠ c) (hbc : b ≠ c)
    (h : ∀ j < n, f j = if j = a then p else if j = b then q else if j = c then r else 0) :
    ∑ j ∈ range n, f j * v j = p * v a + q * v b + r * v c := by
  have e : ∀ j ∈ range n, f j * v j = (if j = a then p * v a else 0) + (if j = b then q * v b else 0) + (if j = c then r * v c else 0) := by
    intro j hj
    rw [h j (mem_range.1 hj)]
    by_cases h1 : j = a
    · subst h1; simp [hab, hac]
    · by_cases h2 : j = b
      · subst h2; simp [h1, hbc]
      · by_cases h3 : j = c
        · subst h3; simp [h1, h2]
        · simp [h1, h2, h3]
  rw [sum_congr rfl e]
  simp only [sum_add_distrib, sum_ite_eq', mem_range, ha, hb, hc, if_true]

/-- The coefficient or second derivative at every knot: the last knot is the first. -/
def wrap (n : ℕ) (v : ℕ → ℝ) (i : ℕ) : ℝ := if i = n then v 0 else v i

section rows
variable (a0 b0 c0 p q r : ℝ) (x y z v : ℕ → ℝ)

theorem cyc_first (hn : 3 ≤ n) : ∑ c ∈ range n, cyc n a0 b0 c0 p q r x y z 0 c * v c = c0 * v (n - 1) + a0 * v 0 + b0 * v 1 := by
  refine three_sum n _ v (by omega) (by omega) (by omega) (by omega) (by omega) (by omega) fun j hj => ?_
  simp only [cyc, put, cyc_fold, true_and]
  split_ifs <;> first | rfl | omega

theorem cyc_mid (hn : 3 ≤ n) {i : ℕ} (h1 : 1 ≤ i) (h2 : i + 1 < n) :
    ∑ c ∈ range n, cyc n a0 b0 c0 p q r x y z i c * v c = x i * v (i - 1) + y i * v i + z i * v (i + 1) := by
  refine three_sum n _ v (by omega) (by omega) (by omega) (by omega) (by omega) (by omega) fun j hj => ?_
  simp only [cyc, put, cyc_fold, true_and]
  split_ifs <;> first | rfl | omega

theorem cyc_last (hn : 3 ≤ n) : ∑ c ∈ range n, cyc n a0 b0 c0 p q r x y z (n - 1) c * v c = p * v (n - 2) + q * v (n - 1) + r * v 0 := by
  refine three_sum n _ v (by omega) (by omega) (by omega) (by omega) (by omega) (by omega) fun j hj => ?_
  simp only [cyc, put, cyc_fold, true_and]
  split_ifs <;> first | rfl | omega
end rows

/-- The left side of the equation at the first knot. -/
noncomputable def lhs0 (n : ℕ) (h g : ℕ → ℝ) : ℝ := h (n - 1) / 6 * g (n - 1) + (h (n - 1) + h 0) / 3 * g 0 + h 0 / 6 * g 1

theorem ccB_rows (hn : 3 ≤ n) (h v : ℕ → ℝ) : ∑ c ∈ range n, ccB n h 0 c * v c = lhs0 n h (wrap n v) ∧
    ∀ i, i + 1 < n → ∑ c ∈ range n, ccB n h (i + 1) c * v c =
      h i / 6 * wrap n v i + (h i + h (i + 1)) / 3 * wrap n v (i + 1) + h (i + 1) / 6 * wrap n v (i + 2) := by
  rw [ccB_eq]
  constructor
  · rw [cyc_first _ _ _ _ _ _ _ _ _ _ hn, lhs0, wrap, wrap, wrap, if_neg (by omega), if_neg (by omega), if_neg (by omega)]
  · intro i hi
    by_cases h1 : i + 2 < n
    · rw [cyc_mid _ _ _ _ _ _ _ _ _ _ hn (by omega) h1, wrap, wrap, wrap, if_neg (by omega), if_neg (by omega), if_neg (by omega),
        Nat.add_sub_cancel]
    · have h2 : i + 1 = n - 1 := by omega
      rw [h2, cyc_last _ _ _ _ _ _ _ _ _ _ hn, wrap, wrap, wrap, if_neg (by omega), if_neg (by omega), if_pos (by omega),
        show n - 2 = i by omega]

theorem ccD_rows (hn : 3 ≤ n) (h v : ℕ → ℝ) :
    ∑ c ∈ range n, ccD n h 0 c * v c = (wrap n v 1 - wrap n v 0) / h 0 - (wrap n v n - wrap n v (n - 1)) / h (n - 1) ∧
    ∀ i, i + 1 < n → ∑ c ∈ range n, ccD n h (i + 1) c * v c =
      (wrap n v (i + 2) - wrap n v (i + 1)) / h (i + 1) - (wrap n v (i + 1) - wrap n v i) / h i := by
  rw [ccD_eq]
  constructor
  · rw [cyc_first _ _ _ _ _ _ _ _ _ _ hn, wrap, wrap, wrap, wrap, if_neg (by omega), if_neg (by omega), if_pos rfl, if_neg (by omega)]
    ring
  · intro i hi
    by_cases h1 : i + 2 < n
    · rw [cyc_mid _ _ _ _ _ _ _ _ _ _ hn (by omega) h1, wrap, wrap, wrap, if_neg (by omega), if_neg (by omega), if_neg (by omega),
        Nat.add_sub_cancel]
      ring
    · have h2 : i + 1 = n - 1 := by omega
      rw [h2, cyc_last _ _ _ _ _ _ _ _ _ _ hn, wrap, wrap, wrap, if_pos (by omega), if_neg (by omega), if_neg (by omega),
        show n - 2 = i by omega]
      ring

theorem cform_eq (hn : 1 ≤ n) (h g : ℕ → ℝ) (h1 : g n = g 0) :
    g 0 * lhs0 n h g + ∑ i ∈ range (n - 1), g (i + 1) * (h i / 6 * g i + (h i + h (i + 1)) / 3 * g (i + 1) + h (i + 1) / 6 * g (i + 2)) =
    ∑ j ∈ range n, h j / 3 * (g j ^ 2 + g j * g (j + 1) + g (j + 1) ^ 2) := by
  have key : ∀ m, ∑ i ∈ range m, g (i + 1) * (h i / 6 * g i + (h i + h (i + 1)) / 3 * g (i + 1) + h (i + 1) / 6 * g (i + 2)) =
      ∑ j ∈ range m, h j / 3 * (g j ^ 2 + g j * g (j + 1) + g (j + 1) ^ 2) + h m / 3 * g m ^ 2 + h m / 6 * g m * g (m + 1) -
        (h 0 / 3 * g 0 ^ 2 + h 0 / 6 * g 0 * g 1) := by
    intro m
    induction m with
    | zero => simp
    | succ m ih => rw [sum_range_succ, ih, sum_range_succ]; ring
  obtain ⟨m, rfl⟩ : ∃ m, n = m + 1 := ⟨n - 1, by omega⟩
  rw [show m + 1 - 1 = m by omega, key, sum_range_succ, lhs0, show m + 1 - 1 = m by omega, h1]
  ring

theorem wrap_end (n : ℕ) (v : ℕ → ℝ) : wrap n v n = wrap n v 0 := by
  unfold wrap; rw [if_pos rfl]; split_ifs <;> rfl

/-! ## `ccspline_penalty` -/

/-- A vector read at naturals. -/
def rdv (v : Fin n → ℝ) (i : ℕ) : ℝ := if h : i < n then v ⟨i, h⟩ else 0

theorem mat_row (a : ℕ → ℕ → ℝ) (v : ℕ → ℝ) (i : Fin n) : (mat n n a).mulVec (fun c => v c) i = ∑ c ∈ range n, a i c * v c := by
  rw [Finset.sum_range]; rfl

theorem rdv_eq (v : Fin n → ℝ) : v = fun c : Fin n => rdv v c := by ext c; simp [rdv]

theorem ccB_unit (hn : 3 ≤ n) (hk : Inc (n + 1) k) : IsUnit (mat n n (ccB n (dif k))).det := by
  rw [isUnit_iff_ne_zero]
  intro h0
  obtain ⟨v, hv, h1⟩ := Matrix.exists_mulVec_eq_zero_iff.2 h0
  apply hv
  obtain ⟨w, hw⟩ : ∃ w, w = rdv v := ⟨_, rfl⟩
  rw [rdv_eq v, ← hw] at h1 ⊢
  obtain ⟨r0, r1⟩ := ccB_rows hn (dif k) w
  have e : ∀ i < n, ∑ c ∈ range n, ccB n (dif k) i c * w c = 0 := fun i hi => by
    rw [← mat_row (ccB n (dif k)) w ⟨i, hi⟩, h1]; rfl
  have hf := cform_eq (by omega) (dif k) (wrap n w) (wrap_end n w)
  rw [← r0, e 0 (by omega), mul_zero, zero_add, sum_eq_zero] at hf
  · have := form_zero (n := n + 1) (by omega) hk (wrap n w) hf.symm
    ext c
    have h2 := this c (by omega)
    rwa [wrap, if_neg (by omega)] at h2
  · intro i hi
    have hi' : i + 1 < n := by have := mem_range.1 hi; omega
    rw [← r1 i hi', e (i + 1) hi', mul_zero]

/-- The rows of a matrix read at naturals. -/
noncomputable def ccurv (F : Matrix (Fin n) (Fin n) ℝ) (b : ℕ → ℝ) (i : ℕ) : ℝ := curv n (rd F) b i

theorem ccurv_eq (F : Matrix (Fin n) (Fin n) ℝ) (b : ℕ → ℝ) (i : Fin n) : ccurv F b i = F.mulVec (fun c => b c) i := by
  unfold ccurv curv
  rw [Finset.sum_range]
  refine Finset.sum_congr rfl fun c _ => ?_
  rw [rd, dif_pos ⟨i.2, c.2⟩]

theorem ccPen_eq (hn : 3 ≤ n) (hk : Inc (n + 1) k) : ccPenalty n k = some
    ((1 / 2 : ℝ) • ((mat n n (ccD n (dif k))).transpose * ((mat n n (ccB n (dif k)))⁻¹ * mat n n (ccD n (dif k))) +
      ((mat n n (ccD n (dif k))).transpose * ((mat n n (ccB n (dif k)))⁻¹ * mat n n (ccD n (dif k)))).transpose),
     (mat n n (ccB n (dif k)))⁻¹ * mat n n (ccD n (dif k))) := by
  simp only [ccPenalty, Fa.inv?_unit (ccB_unit hn hk), Option.bind_eq_bind, Option.bind_some]

/-- Slopes and second derivatives match at every inner knot and between the last knot and the first. -/
structure Closed (n : ℕ) (k b g : ℕ → ℝ) : Prop where
  inner : ∀ i, i + 2 < n + 1 → Join k (wrap n b) (wrap n g) i
  ends : lhs0 n (dif k) (wrap n g) = (wrap n b 1 - wrap n b 0) / dif k 0 - (wrap n b n - wrap n b (n - 1)) / dif k (n - 1)

theorem closed_of (hn : 3 ≤ n) {F : Matrix (Fin n) (Fin n) ℝ}
    (hF : mat n n (ccB n (dif k)) * F = mat n n (ccD n (dif k))) (b : ℕ → ℝ) : Closed n k b (ccurv F b) := by
  have key : ∀ i < n, ∑ c ∈ range n, ccB n (dif k) i c * ccurv F b c = ∑ c ∈ range n, ccD n (dif k) i c * b c := by
    intro i hi
    rw [← mat_row _ _ ⟨i, hi⟩, ← mat_row _ _ ⟨i, hi⟩, ← hF, ← Matrix.mulVec_mulVec]
    congr 1
    congr 1
    ext c
    exact ccurv_eq F b c
  obtain ⟨r0, r1⟩ := ccB_rows hn (dif k) (ccurv F b)
  obtain ⟨s0, s1⟩ := ccD_rows hn (dif k) b
  constructor
  · intro i hi
    rw [Join, ← r1 i (by omega), key _ (by omega), s1 i (by omega)]
  · rw [← r0, key 0 (by omega), s0]

/-- For increasing knots, at least four of them, the system is solvable and its solution closes up. -/
theorem C119_solves_partial (hn : 3 ≤ n) (hk : Inc (n + 1) k) : ∃ S F, ccPenalty n k = some (S, F) ∧ ∀ b, Closed n k b (ccurv F b) :=
  ⟨_, _, ccPen_eq hn hk, closed_of hn (by rw [← Matrix.mul_assoc, Matrix.mul_nonsing_inv _ (ccB_unit hn hk), Matrix.one_mul])⟩

variable {S F : Matrix (Fin n) (Fin n) ℝ}

theorem csolves (hn : 3 ≤ n) (hk : Inc (n + 1) k) (h : ccPenalty n k = some (S, F)) (b : ℕ → ℝ) : Closed n k b (ccurv F b) := by
  obtain ⟨S', F', h', hb⟩ := C119_solves_partial hn hk
  rw [h] at h'
  have := Prod.mk.inj (Option.some.inj h')
  rw [this.2]
  exact hb b

/-! ## The basis -/

theorem ccIdx_fold (k : ℕ → ℝ) (x : ℝ) (d : ℕ) : ∀ (m s : ℕ) (j : ℕ), s ≤ j + 1 → j + 1 < s + m → (∀ i, s ≤ i → i < j + 1 → ¬ x ≤ k (i - 1)) → x ≤ k j →
    (List.range' s m).foldr (fun i y => if x ≤ k (i - 1) then i - 1 else y) d = j
  | 0, s, j, h1, h2, _, _ => by omega
  | m + 1, s, j, h1, h2, h3, h4 => by
    rw [List.range'_succ, List.foldr_cons]
    by_cases hs : s = j + 1
    · subst hs
      rw [Nat.add_sub_cancel, if_pos h4]
    · rw [if_neg (h3 s le_rfl (by omega))]
      exact ccIdx_fold k x d m (s + 1) j (by omega) (by omega) (fun i a c => h3 i (by omega) c) h4

theorem ccIdx_none (k : ℕ → ℝ) (x : ℝ) (d : ℕ) : ∀ (m s : ℕ), (∀ i, s ≤ i → i < s + m → ¬ x ≤ k (i - 1)) →
    (List.range' s m).foldr (fun i y => if x ≤ k (i - 1) then i - 1 else y) d = d
  | 0, s, _ => rfl
  | m + 1, s, h => by
    rw [List.range'_succ, List.foldr_cons, if_neg (h s le_rfl (by omega))]
    exact ccIdx_none k x d m (s + 1) fun i a c => h i (by omega) (by omega)

/-- The loop over the knots finds the same interval as `crspline_basis`. -/
theorem ccIdx_eq {N : ℕ} (hN : 2 ≤ N) (hk : Inc N k) (x : ℝ) : ccIdx N k x = crIdx N k x + 1 := by
  obtain ⟨j, hj, he, h1, h2⟩ := idx_cases hN hk x
  rw [he, ccIdx, List.foldl_reverse]
  have low : ∀ i, 2 ≤ i → i < j + 2 → ¬ x ≤ k (i - 1) := by
    intro i a c
    rcases h1 with h1 | h1
    · omega
    · exact not_le.2 ((hk.le (by omega) (by omega)).trans_lt h1)
  rcases le_or_gt x (k (j + 1)) with h3 | h3
  · exact ccIdx_fold k x _ _ 2 (j + 1) (by omega) (by omega) (fun i a c => low i a (by omega)) h3
  · have h4 : j + 2 = N := h2.resolve_right (not_le.2 h3)
    rw [ccIdx_none, ss_eq hk (s := N) le_rfl (fun i hi => (hk.le (by omega) (by omega)).trans_lt h3) fun i a c => by omega]
    · omega
    · intro i a c
      exact not_le.2 ((hk.le (by omega) (by omega)).trans_lt h3)

/-- The basis gives the piecewise cubic through the closed-up coefficients. -/
theorem C119_basis (hn : 1 ≤ n) (hk : Inc (n + 1) k) (F : ℕ → ℕ → ℝ) (b : ℕ → ℝ) (x : ℝ) :
    ccFun n k F b x = spl (n + 1) k (wrap n b) (wrap n (curv n F b)) x := by
  obtain ⟨j, hj, he, _⟩ := idx_cases (n := n + 1) (by omega) hk x
  have e1 : ∀ i, i < n → ∑ c ∈ range n, eye i c * b c = b i := fun i hi => by simp [eye, hi]
  have e2 : ∀ i (t : ℝ), ∑ c ∈ range n, F i c * t * b c = t * curv n F b i := fun i t => by
    rw [curv, mul_sum]; exact sum_congr rfl fun c _ => by ring
  have e3 : ∀ i (t : ℝ), i < n → ∑ c ∈ range n, eye i c * t * b c = t * b i := fun i t hi => by
    rw [← e1 i hi, mul_sum]; exact sum_congr rfl fun c _ => by ring
  have e4 : ∀ v : ℕ → ℝ, wrap n v (j + 1) = v (if j + 1 = n then 0 else j + 1) := fun v => by unfold wrap; split_ifs <;> rfl
  have e5 : ∀ v : ℕ → ℝ, wrap n v j = v j := fun v => by rw [wrap, if_neg (by omega)]
  have e6 : (if j + 1 = n then 0 else j + 1) < n := by split_ifs <;> omega
  simp only [ccFun, ccRow, ccIdx_eq (N := n + 1) (by omega) hk, he, Nat.add_sub_cancel, spl, piece, e4, e5, add_mul, sub_mul, sum_add_distrib,
    sum_sub_distrib, e2]
  rw [e3 j _ (by omega), e3 _ _ e6]
  have := (gap_pos hk hj).ne'
  field_simp
  ring

/-- The coefficients are the values at the knots; the last knot repeats the first. -/
theorem C119_knots (hn : 1 ≤ n) (hk : Inc (n + 1) k) (F : ℕ → ℕ → ℝ) {i c : ℕ} (hi : i ≤ n) (hc : c < n) :
    ccRow n k F (k i) c = if (if i = n then 0 else i) = c then 1 else 0 := by
  have := C119_basis hn hk F (fun d => if d = c then 1 else 0) (k i)
  rw [spl_knot (n := n + 1) (by omega) hk (by omega)] at this
  have e : ccFun n k F (fun d => if d = c then 1 else 0) (k i) = ccRow n k F (k i) c := by simp [ccFun, hc]
  rw [← e, this, wrap]
  split_ifs <;> rfl

theorem spl1_ends (hn : 3 ≤ n) (hk : Inc (n + 1) k) {b g : ℕ → ℝ} (h : Closed n k b g) :
    spl1 (n + 1) k (wrap n b) (wrap n g) (k n) = spl1 (n + 1) k (wrap n b) (wrap n g) (k 0) := by
  obtain ⟨m, rfl⟩ : ∃ m, n = m + 1 := ⟨n - 1, by omega⟩
  have h1 := h.ends
  rw [spl1, spl1, idx_first (by omega) hk (hk 0 (by omega)).le, idx_mid hk (j := m) (by omega) (hk m (by omega)) le_rfl,
    piece1_right hk (by omega), piece1_left hk (by omega)]
  simp only [lhs0, show m + 1 - 1 = m by omega] at h1
  rw [wrap_end (m + 1) g]
  linarith

/-- With at least four knots the function is twice continuously differentiable, and value, slope and second derivative at the last knot are
those at the first. -/
theorem C119_smooth_partial (hn : 3 ≤ n) (hk : Inc (n + 1) k) (h : ccPenalty n k = some (S, F)) (b : ℕ → ℝ) : ∃ f' f'' : ℝ → ℝ,
    (∀ x, HasDerivAt (ccFun n k (rd F) b) (f' x) x) ∧ (∀ x, HasDerivAt f' (f'' x) x) ∧ Continuous f'' ∧
    ccFun n k (rd F) b (k n) = ccFun n k (rd F) b (k 0) ∧ f' (k n) = f' (k 0) ∧ f'' (k n) = f'' (k 0) := by
  have hc := csolves hn hk h b
  have hn2 : 2 ≤ n + 1 := by omega
  have e : ccFun n k (rd F) b = spl (n + 1) k (wrap n b) (wrap n (ccurv F b)) := funext fun x => C119_basis (by omega) hk (rd F) b x
  rw [e]
  refine ⟨_, _, spl_deriv hn2 hk hc.inner, spl1_deriv hn2 hk hc.inner, spl2_continuous hn2 hk, ?_, spl1_ends hn hk hc, ?_⟩
  · rw [spl_knot hn2 hk (by omega), spl_knot hn2 hk (by omega), wrap_end]
  · rw [spl2_knot hn2 hk (by omega), spl2_knot hn2 hk (by omega), wrap_end]

/-! ## The penalty -/

theorem cpen_eq (hn : 3 ≤ n) (hk : Inc (n + 1) k) (h : ccPenalty n k = some (S, F)) (b : ℕ → ℝ) :
    (fun c : Fin n => b c) ⬝ᵥ S.mulVec (fun c => b c) = ∑ j ∈ range n, dif k j / 3 *
      (wrap n (ccurv F b) j ^ 2 + wrap n (ccurv F b) j * wrap n (ccurv F b) (j + 1) + wrap n (ccurv F b) (j + 1) ^ 2) := by
  have hc := csolves hn hk h b
  rw [ccPen_eq hn hk] at h
  obtain ⟨h1, h2⟩ := Prod.mk.inj (Option.some.inj h)
  rw [h2] at h1
  obtain ⟨u, hu⟩ : ∃ u : Fin n → ℝ, u = fun c : Fin n => b c := ⟨_, rfl⟩
  have hq : ∀ M : Matrix (Fin n) (Fin n) ℝ, u ⬝ᵥ M.transpose.mulVec u = u ⬝ᵥ M.mulVec u := fun M => by
    rw [Matrix.mulVec_transpose, dotProduct_comm, Matrix.dotProduct_mulVec]
  rw [← hu, ← h1, Matrix.smul_mulVec, Matrix.add_mulVec, dotProduct_smul, dotProduct_add, hq, smul_eq_mul, ← mul_two, mul_comm, mul_assoc,
    mul_one_div_cancel two_ne_zero, mul_one, ← Matrix.mulVec_mulVec, Matrix.dotProduct_mulVec, Matrix.vecMul_transpose,
    ← cform_eq (by omega) (dif k) (wrap n (ccurv F b)) (wrap_end n _)]
  obtain ⟨s0, s1⟩ := ccD_rows hn (dif k) b
  rw [hc.ends, ← s0]
  have e : (mat n n (ccD n (dif k))).mulVec u ⬝ᵥ F.mulVec u = ∑ i ∈ range n, ccurv F b i * ∑ c ∈ range n, ccD n (dif k) i c * b c := by
    rw [Finset.sum_range]
    refine Finset.sum_congr rfl fun i _ => ?_
    rw [hu, mat_row (ccD n (dif k)) b i, ccurv_eq, mul_comm]
  rw [e, show range n = range (n - 1 + 1) by congr 1; omega, sum_range_succ', add_comm, show n - 1 + 1 = n by omega]
  refine congrArg₂ _ (by rw [wrap, if_neg (by omega)]) ?_
  refine sum_congr rfl fun i hi => ?_
  have hi' : i + 1 < n := by have := mem_range.1 hi; omega
  have := hc.inner i (by omega)
  rw [Join] at this
  rw [this, ← s1 i hi', wrap, if_neg (by omega)]

/-- The penalty is the integral of the squared second derivative over one period. -/
theorem C119_penalty_partial (hn : 3 ≤ n) (hk : Inc (n + 1) k) (h : ccPenalty n k = some (S, F)) (b : ℕ → ℝ) (f' f'' : ℝ → ℝ)
    (hf : ∀ x, HasDerivAt (ccFun n k (rd F) b) (f' x) x) (hf' : ∀ x, HasDerivAt f' (f'' x) x) :
    (fun c : Fin n => b c) ⬝ᵥ S.mulVec (fun c => b c) = ∫ x in k 0..k n, f'' x ^ 2 := by
  have hc := csolves hn hk h b
  have hn2 : 2 ≤ n + 1 := by omega
  have e : ccFun n k (rd F) b = spl (n + 1) k (wrap n b) (wrap n (ccurv F b)) := funext fun x => C119_basis (by omega) hk (rd F) b x
  have e1 : f' = spl1 (n + 1) k (wrap n b) (wrap n (ccurv F b)) := funext fun x => (hf x).unique (by rw [e]; exact spl_deriv hn2 hk hc.inner x)
  have e2 : f'' = spl2 (n + 1) k (wrap n (ccurv F b)) := funext fun x => (hf' x).unique (by rw [e1]; exact spl1_deriv hn2 hk hc.inner x)
  have := spl_energy (g := wrap n (ccurv F b)) hn2 hk
  rw [show n + 1 - 1 = n by omega] at this
  rw [e2, this, cpen_eq hn hk h]

/-- No twice continuously differentiable function through the same points with equal slopes at both ends has a smaller integral. -/
theorem C119_least_partial (hn : 3 ≤ n) (hk : Inc (n + 1) k) (h : ccPenalty n k = some (S, F)) (b : ℕ → ℝ) (f f' f'' : ℝ → ℝ)
    (hf : ∀ x, HasDerivAt f (f' x) x) (hf' : ∀ x, HasDerivAt f' (f'' x) x) (hcf : Continuous f'') (h0 : ∀ i < n, f (k i) = b i)
    (hp : f (k n) = f (k 0)) (hp' : f' (k n) = f' (k 0)) :
    (fun c : Fin n => b c) ⬝ᵥ S.mulVec (fun c => b c) ≤ ∫ x in k 0..k n, f'' x ^ 2 := by
  have hc := csolves hn hk h b
  have hn2 : 2 ≤ n + 1 := by omega
  have h1 := spl_least hn2 hk hc.inner f f' f'' hf hf' hcf
    (fun i hi => by
      unfold wrap
      split_ifs with h2
      · rw [h2, hp, h0 0 (by omega)]
      · exact h0 i (by omega))
    (by rw [show n + 1 - 1 = n by omega, wrap_end, hp', spl1_ends hn hk hc])
  have h2 := energy_le (g := wrap n (ccurv F b)) hn2 hk f''
  have h3 := spl_energy (g := wrap n (ccurv F b)) hn2 hk
  rw [show n + 1 - 1 = n by omega] at h1 h2 h3
  rw [h3] at h1
  rw [cpen_eq hn hk h]
  linarith

/-- The penalty matrix is symmetric and nonnegative, and vanishes exactly on the constants. -/
theorem C119_null_partial (hn : 3 ≤ n) (hk : Inc (n + 1) k) (h : ccPenalty n k = some (S, F)) : S.IsSymm ∧ ∀ b : ℕ → ℝ,
    0 ≤ (fun c : Fin n => b c) ⬝ᵥ S.mulVec (fun c => b c) ∧
    ((fun c : Fin n => b c) ⬝ᵥ S.mulVec (fun c => b c) = 0 ↔ ∀ i < n, b i = b 0) := by
  refine ⟨?_, fun b => ⟨by rw [cpen_eq hn hk h]; exact form_nonneg (n := n + 1) hk _, ?_⟩⟩
  · have h' := h
    rw [ccPen_eq hn hk] at h'
    rw [← (Prod.mk.inj (Option.some.inj h')).1, Matrix.IsSymm, Matrix.transpose_smul, Matrix.transpose_add, Matrix.transpose_transpose, add_comm]
  · have hc := csolves hn hk h b
    rw [cpen_eq hn hk h]
    constructor
    · intro hz
      have hg := form_zero (n := n + 1) (by omega) hk _ hz
      have hs : ∀ i, i + 1 < n + 1 → (wrap n b (i + 1) - wrap n b i) / dif k i = (wrap n b 1 - wrap n b 0) / dif k 0 := by
        intro i
        induction i with
        | zero => intro _; rfl
        | succ i ih =>
          intro hi
          have h3 := hc.inner i (by omega)
          rw [Join, hg i (by omega), hg (i + 1) (by omega), hg (i + 2) hi] at h3
          rw [← ih (by omega)]
          linarith
      obtain ⟨s, hs'⟩ : ∃ s, s = (wrap n b 1 - wrap n b 0) / dif k 0 := ⟨_, rfl⟩
      have hw : ∀ i, i < n + 1 → wrap n b i = wrap n b 0 + s * (k i - k 0) := by
        intro i
        induction i with
        | zero => intro _; ring
        | succ i ih =>
          intro hi
          have h3 := hs i hi
          rw [← hs', div_eq_iff (gap_pos hk hi).ne', show dif k i = k (i + 1) - k i from rfl] at h3
          have h5 := ih (by omega)
          linarith
      have hs0 : s = 0 := by
        have h3 := hw n (by omega)
        rw [wrap_end] at h3
        have h4 := hk.lt (by omega : 0 < n) (by omega)
        rcases mul_eq_zero.1 (by linarith : s * (k n - k 0) = 0) with h5 | h5
        · exact h5
        · linarith
      intro i hi
      have h3 := hw i (by omega)
      rw [hs0, wrap, wrap, if_neg (by omega), if_neg (by omega)] at h3
      linarith
    · intro hb
      have hw : ∀ i, i < n + 1 → wrap n b i = b 0 := fun i hi => by
        unfold wrap; split_ifs
        · rfl
        · exact hb i (by omega)
      rw [← cform_eq (by omega) (dif k) (wrap n (ccurv F b)) (wrap_end n _), hc.ends, hw 1 (by omega), hw 0 (by omega), hw n (by omega), hw (n - 1) (by omega),
        sum_eq_zero]
      · ring
      · intro i hi
        have hi' : i + 1 < n := by have := mem_range.1 hi; omega
        have := hc.inner i (by omega)
        rw [Join, hw i (by omega), hw (i + 1) (by omega), hw (i + 2) (by omega)] at this
        rw [this]; ring

/-- Constants are reproduced at every point: the rows sum to one. -/
theorem C119_constants_partial (hn : 3 ≤ n) (hk : Inc (n + 1) k) (h : ccPenalty n k = some (S, F)) (a x : ℝ) :
    ccFun n k (rd F) (fun _ => a) x = a := by
  have h1 := ((C119_null_partial hn hk h).2 (fun _ => a)).2.2 fun _ _ => rfl
  rw [cpen_eq hn hk h (fun _ => a)] at h1
  have hg := form_zero (n := n + 1) (by omega) hk _ h1
  have hw : ∀ i, wrap n (fun _ => a) i = a := fun i => by unfold wrap; split_ifs <;> rfl
  obtain ⟨j, hj, he, _⟩ := idx_cases (n := n + 1) (by omega) hk x
  have h2 := hg j (by omega)
  have h3 := hg (j + 1) hj
  unfold ccurv at h2 h3
  rw [C119_basis (by omega) hk, spl, he, piece, h2, h3, hw, hw]
  have := (gap_pos hk hj).ne'
  have e : k (j + 1) - k j = dif k j := rfl
  field_simp
  linear_combination 6 * a * e

/-! ## Where it fails -/

/-- Three knots (two intervals): both neighbours of a knot are the same knot, and the second write replaces the first.
The constant 1 is not reproduced: at 1/2 the function is 1.15. -/
theorem C119_three_knots_violated : ∃ S F, ccPenalty 2 (fun i => (i : ℝ)) = some (S, F) ∧
    ccFun 2 (fun i => (i : ℝ)) (rd F) (fun _ => 1) (1 / 2) = 1.15 := by
  have hB : mat 2 2 (ccB 2 (dif fun i => (i : ℝ))) = !![2/3, 1/6; 1/6, 2/3] := by
    ext i j; fin_cases i <;> fin_cases j <;> simp [mat, ccB, put, dif] <;> norm_num
  have hD : mat 2 2 (ccD 2 (dif fun i => (i : ℝ))) = !![-2, 1; 1, -2] := by
    ext i j; fin_cases i <;> fin_cases j <;> simp [mat, ccD, put, dif] <;> norm_num
  have hu : IsUnit (!![2/3, 1/6; 1/6, 2/3] : Matrix (Fin 2) (Fin 2) ℝ).det := by
    rw [Matrix.det_fin_two_of, isUnit_iff_ne_zero]; norm_num
  have hi : (!![2/3, 1/6; 1/6, 2/3] : Matrix (Fin 2) (Fin 2) ℝ)⁻¹ * !![-2, 1; 1, -2] = !![-18/5, 12/5; 12/5, -18/5] := by
    have e : (!![-2, 1; 1, -2] : Matrix (Fin 2) (Fin 2) ℝ) = !![2/3, 1/6; 1/6, 2/3] * !![-18/5, 12/5; 12/5, -18/5] := by
      ext i j; fin_cases i <;> fin_cases j <;> simp [Matrix.mul_apply, Fin.sum_univ_two] <;> norm_num
    rw [e, ← Matrix.mul_assoc, Matrix.nonsing_inv_mul _ hu, Matrix.one_mul]
  refine ⟨_, _, by simp only [ccPenalty, hB, hD, Fa.inv?_unit hu, Option.bind_eq_bind, Option.bind_some]; rfl, ?_⟩
  rw [hi]
  have hk : Inc 3 (fun i => (i : ℝ)) := fun i _ => by push_cast; linarith
  rw [C119_basis (by norm_num) hk, spl, idx_first (by norm_num) hk (by norm_num)]
  simp [piece, wrap, curv, dif, sum_range_succ, rd]
  norm_num

/-- Outside the knots the function is not continued periodically: four knots 0, 1, 2, 3 and the coefficients 1, 0, 0 give 5/8 at 1/2 and 3/8 at 3 + 1/2. -/
theorem C119_period_violated : ∃ S F, ccPenalty 3 (fun i => (i : ℝ)) = some (S, F) ∧
    ccFun 3 (fun i => (i : ℝ)) (rd F) (fun i => if i = 0 then 1 else 0) (1 / 2) = 5 / 8 ∧
    ccFun 3 (fun i => (i : ℝ)) (rd F) (fun i => if i = 0 then 1 else 0) (3 + 1 / 2) = 3 / 8 := by
  have hk : Inc 4 (fun i => (i : ℝ)) := fun i _ => by push_cast; linarith
  obtain ⟨S, F, h, hb⟩ := C119_solves_partial (n := 3) (by norm_num) hk
  refine ⟨S, F, h, ?_⟩
  have hc := hb (fun i => if i = 0 then 1 else 0)
  obtain ⟨g, hg⟩ : ∃ g, g = ccurv F (fun i => if i = 0 then 1 else 0) := ⟨_, rfl⟩
  rw [← hg] at hc
  have h1 := hc.inner 0 (by norm_num)
  have h2 := hc.inner 1 (by norm_num)
  have h3 := hc.ends
  simp [Join, wrap, dif] at h1 h2
  simp [lhs0, wrap, dif] at h3
  norm_num at h1 h2 h3
  have g0 : g 0 = -4 := by linarith
  have g1 : g 1 = 2 := by linarith
  have g2 : g 2 = 2 := by linarith
  have e : ∀ i, curv 3 (rd F) (fun i => if i = 0 then 1 else 0) i = g i := fun i => by rw [hg]; rfl
  constructor
  · rw [C119_basis (by norm_num) hk, spl, idx_first (by norm_num) hk (by norm_num)]
    simp [piece, wrap, e, dif, g0, g1]
    norm_num
  · rw [C119_basis (by norm_num) hk, spl, idx_last (by norm_num) hk (by norm_num)]
    simp [piece, wrap, e, dif, g0, g2]
    norm_num

end Verif.Spl
