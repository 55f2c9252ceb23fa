import Verif.Spl.EnergyLemmas
import Mathlib.Tactic.FinCases
/-!
# C118: cubic regression splines
-/
namespace Verif.Spl
open Finset Filter Topology

variable {n : ℕ} {k : ℕ → ℝ}

/-! ## The arrays -/

theorem crD_fold (h : ℕ → ℝ) (N i j : ℕ) : (List.range N).foldl (fun D i =>
    put (put (put D i i (1 / h i)) i (i + 1) (-1 / h i - 1 / h (i + 1))) i (i + 2) (1 / h (i + 1))) (fun _ _ => 0) i j =
    if i < N then (if j = i then 1 / h i else 0) + (if j = i + 1 then -1 / h i - 1 / h (i + 1) else 0) +
      (if j = i + 2 then 1 / h (i + 1) else 0) else 0 := by
  induction N with
  | zero => simp
  | succ N ih =>
    rw [List.range_succ, List.foldl_append]
    simp only [List.foldl_cons, List.foldl_nil, put]
    rw [ih]
    by_cases hi : i = N
    · subst hi
      by_cases h1 : j = i
      · subst h1; simp
      · by_cases h2 : j = i + 1
        · subst h2; simp
        · by_cases h3 : j = i + 2
          · subst h3; simp
          · simp [h1, h2, h3]
    · simp only [hi, false_and, if_false]
      by_cases h1 : i < N
      · simp [h1, Nat.lt_succ_of_lt h1]
      · have : ¬ i < N + 1 := by omega
        simp [h1, this]

/-- The rows of `D`: second divided differences. -/
theorem crD_row (n : ℕ) (h b : ℕ → ℝ) {i : ℕ} (hi : i + 2 < n) : ∑ c ∈ range n, crD n h i c * b c =
    (b (i + 2) - b (i + 1)) / h (i + 1) - (b (i + 1) - b i) / h i := by
  have e : ∀ c, crD n h i c * b c = (if c = i then 1 / h i * b i else 0) + (if c = i + 1 then (-1 / h i - 1 / h (i + 1)) * b (i + 1) else 0) +
      (if c = i + 2 then 1 / h (i + 1) * b (i + 2) else 0) := fun c => by
    rw [crD, crD_fold, if_pos (by omega)]
    by_cases h1 : c = i
    · subst h1; simp
    · by_cases h2 : c = i + 1
      · subst h2; simp
      · by_cases h3 : c = i + 2
        · subst h3; simp
        · simp [h1, h2, h3]
  simp only [e, sum_add_distrib, sum_ite_eq', mem_range]
  rw [if_pos (by omega), if_pos (by omega), if_pos hi]
  ring

/-- A vector over the inner knots, with zeros at both ends. -/
def pad (m : ℕ) (v : Fin m → ℝ) (i : ℕ) : ℝ := if h : 0 < i ∧ i - 1 < m then v ⟨i - 1, h.2⟩ else 0

theorem pad_zero (m : ℕ) (v : Fin m → ℝ) : pad m v 0 = 0 := by simp [pad]
theorem pad_end (m : ℕ) (v : Fin m → ℝ) : pad m v (m + 1) = 0 := by simp [pad]
theorem pad_mid {m : ℕ} (v : Fin m → ℝ) (i : Fin m) : pad m v (i + 1) = v i := by simp [pad]

/-- The rows of `B`. -/
theorem tri_row {m : ℕ} (h : ℕ → ℝ) (v : Fin m → ℝ) (i : Fin m) : (tri m (crDiag h) (fun i => h (i + 1) / 6)).mulVec v i =
    h i / 6 * pad m v i + (h i + h (i + 1)) / 3 * pad m v (i + 1) + h (i + 1) / 6 * pad m v (i + 2) := by
  obtain ⟨f, hf⟩ : ∃ f : ℕ → ℝ, f = fun c : ℕ => (if c = (i : ℕ) then (h i + h (i + 1)) / 3 * pad m v (i + 1) else 0) +
        (if c = i + 1 then h (i + 1) / 6 * pad m v (i + 2) else 0) + (if c + 1 = i then h i / 6 * pad m v i else 0) := ⟨_, rfl⟩
  have e : ∀ j : Fin m, (tri m (crDiag h) (fun i => h (i + 1) / 6)) i j * v j = f j := fun j => by
    rw [hf]
    have hv : v j = pad m v (j + 1) := (pad_mid v j).symm
    simp only [tri, Matrix.of_apply, crDiag]
    by_cases h1 : i = j
    · subst h1; simp [hv]
    · have h1' : (j : ℕ) ≠ i := fun hc => h1 (Fin.ext hc.symm)
      by_cases h2 : (j : ℕ) = i + 1
      · have h3 : ¬ ((j : ℕ) + 1 = i) := by omega
        have h4 : ¬ ((i : ℕ) + 1 + 1 = i) := by omega
        simp [h1, h2, hv, h4]
      · by_cases h3 : (i : ℕ) = j + 1
        · have h3' : ¬ ((j : ℕ) = j + 1 + 1) := by omega
          simp only [h1, if_false, h3, h3', hv, if_true, if_neg (by omega : ¬ (j : ℕ) = j + 1)]
          ring
        · have h3' : ¬ ((j : ℕ) + 1 = i) := fun hc => h3 hc.symm
          simp [h1, h1', h2, h3, h3']
  rw [Matrix.mulVec, dotProduct, Finset.sum_congr rfl fun j _ => e j, Fin.sum_univ_eq_sum_range f m, hf, sum_add_distrib, sum_add_distrib, sum_ite_eq', sum_ite_eq']
  have h1 : ∑ c ∈ range m, (if c + 1 = (i : ℕ) then h i / 6 * pad m v i else 0) = h i / 6 * pad m v i := by
    rcases Nat.eq_zero_or_pos (i : ℕ) with h0 | h0
    · rw [h0, pad_zero]; simp
    · have : ∀ c, (c + 1 = (i : ℕ)) ↔ c = (i : ℕ) - 1 := fun c => by omega
      simp only [this, sum_ite_eq', mem_range]
      rw [if_pos (by omega)]
  rw [h1, if_pos (mem_range.2 i.2)]
  split_ifs with h2
  · ring
  · have : (i : ℕ) + 1 = m := by have := i.2; simp at h2; omega
    rw [show (i : ℕ) + 2 = m + 1 by omega, pad_end]
    ring

/-- The left sides, summed against the second derivatives, give the energy. -/
theorem form_eq (h g : ℕ → ℝ) (m : ℕ) (h0 : g 0 = 0) (h1 : g (m + 1) = 0) :
    ∑ i ∈ range m, g (i + 1) * (h i / 6 * g i + (h i + h (i + 1)) / 3 * g (i + 1) + h (i + 1) / 6 * g (i + 2)) =
    ∑ j ∈ range (m + 1), h j / 3 * (g j ^ 2 + g j * g (j + 1) + g (j + 1) ^ 2) := by
  have key : ∀ m, ∑ i ∈ range m, g (i + 1) * (h i / 6 * g i + (h i + h (i + 1)) / 3 * g (i + 1) + h (i + 1) / 6 * g (i + 2)) =
      ∑ j ∈ range m, h j / 3 * (g j ^ 2 + g j * g (j + 1) + g (j + 1) ^ 2) + h m / 3 * g m ^ 2 + h m / 6 * g m * g (m + 1) := by
    intro m
    induction m with
    | zero => simp [h0]
    | succ m ih => rw [sum_range_succ, ih, sum_range_succ]; ring
  rw [key, sum_range_succ, h1]
  ring

theorem tri_posDef (hn : 3 ≤ n) (hk : Inc n k) : (tri (n - 2) (crDiag (dif k)) (fun i => dif k (i + 1) / 6)).PosDef := by
  obtain ⟨m, rfl⟩ : ∃ m, n = m + 2 := ⟨n - 2, by omega⟩
  rw [show m + 2 - 2 = m by omega]
  refine Matrix.PosDef.of_dotProduct_mulVec_pos ?_ fun v hv => ?_
  · ext i j
    simp only [Matrix.conjTranspose_apply, tri, Matrix.of_apply, star_trivial]
    by_cases h1 : j = i
    · subst h1; simp
    · have h1' : i ≠ j := Ne.symm h1
      simp only [h1, h1', if_false]
      split_ifs <;> first | rfl | omega
  · have e : star v ⬝ᵥ (tri m (crDiag (dif k)) (fun i => dif k (i + 1) / 6)).mulVec v =
        ∑ j ∈ range (m + 1), dif k j / 3 * (pad m v j ^ 2 + pad m v j * pad m v (j + 1) + pad m v (j + 1) ^ 2) := by
      rw [← form_eq (dif k) (pad m v) m (pad_zero m v) (pad_end m v), Finset.sum_range]
      refine Finset.sum_congr rfl fun i _ => ?_
      rw [tri_row, star_trivial, pad_mid]
    rw [e]
    refine lt_of_le_of_ne (form_nonneg (n := m + 2) hk _) fun h => hv ?_
    have := form_zero (n := m + 2) (by omega) hk (pad m v) h.symm
    ext i
    have h2 := this (i + 1) (by omega)
    rwa [pad_mid] at h2

/-! ## `crspline_penalty` -/

/-- The second derivatives at the knots. -/
noncomputable def curv (n : ℕ) (F : ℕ → ℕ → ℝ) (b : ℕ → ℝ) (i : ℕ) : ℝ := ∑ c ∈ range n, F i c * b c

theorem crPen_eq {m : ℕ} (hm : 1 ≤ m) (hk : Inc (m + 2) k) : (tri m (crDiag (dif k)) (fun i => dif k (i + 1) / 6)).PosDef ∧
    crPenalty (m + 2) k = some ((mat m (m + 2) (crD (m + 2) (dif k))).transpose *
        ((tri m (crDiag (dif k)) (fun i => dif k (i + 1) / 6))⁻¹ * mat m (m + 2) (crD (m + 2) (dif k))),
      fun i c => if i = 0 then 0 else if i ≤ m then
        rd ((tri m (crDiag (dif k)) (fun i => dif k (i + 1) / 6))⁻¹ * mat m (m + 2) (crD (m + 2) (dif k))) (i - 1) c else 0) := by
  have hp := tri_posDef (n := m + 2) (by omega) hk
  refine ⟨hp, ?_⟩
  simp only [crPenalty, ptsv, if_pos hp, Option.bind_eq_bind, Option.bind_some]
  rfl

/-- For increasing knots the system is solvable, and its solution makes the slopes agree at the inner knots and the second derivatives vanish at
the ends. -/
theorem C118_solves (hn : 3 ≤ n) (hk : Inc n k) : ∃ S F, crPenalty n k = some (S, F) ∧
    ∀ b, curv n F b 0 = 0 ∧ curv n F b (n - 1) = 0 ∧ (∀ i, i + 2 < n → Join k b (curv n F b) i) := by
  obtain ⟨m, rfl⟩ : ∃ m, n = m + 2 := ⟨n - 2, by omega⟩
  obtain ⟨hp, he⟩ := crPen_eq (by omega) hk
  refine ⟨_, _, he, fun b => ?_⟩
  generalize hB : tri m (crDiag (dif k)) (fun i => dif k (i + 1) / 6) = B at hp
  have hu : IsUnit B.det := hp.isUnit.map Matrix.detMonoidHom
  refine ⟨by simp [curv], by simp [curv], fun i hi => ?_⟩
  obtain ⟨X, hX⟩ : ∃ X, X = B⁻¹ * mat m (m + 2) (crD (m + 2) (dif k)) := ⟨_, rfl⟩
  have hBX : B * X = mat m (m + 2) (crD (m + 2) (dif k)) := by rw [hX, ← Matrix.mul_assoc, Matrix.mul_nonsing_inv _ hu, Matrix.one_mul]
  have hg : ∀ i, curv (m + 2) (fun i c => if i = 0 then 0 else if i ≤ m then rd X (i - 1) c else 0) b i =
      pad m (X.mulVec fun c => b c) i := fun i => by
    unfold curv pad
    by_cases h0 : i = 0
    · simp [h0]
    · by_cases h1 : i ≤ m
      · have h2 : 0 < i ∧ i - 1 < m := by omega
        simp only [if_neg h0, if_pos h1, dif_pos h2, Matrix.mulVec, dotProduct]
        rw [Finset.sum_range]
        refine Finset.sum_congr rfl fun c _ => ?_
        rw [rd, dif_pos ⟨h2.2, c.2⟩]
      · have h2 : ¬ (0 < i ∧ i - 1 < m) := by omega
        simp [if_neg h0, if_neg h1, dif_neg h2]
  simp only [← hX]
  have hi' : i < m := by omega
  have e1 := tri_row (dif k) (X.mulVec fun c => b c) ⟨i, hi'⟩
  rw [hB, Matrix.mulVec_mulVec, hBX] at e1
  have e2 := crD_row (m + 2) (dif k) b hi
  rw [Join, ← e2]
  rw [hg, hg, hg]
  rw [← show (mat m (m + 2) (crD (m + 2) (dif k))).mulVec (fun c => b c) ⟨i, hi'⟩ = ∑ c ∈ range (m + 2), crD (m + 2) (dif k) i c * b c by
    rw [Finset.sum_range]; rfl]
  rw [e1]

/-- The penalty is the sum over the inner knots of the change of slope times the second derivative. -/
theorem pen_eq (hn : 3 ≤ n) (hk : Inc n k) {S : Matrix (Fin n) (Fin n) ℝ} {F : ℕ → ℕ → ℝ} (h : crPenalty n k = some (S, F)) (b a : ℕ → ℝ) :
    (fun c : Fin n => a c) ⬝ᵥ S.mulVec (fun c => b c) =
      ∑ i ∈ range (n - 2), ((a (i + 2) - a (i + 1)) / dif k (i + 1) - (a (i + 1) - a i) / dif k i) * curv n F b (i + 1) := by
  obtain ⟨m, rfl⟩ : ∃ m, n = m + 2 := ⟨n - 2, by omega⟩
  obtain ⟨hp, he⟩ := crPen_eq (by omega) hk
  rw [he] at h
  rw [show m + 2 - 2 = m by omega]
  have h := Option.some.inj h
  obtain ⟨h1, h2⟩ := Prod.mk.inj h
  subst h2
  rw [← h1, ← Matrix.mulVec_mulVec, Matrix.dotProduct_mulVec, Matrix.vecMul_transpose, Finset.sum_range]
  refine Finset.sum_congr rfl fun i _ => ?_
  congr 1
  · rw [← crD_row (m + 2) (dif k) a (by omega : (i : ℕ) + 2 < m + 2), Finset.sum_range]
    rfl
  · rw [curv, Finset.sum_range, Matrix.mulVec, dotProduct]
    refine Finset.sum_congr rfl fun c _ => ?_
    simp only [Nat.succ_ne_zero, if_false, if_pos (by omega : (i : ℕ) + 1 ≤ m), Nat.add_sub_cancel]
    rw [rd, dif_pos ⟨i.2, c.2⟩]

/-! ## The basis -/

/-- The columns of the basis, combined with any coefficients, give the piecewise cubic. -/
theorem C118_basis (hn : 2 ≤ n) (hk : Inc n k) (F : ℕ → ℕ → ℝ) (b : ℕ → ℝ) (x : ℝ) :
    crFun n k F b x = spl n k b (curv n F b) x := by
  obtain ⟨j, hj, he, _⟩ := idx_cases hn hk x
  have e1 : ∀ i, i < n → ∑ c ∈ range n, eye i c * b c = b i := fun i hi => by
    simp [eye, hi]
  simp only [crFun, crRow, spl, he, piece, curv, add_mul, sum_add_distrib, mul_assoc, ← mul_sum]
  rw [e1 j (by omega), e1 (j + 1) hj]

/-- The coefficients are the values at the knots: the basis at the knots is the identity. -/
theorem C118_knots (hn : 2 ≤ n) (hk : Inc n k) (F : ℕ → ℕ → ℝ) {i c : ℕ} (hi : i < n) (hc : c < n) : crRow n k F (k i) c = if i = c then 1 else 0 := by
  have := C118_basis hn hk F (fun d => if d = c then 1 else 0) (k i)
  rw [spl_knot hn hk hi] at this
  rw [← this, crFun]
  simp [hc]

variable {S : Matrix (Fin n) (Fin n) ℝ} {F : ℕ → ℕ → ℝ}

theorem solves (hn : 3 ≤ n) (hk : Inc n k) (h : crPenalty n k = some (S, F)) (b : ℕ → ℝ) :
    curv n F b 0 = 0 ∧ curv n F b (n - 1) = 0 ∧ (∀ i, i + 2 < n → Join k b (curv n F b) i) := by
  obtain ⟨S', F', h', hb⟩ := C118_solves hn hk
  rw [h] at h'
  have := Prod.mk.inj (Option.some.inj h')
  rw [this.2]
  exact hb b

/-- The fitted function is twice continuously differentiable everywhere; its second derivative is linear between the knots
and zero at the first and the last knot. -/
theorem C118_smooth (hn : 3 ≤ n) (hk : Inc n k) (h : crPenalty n k = some (S, F)) (b : ℕ → ℝ) : ∃ f' f'' : ℝ → ℝ,
    (∀ x, HasDerivAt (crFun n k F b) (f' x) x) ∧ (∀ x, HasDerivAt f' (f'' x) x) ∧ Continuous f'' ∧
    (∀ j, j + 1 < n → ∀ x, k j ≤ x → x ≤ k (j + 1) → f'' x = ((k (j + 1) - x) * f'' (k j) + (x - k j) * f'' (k (j + 1))) / (k (j + 1) - k j)) ∧
    f'' (k 0) = 0 ∧ f'' (k (n - 1)) = 0 := by
  obtain ⟨h0, h1, h2⟩ := solves hn hk h b
  have hn2 : 2 ≤ n := by omega
  have e : crFun n k F b = spl n k b (curv n F b) := funext fun x => C118_basis hn2 hk F b x
  rw [e]
  refine ⟨_, _, spl_deriv hn2 hk h2, spl1_deriv hn2 hk h2, spl2_continuous hn2 hk, ?_, ?_, ?_⟩
  · intro j hj x hx1 hx2
    rw [spl2_on hn2 hk hj hx1 hx2, spl2_knot hn2 hk (by omega), spl2_knot hn2 hk hj, piece2, dif]
    ring
  · rw [spl2_knot hn2 hk (by omega), h0]
  · rw [spl2_knot hn2 hk (by omega), h1]

theorem pen_form (hn : 3 ≤ n) (hk : Inc n k) (h : crPenalty n k = some (S, F)) (b : ℕ → ℝ) :
    (fun c : Fin n => b c) ⬝ᵥ S.mulVec (fun c => b c) =
      ∑ j ∈ range (n - 1), dif k j / 3 * (curv n F b j ^ 2 + curv n F b j * curv n F b (j + 1) + curv n F b (j + 1) ^ 2) := by
  obtain ⟨h0, h1, h2⟩ := solves hn hk h b
  rw [pen_eq hn hk h, show n - 1 = n - 2 + 1 by omega, ← form_eq (dif k) (curv n F b) (n - 2) h0 (by rw [show n - 2 + 1 = n - 1 by omega]; exact h1)]
  refine sum_congr rfl fun i hi => ?_
  rw [← h2 i (by have := mem_range.1 hi; omega), mul_comm]

/-- The penalty is the integral of the squared second derivative over the range of the knots. -/
theorem C118_penalty (hn : 3 ≤ n) (hk : Inc n k) (h : crPenalty n k = some (S, F)) (b : ℕ → ℝ) (f' f'' : ℝ → ℝ)
    (hf : ∀ x, HasDerivAt (crFun n k F b) (f' x) x) (hf' : ∀ x, HasDerivAt f' (f'' x) x) :
    (fun c : Fin n => b c) ⬝ᵥ S.mulVec (fun c => b c) = ∫ x in k 0..k (n - 1), f'' x ^ 2 := by
  obtain ⟨_, _, h2⟩ := solves hn hk h b
  have hn2 : 2 ≤ n := by omega
  have e : crFun n k F b = spl n k b (curv n F b) := funext fun x => C118_basis hn2 hk F b x
  have e1 : f' = spl1 n k b (curv n F b) := funext fun x => (hf x).unique (by rw [e]; exact spl_deriv hn2 hk h2 x)
  have e2 : f'' = spl2 n k (curv n F b) := funext fun x => (hf' x).unique (by rw [e1]; exact spl1_deriv hn2 hk h2 x)
  rw [e2, spl_energy hn2 hk, pen_form hn hk h]

/-- No twice continuously differentiable function through the same points has a smaller integral. -/
theorem C118_least (hn : 3 ≤ n) (hk : Inc n k) (h : crPenalty n k = some (S, F)) (b : ℕ → ℝ) (f f' f'' : ℝ → ℝ)
    (hf : ∀ x, HasDerivAt f (f' x) x) (hf' : ∀ x, HasDerivAt f' (f'' x) x) (hc : Continuous f'') (h0 : ∀ i < n, f (k i) = b i) :
    (fun c : Fin n => b c) ⬝ᵥ S.mulVec (fun c => b c) ≤ ∫ x in k 0..k (n - 1), f'' x ^ 2 := by
  obtain ⟨g0, g1, h2⟩ := solves hn hk h b
  have hn2 : 2 ≤ n := by omega
  rw [spl_least hn2 hk h2 f f' f'' hf hf' hc h0 (by rw [g0, g1]; ring), spl_energy hn2 hk, ← pen_form hn hk h]
  have := energy_le (g := curv n F b) hn2 hk f''
  linarith

/-- The penalty matrix is symmetric and nonnegative, and vanishes exactly on the straight lines. -/
theorem C118_null (hn : 3 ≤ n) (hk : Inc n k) (h : crPenalty n k = some (S, F)) : S.IsSymm ∧ ∀ b : ℕ → ℝ,
    0 ≤ (fun c : Fin n => b c) ⬝ᵥ S.mulVec (fun c => b c) ∧
    ((fun c : Fin n => b c) ⬝ᵥ S.mulVec (fun c => b c) = 0 ↔ ∃ a s, ∀ i < n, b i = a + s * k i) := by
  have hn2 : 2 ≤ n := by omega
  refine ⟨?_, fun b => ⟨by rw [pen_form hn hk h]; exact form_nonneg hk _, ?_⟩⟩
  · have key : ∀ a b : ℕ → ℝ, (fun c : Fin n => a c) ⬝ᵥ S.mulVec (fun c => b c) = (fun c : Fin n => b c) ⬝ᵥ S.mulVec (fun c => a c) := by
      intro a b
      obtain ⟨a0, a1, a2⟩ := solves hn hk h a
      obtain ⟨b0, b1, b2⟩ := solves hn hk h b
      rw [pen_eq hn hk h, pen_eq hn hk h]
      have e : ∀ u v : ℕ → ℝ, u 0 = 0 → v 0 = 0 → ∀ m, ∑ i ∈ range m, (dif k i / 6 * u i + (dif k i + dif k (i + 1)) / 3 * u (i + 1) + dif k (i + 1) / 6 * u (i + 2)) * v (i + 1) -
          ∑ i ∈ range m, (dif k i / 6 * v i + (dif k i + dif k (i + 1)) / 3 * v (i + 1) + dif k (i + 1) / 6 * v (i + 2)) * u (i + 1) = dif k m / 6 * (u (m + 1) * v m - v (m + 1) * u m) := by
        intro u v hu hv m
        induction m with
        | zero => simp [hu, hv]
        | succ m ih => rw [sum_range_succ, sum_range_succ]; linear_combination ih
      have e' := e (curv n F a) (curv n F b) a0 b0 (n - 2)
      rw [show n - 2 + 1 = n - 1 by omega, a1, b1] at e'
      have s1 : ∀ u : ℕ → ℝ, ∀ w : ℕ → ℝ, (∀ i, i + 2 < n → Join k u w i) → ∀ v : ℕ → ℝ,
          ∑ i ∈ range (n - 2), (dif k i / 6 * w i + (dif k i + dif k (i + 1)) / 3 * w (i + 1) + dif k (i + 1) / 6 * w (i + 2)) * v (i + 1) =
          ∑ i ∈ range (n - 2), ((u (i + 2) - u (i + 1)) / dif k (i + 1) - (u (i + 1) - u i) / dif k i) * v (i + 1) := by
        intro u w hj v
        refine sum_congr rfl fun i hi => ?_
        rw [hj i (by have := mem_range.1 hi; omega)]
      rw [s1 a _ a2, s1 b _ b2] at e'
      linarith
    ext i j
    have := key (fun c => if c = j then 1 else 0) (fun c => if c = i then 1 else 0)
    have e1 : ∀ i : Fin n, (fun c : Fin n => if (c : ℕ) = i then (1 : ℝ) else 0) = Pi.single i 1 := fun i => by
      ext c
      by_cases hc : c = i
      · subst hc; simp
      · rw [Pi.single_eq_of_ne hc, if_neg fun h => hc (Fin.ext h)]
    rw [e1, e1] at this
    simpa using this
  · rw [pen_form hn hk h]
    obtain ⟨h0, h1, h2⟩ := solves hn hk h b
    constructor
    · intro hz
      have hg := form_zero hn2 hk _ hz
      have hs : ∀ i, i + 1 < n → (b (i + 1) - b i) / dif k i = (b 1 - b 0) / dif k 0 := by
        intro i
        induction i with
        | zero => intro _; rfl
        | succ i ih =>
          intro hi
          have h3 := h2 i (by omega)
          rw [Join, hg i (by omega), hg (i + 1) (by omega), hg (i + 2) hi] at h3
          rw [← ih (by omega)]
          linarith
      refine ⟨b 0 - (b 1 - b 0) / dif k 0 * k 0, (b 1 - b 0) / dif k 0, fun i hi => ?_⟩
      induction i with
      | zero => ring
      | succ i ih =>
        have h3 := hs i hi
        have h4 := (gap_pos hk hi).ne'
        rw [div_eq_iff h4] at h3
        have h5 := ih (by omega)
        rw [show dif k i = k (i + 1) - k i from rfl] at h3
        linarith
    · rintro ⟨a, s, hb⟩
      rw [show n - 1 = n - 2 + 1 by omega, ← form_eq (dif k) (curv n F b) (n - 2) h0 (by rw [show n - 2 + 1 = n - 1 by omega]; exact h1)]
      refine sum_eq_zero fun i hi => ?_
      have hi' : i + 2 < n := by have := mem_range.1 hi; omega
      have h3 := (gap_pos hk (i := i) (by omega)).ne'
      have h4 := (gap_pos hk (i := i + 1) (by omega)).ne'
      have := h2 i hi'
      rw [Join] at this
      rw [this, hb i (by omega), hb (i + 1) (by omega), hb (i + 2) hi']
      have e1 : (a + s * k (i + 2) - (a + s * k (i + 1))) / dif k (i + 1) = s := by
        rw [div_eq_iff h4, dif]; ring
      have e2 : (a + s * k (i + 1) - (a + s * k i)) / dif k i = s := by
        rw [div_eq_iff h3, dif]; ring
      rw [e1, e2]; ring

/-- Straight lines are reproduced at every point, also outside the knots; in particular the rows sum to one. -/
theorem C118_lines (hn : 3 ≤ n) (hk : Inc n k) (h : crPenalty n k = some (S, F)) (b : ℕ → ℝ) (a s : ℝ) (hb : ∀ i < n, b i = a + s * k i) (x : ℝ) :
    crFun n k F b x = a + s * x := by
  have hn2 : 2 ≤ n := by omega
  have h1 := ((C118_null hn hk h).2 b).2.2 ⟨a, s, hb⟩
  rw [pen_form hn hk h] at h1
  have hg := form_zero hn2 hk _ h1
  rw [C118_basis hn2 hk, spl]
  obtain ⟨j, hj, he, _⟩ := idx_cases hn2 hk x
  rw [he, piece, hg j (by omega), hg (j + 1) hj, hb j (by omega), hb (j + 1) hj]
  have := (gap_pos hk hj).ne'
  have e : k (j + 1) - k j = dif k j := rfl
  field_simp
  linear_combination 6 * (a + s * x) * e

/-- A natural spline continues as a straight line outside the knots. Here the last cubic continues instead: three
knots 0, 1, 2 and values 0, 1, 0 give the values 0, -1, 1 at 2, 3, 4. -/
theorem C118_natural_violated : ∃ S F, crPenalty 3 (fun i => (i : ℝ)) = some (S, F) ∧
    crFun 3 (fun i => (i : ℝ)) F (fun i => if i = 1 then 1 else 0) 2 = 0 ∧
    crFun 3 (fun i => (i : ℝ)) F (fun i => if i = 1 then 1 else 0) 3 = -1 ∧
    crFun 3 (fun i => (i : ℝ)) F (fun i => if i = 1 then 1 else 0) 4 = 1 := by
  have hk : Inc 3 (fun i => (i : ℝ)) := fun i _ => by push_cast; linarith
  obtain ⟨S, F, h, hb⟩ := C118_solves (by norm_num) hk
  refine ⟨S, F, h, ?_⟩
  obtain ⟨h0, h1, h2⟩ := hb (fun i => if i = 1 then 1 else 0)
  have h3 := h2 0 (by norm_num)
  simp only [show 3 - 1 = 2 by norm_num] at h1
  simp only [Join, dif, h0, zero_add, h1] at h3
  norm_num at h3
  have h4 : curv 3 F (fun i => if i = 1 then 1 else 0) 1 = -3 := by linarith
  have hx : ∀ x : ℝ, 1 < x → crFun 3 (fun i => (i : ℝ)) F (fun i => if i = 1 then 1 else 0) x = (2 - x) + ((2 - x) ^ 3 - (2 - x)) / 6 * (-3) := by
    intro x hx
    rw [C118_basis (by norm_num) hk, spl, idx_last (by norm_num) hk (by simpa using hx)]
    simp only [show 3 - 2 = 1 by norm_num, piece, dif, h4, show 1 + 1 = 2 by norm_num, h1]
    norm_num
  refine ⟨?_, ?_, ?_⟩
  · rw [hx 2 (by norm_num)]; norm_num
  · rw [hx 3 (by norm_num)]; norm_num
  · rw [hx 4 (by norm_num)]; norm_num

/-- Equally spaced knots satisfy the hypotheses. -/
example : ∃ S F, crPenalty 5 (fun i => (i : ℝ)) = some (S, F) :=
  let ⟨S, F, h, _⟩ := C118_solves (n := 5) (k := fun i => (i : ℝ)) (by norm_num) fun i _ => by push_cast; linarith
  ⟨S, F, h⟩

end Verif.Spl
