import Verif.Eln.Props
import Verif.Eln.Lasso
/-!
# C106: proximal gradient for the lasso
-/
namespace Verif.Eln
open Verif.Func
variable {α : Type*} [Field α] [LinearOrder α] [IsStrictOrderedRing α]
variable {a : LArgs α} {b z : ℕ → α}

/-- Spec: the lasso objective. -/
def LArgs.F (a : LArgs α) (b : ℕ → α) : α :=
  (∑ i ∈ Finset.range a.n, (a.y i - ∑ j ∈ Finset.range a.p, a.X i j * b j) ^ 2) / (2 * a.n) +
    a.lam * ∑ j ∈ Finset.range a.p, |b j|

/-- What the caller has to supply: the cross products, a bound on the eigenvalues of `X'X / n`. -/
structure LArgs.Ok (a : LArgs α) : Prop where
  obs : 0 < a.n
  lam : 0 ≤ a.lam
  xty : ∀ j, j < a.p → a.Xty j = ∑ i ∈ Finset.range a.n, a.X i j * a.y i
  xtx : ∀ j k, j < a.p → k < a.p → a.XtX j k = ∑ i ∈ Finset.range a.n, a.X i j * a.X i k
  eig : 0 < a.maxEig
  lip : ∀ v : ℕ → α, ∑ i ∈ Finset.range a.n, (∑ j ∈ Finset.range a.p, a.X i j * v j) ^ 2 ≤
    a.n * a.maxEig * ∑ j ∈ Finset.range a.p, v j ^ 2

omit [IsStrictOrderedRing α] in
theorem C106_objective : (lassoObj a.n a.p a.X a.y b a.lam).2.2 = a.F b := by
  simp only [lassoObj, LArgs.F, resid, pow_two]

theorem grad_eq (H : a.Ok) {j : ℕ} (hj : j < a.p) : a.Xty j - ∑ k ∈ Finset.range a.p, a.XtX j k * b k =
    ∑ i ∈ Finset.range a.n, a.X i j * resid a.p a.X a.y b i := by
  have : ∑ k ∈ Finset.range a.p, a.XtX j k * b k =
      ∑ i ∈ Finset.range a.n, a.X i j * ∑ k ∈ Finset.range a.p, a.X i k * b k := by
    simp only [Finset.mul_sum]
    rw [Finset.sum_comm]
    refine Finset.sum_congr rfl fun k hk => ?_
    rw [H.xtx j k hj (Finset.mem_range.1 hk), Finset.sum_mul]
    exact Finset.sum_congr rfl fun i _ => by ring
  rw [H.xty j hj, this, ← Finset.sum_sub_distrib]
  exact Finset.sum_congr rfl fun i _ => by rw [resid]; ring

/-- `np.sum((z - b)**2)`. -/
def sqd (p : ℕ) (z b : ℕ → α) : α := ∑ j ∈ Finset.range p, (z j - b j) ^ 2

theorem sqd_nonneg (p : ℕ) (z b : ℕ → α) : 0 ≤ sqd p z b := Finset.sum_nonneg fun _ _ => sq_nonneg _

theorem prox_sub (H : a.Ok) {j : ℕ} (hj : j < a.p) (w : α) :
    (2 * a.maxEig * (b j - proxStep a b j) + (∑ i ∈ Finset.range a.n, a.X i j * resid a.p a.X a.y b i) / a.n) *
      (w - proxStep a b j) ≤ a.lam * (|w| - |proxStep a b j|) := by
  have hL := H.eig
  have hs : 0 < 1 / (2 * a.maxEig) := by positivity
  have h := soft_sub (u := b j + 1 / (2 * a.maxEig) * ((a.Xty j - ∑ k ∈ Finset.range a.p, a.XtX j k * b k) / a.n))
    (mul_nonneg hs.le H.lam) one_pos w
  rw [one_mul, div_one, ← proxStep, grad_eq H hj] at h
  have h2 := mul_le_mul_of_nonneg_left h (by positivity : 0 ≤ 2 * a.maxEig)
  have e1 : 2 * a.maxEig * ((b j + 1 / (2 * a.maxEig) *
      ((∑ i ∈ Finset.range a.n, a.X i j * resid a.p a.X a.y b i) / a.n) - proxStep a b j) * (w - proxStep a b j)) =
      (2 * a.maxEig * (b j - proxStep a b j) + (∑ i ∈ Finset.range a.n, a.X i j * resid a.p a.X a.y b i) / a.n) *
      (w - proxStep a b j) := by
    field_simp
    ring
  have e2 : 2 * a.maxEig * (1 / (2 * a.maxEig) * a.lam * (|w| - |proxStep a b j|)) =
      a.lam * (|w| - |proxStep a b j|) := by field_simp
  linarith

/-- The inequality behind everything: a step compared with any point. -/
theorem C106_step (H : a.Ok) (z : ℕ → α) : a.F (proxStep a b) + a.maxEig * sqd a.p z (proxStep a b) +
    a.maxEig / 2 * sqd a.p (proxStep a b) b ≤ a.F z + a.maxEig * sqd a.p z b := by
  have hn' : (0 : α) < a.n := by exact_mod_cast H.obs
  set c := proxStep a b with hc
  have ez := sum_sq_expand (n := a.n) (p := a.p) (X := a.X) (y := a.y) b z
  have ec := sum_sq_expand (n := a.n) (p := a.p) (X := a.X) (y := a.y) b c
  have hq : 0 ≤ ∑ i ∈ Finset.range a.n, (∑ j ∈ Finset.range a.p, a.X i j * (z j - b j)) ^ 2 :=
    Finset.sum_nonneg fun _ _ => sq_nonneg _
  have hl := H.lip fun j => c j - b j
  set G : ℕ → α := fun j => ∑ i ∈ Finset.range a.n, a.X i j * resid a.p a.X a.y b i with hG
  have key : ∀ j ∈ Finset.range a.p, (z j - b j) * G j / a.n - (c j - b j) * G j / a.n + (a.maxEig * (z j - c j) ^ 2 +
      a.maxEig * (c j - b j) ^ 2 - a.maxEig * (z j - b j) ^ 2) ≤ a.lam * |z j| - a.lam * |c j| := by
    intro j hj
    have h := prox_sub (b := b) H (Finset.mem_range.1 hj) (z j)
    rw [← hc] at h
    have e : (2 * a.maxEig * (b j - c j) + G j / a.n) * (z j - c j) =
        (z j - b j) * G j / a.n - (c j - b j) * G j / a.n + (a.maxEig * (z j - c j) ^ 2 +
          a.maxEig * (c j - b j) ^ 2 - a.maxEig * (z j - b j) ^ 2) := by
      field_simp
      ring
    rw [← e]
    refine h.trans (le_of_eq (by ring))
  have hs := Finset.sum_le_sum key
  simp only [Finset.sum_add_distrib, Finset.sum_sub_distrib, ← Finset.mul_sum, ← Finset.sum_div] at hs
  have f1 : ∀ v, a.F v = (∑ i ∈ Finset.range a.n, resid a.p a.X a.y v i ^ 2) / (2 * a.n) +
    a.lam * ∑ j ∈ Finset.range a.p, |v j| := fun _ => rfl
  rw [f1, f1, ez, ec]
  have e : ∀ A B C : α, (A - 2 * B + C) / (2 * a.n) = A / (2 * a.n) - B / a.n + C / (2 * a.n) := by
    intro A B C; field_simp
  rw [e, e]
  have h1 : 0 ≤ (∑ i ∈ Finset.range a.n, (∑ j ∈ Finset.range a.p, a.X i j * (z j - b j)) ^ 2) / (2 * a.n) :=
    div_nonneg hq (by positivity)
  have h2 : (∑ i ∈ Finset.range a.n, (∑ j ∈ Finset.range a.p, a.X i j * (c j - b j)) ^ 2) / (2 * a.n) ≤
      a.maxEig / 2 * ∑ j ∈ Finset.range a.p, (c j - b j) ^ 2 := by
    rw [div_le_iff₀ (by positivity)]
    linarith
  unfold sqd
  linarith

/-- A step lowers the objective, so the loop never ends because of an increase. -/
theorem C106_decrease (H : a.Ok) (b : ℕ → α) :
    a.F (proxStep a b) + 3 / 2 * a.maxEig * sqd a.p (proxStep a b) b ≤ a.F b := by
  have h := C106_step (b := b) H b
  have e1 : sqd a.p b b = 0 := by simp [sqd]
  have e2 : sqd a.p b (proxStep a b) = sqd a.p (proxStep a b) b :=
    Finset.sum_congr rfl fun j _ => by ring
  rw [e1, e2] at h
  linarith

/-- The iterates. -/
def iter (a : LArgs α) (b : ℕ → α) : ℕ → ℕ → α
  | 0 => b
  | k + 1 => proxStep a (iter a b k)

/-- After `k` steps the objective exceeds that of any other point by at most `max_eig * |z - b|² / k`. -/
theorem C106_rate (H : a.Ok) (b z : ℕ → α) (k : ℕ) :
    k * (a.F (iter a b k) - a.F z) + a.maxEig * sqd a.p z (iter a b k) ≤ a.maxEig * sqd a.p z b := by
  induction k with
  | zero => simp [iter]
  | succ k ih =>
    have h1 := C106_step (b := iter a b k) H z
    have h2 := C106_decrease H (iter a b k)
    have hL := H.eig.le
    have h3 := mul_nonneg hL (sqd_nonneg a.p (proxStep a (iter a b k)) (iter a b k))
    have h4 : a.F (iter a b (k + 1)) ≤ a.F (iter a b k) := by
      show a.F (proxStep a (iter a b k)) ≤ _
      linarith
    have h5 := mul_le_mul_of_nonneg_left h4 (Nat.cast_nonneg k : (0 : α) ≤ k)
    have h6 : a.F (iter a b (k + 1)) + a.maxEig * sqd a.p z (iter a b (k + 1)) ≤ a.F z + a.maxEig * sqd a.p z (iter a b k) := by
      show a.F (proxStep a (iter a b k)) + a.maxEig * sqd a.p z (proxStep a (iter a b k)) ≤ _
      linarith
    push_cast
    linarith

/-- The points left unchanged by a step are the minimisers. -/
theorem C106_fixed (H : a.Ok) (b : ℕ → α) : (∀ j, j < a.p → proxStep a b j = b j) ↔ ∀ z, a.F b ≤ a.F z := by
  constructor
  · intro h z
    have e1 : a.F (proxStep a b) = a.F b := by
      have : ∀ i, ∑ j ∈ Finset.range a.p, a.X i j * proxStep a b j = ∑ j ∈ Finset.range a.p, a.X i j * b j := fun i =>
        Finset.sum_congr rfl fun j hj => by rw [h j (Finset.mem_range.1 hj)]
      have h2 : ∑ j ∈ Finset.range a.p, |proxStep a b j| = ∑ j ∈ Finset.range a.p, |b j| :=
        Finset.sum_congr rfl fun j hj => by rw [h j (Finset.mem_range.1 hj)]
      unfold LArgs.F
      simp only [this, h2]
    have e2 : sqd a.p z (proxStep a b) = sqd a.p z b :=
      Finset.sum_congr rfl fun j hj => by rw [h j (Finset.mem_range.1 hj)]
    have hk := C106_step (b := b) H z
    rw [e1, e2] at hk
    have := mul_nonneg H.eig.le (sqd_nonneg a.p (proxStep a b) b)
    linarith
  · intro h j hj
    have hk := C106_decrease H b
    have hz := h (proxStep a b)
    have hL := H.eig
    have h0 : sqd a.p (proxStep a b) b ≤ 0 := by
      by_contra hc
      have := mul_pos hL (not_le.1 hc)
      linarith
    have h1 := (Finset.sum_eq_zero_iff_of_nonneg fun j _ => sq_nonneg (proxStep a b j - b j)).1
      (le_antisymm h0 (sqd_nonneg _ _ _)) j (Finset.mem_range.2 hj)
    exact sub_eq_zero.1 (pow_eq_zero_iff two_ne_zero |>.1 h1)

theorem loop_iter (H : a.Ok) : ∀ (k : ℕ) (b : ℕ → α), ∃ m, m ≤ k ∧
    proxLoop a k b (lassoObj a.n a.p a.X a.y b a.lam) =
      (iter a b m, (List.range m).map fun i => lassoObj a.n a.p a.X a.y (iter a b (i + 1)) a.lam) ∧
      (m = k ∨ conv a (iter a b (m - 1)) (iter a b m) = true ∧ 0 < m)
  | 0, b => ⟨0, le_refl _, rfl, Or.inl rfl⟩
  | k + 1, b => by
    have hd : ¬ (lassoObj a.n a.p a.X a.y (proxStep a b) a.lam).2.2 > (lassoObj a.n a.p a.X a.y b a.lam).2.2 := by
      rw [C106_objective, C106_objective, not_lt]
      have := C106_decrease H b
      have := mul_nonneg H.eig.le (sqd_nonneg a.p (proxStep a b) b)
      linarith
    rw [proxLoop]
    simp only [if_neg hd]
    by_cases hc : conv a b (proxStep a b) = true
    · rw [if_pos hc]
      exact ⟨1, by omega, rfl, Or.inr ⟨hc, one_pos⟩⟩
    · rw [if_neg hc]
      obtain ⟨m, h1, h2, h3⟩ := loop_iter H k (proxStep a b)
      have hit : ∀ i, iter a (proxStep a b) i = iter a b (i + 1) := by
        intro i
        induction i with
        | zero => rfl
        | succ i ih => rw [iter, ih]; rfl
      refine ⟨m + 1, by omega, ?_, ?_⟩
      · rw [h2, List.range_succ_eq_map]
        simp only [hit, List.map_cons, List.map_map]
        rfl
      · rcases h3 with h3 | ⟨h3, h4⟩
        · exact Or.inl (by omega)
        · refine Or.inr ⟨?_, by omega⟩
          rw [hit, hit, Nat.sub_add_cancel h4] at h3
          exact h3

/-- `lasso_prox_grad` returns an iterate, all of them if it does not converge earlier, with the history of their
objectives; so the excess over any other point is at most `max_eig * |z - b|²` divided by the number of steps. -/
theorem C106_result (H : a.Ok) (b : ℕ → α) (iters : ℕ) : ∃ m, m ≤ iters ∧
    proxGrad a b iters =
      (iter a b m, (List.range (m + 1)).map fun i => lassoObj a.n a.p a.X a.y (iter a b i) a.lam) ∧
    (m = iters ∨ conv a (iter a b (m - 1)) (iter a b m) = true) ∧ a.F (iter a b m) ≤ a.F b ∧
    ∀ z, m * (a.F (iter a b m) - a.F z) ≤ a.maxEig * sqd a.p z b := by
  obtain ⟨m, h1, h2, h3⟩ := loop_iter H iters b
  refine ⟨m, h1, ?_, h3.imp id And.left, ?_, fun z => ?_⟩
  · rw [proxGrad]
    simp only [h2]
    rw [List.range_succ_eq_map]
    simp only [List.map_cons, List.map_map]
    rfl
  · clear h1 h2 h3
    induction m with
    | zero => exact le_refl _
    | succ m ih =>
      have := C106_decrease H (iter a b m)
      have := mul_nonneg H.eig.le (sqd_nonneg a.p (proxStep a (iter a b m)) (iter a b m))
      show a.F (proxStep a (iter a b m)) ≤ _
      linarith
  · have := C106_rate H b z m
    have := mul_nonneg H.eig.le (sqd_nonneg a.p z (iter a b m))
    linarith

omit [IsStrictOrderedRing α] in
theorem prox_le : ∀ (k : ℕ) (b : ℕ → α), a.F (proxLoop a k b (lassoObj a.n a.p a.X a.y b a.lam)).1 ≤ a.F b
  | 0, _ => le_refl _
  | k + 1, b => by
    rw [proxLoop]
    simp only [C106_objective]
    split_ifs with h1 h2
    · exact le_refl _
    · exact not_lt.1 h1
    · exact (prox_le k _).trans (not_lt.1 h1)

omit [IsStrictOrderedRing α] in
/-- Without any assumption on the step length or on the products passed in, the result is no worse than the start. -/
theorem C106_never_worse (b : ℕ → α) (iters : ℕ) : a.F (proxGrad a b iters).1 ≤ a.F b := prox_le iters b

/-- Spec: the iterates of the accelerated method, `(b_k, θ_k)`; `θ` extrapolates with weight `k / (k + 3)`. -/
def fista (a : LArgs α) (b : ℕ → α) : ℕ → (ℕ → α) × (ℕ → α)
  | 0 => (b, fun _ => 0)
  | k + 1 =>
    let s := fista a b k
    let c := proxStep a s.2
    (c, fun j => c j + ((k : α) + 1) / ((k : α) + 1 + 3) * (c j - s.1 j))

theorem acc_iter (b : ℕ → α) : ∀ (k i : ℕ) (f : α × α × α), ∃ m, m ≤ k ∧
    (accLoop a k i (fista a b i).1 (fista a b i).2 f).1 = (fista a b (i + m)).1
  | 0, _, _ => ⟨0, le_rfl, rfl⟩
  | k + 1, i, f => by
    have e1 : proxStep a (fista a b i).2 = (fista a b (i + 1)).1 := rfl
    have e2 : (fun j => (fista a b (i + 1)).1 j + (1 + (i : α)) / (4 + i) * ((fista a b (i + 1)).1 j - (fista a b i).1 j)) =
        (fista a b (i + 1)).2 := by
      ext j
      have h1 : (1 + (i : α)) = (i : α) + 1 := by ring
      have h2 : (4 + (i : α)) = (i : α) + 1 + 3 := by ring
      rw [h1, h2]; rfl
    rw [accLoop, e1, e2]
    split_ifs with h1 h2
    · exact ⟨0, by omega, rfl⟩
    · exact ⟨1, by omega, rfl⟩
    · obtain ⟨m, hm, h⟩ := acc_iter b k (i + 1) (lassoObj a.n a.p a.X a.y (fista a b (i + 1)).1 a.lam)
      refine ⟨m + 1, by omega, ?_⟩
      simp only [h]
      rw [show i + (m + 1) = i + 1 + m by ring]

/-- The accelerated method returns one of these iterates: the extrapolation starts at zero, not at `b`. -/
theorem C106_accelerated_iterate (b : ℕ → α) (iters : ℕ) : ∃ m, m ≤ iters ∧ (accGrad a b iters).1 = (fista a b m).1 := by
  obtain ⟨m, hm, h⟩ := acc_iter (a := a) b iters 0 (lassoObj a.n a.p a.X a.y b a.lam)
  refine ⟨m, hm, ?_⟩
  rw [zero_add] at h
  have e1 : (fun j => b j * 0) = (fista a b 0).2 := by ext j; simp [fista]
  simp only [accGrad, e1]
  exact h

omit [IsStrictOrderedRing α] in
theorem acc_le : ∀ (k i : ℕ) (b th : ℕ → α),
    a.F (accLoop a k i b th (lassoObj a.n a.p a.X a.y b a.lam)).1 ≤ a.F b
  | 0, _, _, _ => le_refl _
  | k + 1, i, b, th => by
    rw [accLoop]
    simp only [C106_objective]
    split_ifs with h1 h2
    · exact le_refl _
    · exact not_lt.1 h1
    · exact (acc_le k (i + 1) _ _).trans (not_lt.1 h1)

omit [IsStrictOrderedRing α] in
/-- The accelerated method never returns a worse point than its start, for any step length. -/
theorem C106_accelerated_partial (b : ℕ → α) (iters : ℕ) : a.F (accGrad a b iters).1 ≤ a.F b := acc_le iters 0 b _

/-- Data for the accelerated method: one observation, one variable. -/
def accArgs : LArgs ℚ := ⟨1, 1, fun _ _ => 1, fun _ => 1, fun _ => 1, fun _ _ => 1, 0, 1, 1 / 10 ^ 5, 1 / 10 ^ 8⟩

theorem acc_ok : accArgs.Ok :=
  ⟨by decide, by decide, fun j _ => by simp [accArgs], fun j k _ _ => by simp [accArgs], by decide,
    fun v => by simp [accArgs]⟩

/-- The accelerated method starts from zero whatever the starting value: from `9/10`, the minimiser being `1`, the
first step is an increase, and `9/10` is returned. -/
theorem C106_accelerated_violated : (accGrad accArgs (fun _ => 9 / 10) 500).1 0 = 9 / 10 ∧
    accArgs.F (fun _ => 1) < accArgs.F fun _ => 9 / 10 := by
  refine ⟨by decide +kernel, by decide +kernel⟩

/-- The plain method improves on it. -/
example : accArgs.F (proxGrad accArgs (fun _ => 9 / 10) 3).1 < accArgs.F fun _ => 9 / 10 := by decide +kernel

end Verif.Eln
