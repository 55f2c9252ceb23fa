import Mathlib.Tactic.Linarith
import Mathlib.Tactic.Ring
import Mathlib.Tactic.FieldSimp
import Mathlib.Tactic.Positivity
import Mathlib.Algebra.Order.BigOperators.Group.Finset
import Mathlib.Algebra.BigOperators.Ring.Finset
import Mathlib.Data.Rat.Cast.Order
import Mathlib.Analysis.Calculus.Deriv.Pow
import Mathlib.Analysis.Calculus.Deriv.Abs
import Mathlib.Analysis.Calculus.Deriv.Add
import Mathlib.Analysis.Calculus.Deriv.Mul
import Mathlib.Tactic.NormNum
import Verif.Func.Props
import Verif.Eln.Model
/-!
# C103: coordinate descent for the Gaussian elastic net
-/
namespace Verif.Eln
open Verif.Func
variable {α : Type*} [Field α] [LinearOrder α] [IsStrictOrderedRing α]
variable {n p : ℕ} {X : ℕ → ℕ → α} {y b c : ℕ → α} {al lam : α}

/-- Spec: the objective, mean squared residual over two plus the elastic net penalty. -/
def obj (n p : ℕ) (X : ℕ → ℕ → α) (y : ℕ → α) (al lam : α) (b : ℕ → α) : α :=
  (∑ i ∈ Finset.range n, (y i - ∑ j ∈ Finset.range p, X i j * b j) ^ 2) / (2 * n) +
    lam * (al * ∑ j ∈ Finset.range p, |b j| + (1 - al) / 2 * ∑ j ∈ Finset.range p, b j ^ 2)

/-- `elnet_loglike` returns the parts of the objective and their sum. -/
theorem C103_loglike : (loglike n p X y b al lam).2.2 = obj n p X y al lam b ∧
    (loglike n p X y b al lam).2.2 = (loglike n p X y b al lam).1 + (loglike n p X y b al lam).2.1 := by
  refine ⟨?_, rfl⟩
  simp only [loglike, obj, msr, resid, penalty]
  ring

/-- The closed form of a coordinate satisfies the subgradient inequality of its problem. -/
theorem soft_sub {u t D : α} (ht : 0 ≤ t) (hD : 0 < D) (c : α) :
    (u - D * (softThreshold u t / D)) * (c - softThreshold u t / D) ≤ t * (|c| - |softThreshold u t / D|) := by
  have e : D * (softThreshold u t / D) = softThreshold u t := by field_simp
  rw [e]
  rw [C21_soft_threshold_cases u t ht]
  split_ifs with h1 h2
  · have hp : 0 < (u - t) / D := div_pos (by linarith) hD
    rw [abs_of_pos hp]
    nlinarith [le_abs_self c]
  · have hp : (u + t) / D < 0 := div_neg_of_neg_of_pos (by linarith) hD
    rw [abs_of_neg hp]
    nlinarith [neg_abs_le c]
  · rw [zero_div, abs_zero, sub_zero, sub_zero, sub_zero]
    have hu : |u| ≤ t := abs_le.2 ⟨by linarith, by linarith⟩
    calc u * c ≤ |u * c| := le_abs_self _
      _ = |u| * |c| := abs_mul _ _
      _ ≤ t * |c| := mul_le_mul_of_nonneg_right hu (abs_nonneg c)

/-- The right-hand sides of the coordinate update. -/
def colSq (n : ℕ) (X : ℕ → ℕ → α) (j : ℕ) : α := ∑ i ∈ Finset.range n, X i j ^ 2

/-- `u_j` as a function of the coefficients. -/
def uCoef (n p : ℕ) (X : ℕ → ℕ → α) (y b : ℕ → α) (j : ℕ) : α :=
  ∑ i ∈ Finset.range n, X i j * (resid p X y b i + X i j * b j)

/-- The new coefficient. -/
def zCoef (n p : ℕ) (X : ℕ → ℕ → α) (y : ℕ → α) (al lam : α) (b : ℕ → α) (j : ℕ) : α :=
  softThreshold (uCoef n p X y b j) (lam * al * n) / (colSq n X j + (1 - al) * lam * n)

theorem sum_update (f : ℕ → α → α) (j : ℕ) (hj : j < p) (x : α) :
    ∑ k ∈ Finset.range p, f k (Function.update b j x k) = ∑ k ∈ Finset.range p, f k (b k) - f j (b j) + f j x := by
  have hm := Finset.mem_range.2 hj
  rw [← Finset.add_sum_erase _ _ hm, ← Finset.add_sum_erase (a := j) (f := fun k => f k (b k)) _ hm,
    Function.update_self]
  have : ∑ k ∈ (Finset.range p).erase j, f k (Function.update b j x k) = ∑ k ∈ (Finset.range p).erase j, f k (b k) :=
    Finset.sum_congr rfl fun k hk => by rw [Function.update_of_ne (Finset.ne_of_mem_erase hk)]
  rw [this]
  ring

theorem resid_update (j : ℕ) (hj : j < p) (x : α) (i : ℕ) :
    resid p X y (Function.update b j x) i = resid p X y b i + X i j * b j - X i j * x := by
  simp only [resid]
  rw [sum_update (fun k v => X i k * v) j hj x]
  ring

theorem obj_update (j : ℕ) (hj : j < p) (x : α) : obj n p X y al lam (Function.update b j x) =
    (∑ i ∈ Finset.range n, (resid p X y b i + X i j * b j) ^ 2 - 2 * x * uCoef n p X y b j + x ^ 2 * colSq n X j) /
      (2 * n) + lam * (al * (∑ j ∈ Finset.range p, |b j| - |b j| + |x|) +
        (1 - al) / 2 * (∑ j ∈ Finset.range p, b j ^ 2 - b j ^ 2 + x ^ 2)) := by
  rw [obj, sum_update (fun _ v => |v|) j hj x, sum_update (fun _ v => v ^ 2) j hj x]
  congr 2
  have : ∀ i, (y i - ∑ k ∈ Finset.range p, X i k * Function.update b j x k) ^ 2 =
      (resid p X y b i + X i j * b j) ^ 2 - 2 * x * (X i j * (resid p X y b i + X i j * b j)) + x ^ 2 * X i j ^ 2 := by
    intro i
    have h := resid_update (X := X) (y := y) (b := b) j hj x i
    rw [resid] at h
    rw [h]; ring
  simp only [this, Finset.sum_add_distrib, Finset.sum_sub_distrib, ← Finset.mul_sum, uCoef, colSq]

/-- The coordinate update minimises the objective in its coordinate, with quadratic growth around the minimum. -/
theorem C103_coordinate (hn : 0 < n) (hal : 0 ≤ lam * al) {j : ℕ} (hj : j < p)
    (hD : 0 < colSq n X j + (1 - al) * lam * n) (x : α) :
    obj n p X y al lam (Function.update b j (zCoef n p X y al lam b j)) +
        (colSq n X j + (1 - al) * lam * n) / (2 * n) * (x - zCoef n p X y al lam b j) ^ 2 ≤
      obj n p X y al lam (Function.update b j x) := by
  have hn' : (0 : α) < n := by exact_mod_cast hn
  have h := soft_sub (u := uCoef n p X y b j) (mul_nonneg hal hn'.le) hD x
  rw [← zCoef] at h
  rw [obj_update j hj, obj_update j hj]
  set z := zCoef n p X y al lam b j
  set u := uCoef n p X y b j
  set q := colSq n X j
  set S := ∑ i ∈ Finset.range n, (resid p X y b i + X i j * b j) ^ 2
  have h2 : (u - (q + (1 - al) * lam * n) * z) * (x - z) / n ≤ lam * al * (|x| - |z|) := by
    rw [div_le_iff₀ hn']; linarith
  have e : (S - 2 * x * u + x ^ 2 * q) / (2 * n) - (S - 2 * z * u + z ^ 2 * q) / (2 * n) -
      (q + (1 - al) * lam * n) / (2 * n) * (x - z) ^ 2 =
      -((u - (q + (1 - al) * lam * n) * z) * (x - z) / n) - (1 - al) / 2 * lam * (x ^ 2 - z ^ 2) := by
    field_simp
    ring
  linarith

/-! ## The sweep -/

variable {s : St α} {Xsq : ℕ → α}

/-- The invariant: the stored residuals are those of the coefficients. -/
def Inv (p : ℕ) (X : ℕ → ℕ → α) (y : ℕ → α) (s : St α) : Prop := ∀ i, s.r i = resid p X y s.b i

theorem step_b (h : Inv p X y s) (hX : ∀ j, Xsq j = colSq n X j) (j : ℕ) :
    (cdStep n X Xsq (lam * al * n) ((1 - al) * lam * n) s j).b = Function.update s.b j (zCoef n p X y al lam s.b j) := by
  simp only [cdStep, zCoef, uCoef, h _, hX]
  split_ifs <;> rfl

theorem step_inv (h : Inv p X y s) (la dla : α) {j : ℕ} (hj : j < p) :
    Inv p X y (cdStep n X Xsq la dla s j) := by
  intro i
  simp only [cdStep]
  split_ifs with h0
  · simp only
    rw [resid_update j hj, h i]
  · simp only
    rw [resid_update j hj, h i, not_not.1 h0, mul_zero, sub_zero]

theorem fold_inv (la dla : α) : ∀ (L : List ℕ) (s : St α), Inv p X y s → (∀ j ∈ L, j < p) →
    Inv p X y (L.foldl (cdStep n X Xsq la dla) s)
  | [], _, h, _ => h
  | j :: L, s, h, hL => fold_inv la dla L _ (step_inv h la dla (hL j (by simp))) fun k hk => hL k (by simp [hk])

theorem mem_vars {j : ℕ} : j ∈ (List.range p).filter s.active ↔ j < p ∧ s.active j = true := by simp

/-- The residuals stay those of the coefficients. -/
theorem C103_residuals (h : Inv p X y s) (la dla : α) : Inv p X y (sweep n p X Xsq la dla s) :=
  fold_inv la dla _ s h fun _ hj => (mem_vars.1 hj).1

theorem fold_other (la dla : α) : ∀ (L : List ℕ) (s : St α) (k : ℕ), k ∉ L →
    (L.foldl (cdStep n X Xsq la dla) s).b k = s.b k
  | [], _, _, _ => rfl
  | j :: L, s, k, hk => by
    rw [List.foldl_cons, fold_other la dla L _ k fun h => hk (by simp [h])]
    simp only [cdStep]
    have : k ≠ j := fun h => hk (by simp [h])
    split_ifs <;> exact Function.update_of_ne this _ _

/-- The decrease of the objective over a list of distinct coordinates. -/
theorem fold_decrease (hn : 0 < n) (hal : 0 ≤ lam * al) (hX : ∀ j, Xsq j = colSq n X j)
    (hD : ∀ j, j < p → 0 < colSq n X j + (1 - al) * lam * n) : ∀ (L : List ℕ) (s : St α), Inv p X y s →
    (∀ j ∈ L, j < p) → L.Nodup →
    obj n p X y al lam (L.foldl (cdStep n X Xsq (lam * al * n) ((1 - al) * lam * n)) s).b +
      (L.map fun j => (colSq n X j + (1 - al) * lam * n) / (2 * n) *
        ((L.foldl (cdStep n X Xsq (lam * al * n) ((1 - al) * lam * n)) s).b j - s.b j) ^ 2).sum ≤
      obj n p X y al lam s.b
  | [], _, _, _, _ => by simp
  | j :: L, s, h, hL, hnd => by
    have hj := hL j (by simp)
    have hjL : j ∉ L := (List.nodup_cons.1 hnd).1
    have ih := fold_decrease hn hal hX hD L _ (step_inv (n := n) (Xsq := Xsq) h (lam * al * n) ((1 - al) * lam * n) hj)
      (fun k hk => hL k (by simp [hk])) (List.nodup_cons.1 hnd).2
    have h1 := C103_coordinate (y := y) (b := s.b) hn hal hj (hD j hj) (s.b j)
    rw [Function.update_eq_self] at h1
    rw [step_b h hX] at ih
    rw [List.foldl_cons, List.map_cons, List.sum_cons, fold_other _ _ L _ j hjL, step_b h hX, Function.update_self]
    have e : (L.map fun k => (colSq n X k + (1 - al) * lam * n) / (2 * n) *
        ((L.foldl (cdStep n X Xsq (lam * al * n) ((1 - al) * lam * n))
          (cdStep n X Xsq (lam * al * n) ((1 - al) * lam * n) s j)).b k - s.b k) ^ 2).sum =
        (L.map fun k => (colSq n X k + (1 - al) * lam * n) / (2 * n) *
        ((L.foldl (cdStep n X Xsq (lam * al * n) ((1 - al) * lam * n))
          (cdStep n X Xsq (lam * al * n) ((1 - al) * lam * n) s j)).b k -
            Function.update s.b j (zCoef n p X y al lam s.b j) k) ^ 2).sum := by
      congr 1
      refine List.map_congr_left fun k hk => ?_
      rw [Function.update_of_ne (fun h : k = j => hjL (h ▸ hk))]
    rw [e]
    rw [show (s.b j - zCoef n p X y al lam s.b j) ^ 2 = (zCoef n p X y al lam s.b j - s.b j) ^ 2 by ring] at h1
    linarith

/-- A sweep lowers the objective by at least a positive multiple of the squared change of every coefficient. -/
theorem C103_decrease (hn : 0 < n) (hal : 0 ≤ lam * al) (hX : ∀ j, Xsq j = colSq n X j)
    (hD : ∀ j, j < p → 0 < colSq n X j + (1 - al) * lam * n) (h : Inv p X y s) {s' : St α}
    (hs : sweep n p X Xsq (lam * al * n) ((1 - al) * lam * n) s = s') :
    obj n p X y al lam s'.b + ∑ j ∈ Finset.range p, (colSq n X j + (1 - al) * lam * n) / (2 * n) *
      (s'.b j - s.b j) ^ 2 ≤ obj n p X y al lam s.b := by
  have hk := fold_decrease hn hal hX hD ((List.range p).filter s.active) s h (fun _ hj => (mem_vars.1 hj).1)
    (List.nodup_range.filter _)
  rw [show ((List.range p).filter s.active).foldl (cdStep n X Xsq (lam * al * n) ((1 - al) * lam * n)) s = s' from hs] at hk
  refine le_trans (add_le_add_right (le_of_eq ?_) _) hk
  rw [← List.sum_toFinset _ (List.nodup_range.filter _)]
  symm
  refine Finset.sum_subset (fun j hj => ?_) fun j hj hnot => ?_
  · exact Finset.mem_range.2 (mem_vars.1 (List.mem_toFinset.1 hj)).1
  · have : s'.b j = s.b j := by
      rw [← hs]
      exact fold_other _ _ _ _ j fun h => hnot (List.mem_toFinset.2 h)
    rw [this, sub_self]; ring

theorem weights_nonneg (hn : 0 < n) (hD : ∀ j, j < p → 0 < colSq n X j + (1 - al) * lam * n) (f : ℕ → α) :
    0 ≤ ∑ j ∈ Finset.range p, (colSq n X j + (1 - al) * lam * n) / (2 * n) * f j ^ 2 := by
  have hn' : (0 : α) < n := by exact_mod_cast hn
  refine Finset.sum_nonneg fun j hj => mul_nonneg (div_nonneg (hD j (Finset.mem_range.1 hj)).le (by positivity)) (sq_nonneg _)

/-! ## The loop -/

theorem obj_eq_msr (h : Inv p X y s) : msr n s.r + penalty p s.b al lam = obj n p X y al lam s.b := by
  have : s.r = resid p X y s.b := funext h
  rw [this]
  exact C103_loglike.1

theorem loop_props (hn : 0 < n) (hal : 0 ≤ lam * al) (hX : ∀ j, Xsq j = colSq n X j)
    (hD : ∀ j, j < p → 0 < colSq n X j + (1 - al) * lam * n) (dtol : α) : ∀ (k i : ℕ) (s : St α) (f : α × α × α),
    Inv p X y s → f = loglike n p X y s.b al lam →
    let t := cdLoop n p X Xsq al lam (lam * al * n) ((1 - al) * lam * n) dtol k i s f
    Inv p X y t.1 ∧ obj n p X y al lam t.1.b ≤ obj n p X y al lam s.b ∧
      (t.2.1.dropLast.map (·.2.2)).Pairwise (· ≥ ·) ∧ (∀ v ∈ t.2.1.dropLast.map (·.2.2), v ≤ obj n p X y al lam s.b) ∧
      ((t.2.1.getLast? = some (0, 0, 0) ∧ t.2.2 = i + k - 1) ∨
        (t.2.1.getLast? = some (loglike n p X y t.1.b al lam) ∧ ∃ s0, Inv p X y s0 ∧
          t.1 = sweep n p X Xsq (lam * al * n) ((1 - al) * lam * n) s0 ∧
          obj n p X y al lam s0.b - obj n p X y al lam t.1.b < dtol))
  | 0, i, _, _, h, _ => ⟨h, le_refl _, by simp [cdLoop], by simp [cdLoop], by simp [cdLoop]⟩
  | k + 1, i, s, f, h, hf => by
    have h1 := C103_residuals (n := n) (Xsq := Xsq) h (lam * al * n) ((1 - al) * lam * n)
    have h2 := C103_decrease hn hal hX hD h rfl
    have h3 := weights_nonneg (X := X) (al := al) (lam := lam) hn hD
      fun j => (sweep n p X Xsq (lam * al * n) ((1 - al) * lam * n) s).b j - s.b j
    have hf3 : f.2.2 = obj n p X y al lam s.b := by rw [hf]; exact C103_loglike.1
    simp only [cdLoop]
    generalize hs : sweep n p X Xsq (lam * al * n) ((1 - al) * lam * n) s = s' at *
    have hl : (msr n s'.r, penalty p s'.b al lam, msr n s'.r + penalty p s'.b al lam) = loglike n p X y s'.b al lam := by
      have : s'.r = resid p X y s'.b := funext h1
      rw [this]; rfl
    rw [hl, obj_eq_msr h1, hf3]
    split_ifs with hc
    · refine ⟨h1, by linarith, by simp, ?_, Or.inr ⟨by simp, s, h, hs.symm, hc⟩⟩
      intro v hv
      simp only [List.dropLast_cons_cons, List.dropLast_singleton, List.map_cons, List.map_nil, List.mem_singleton] at hv
      rw [hv, hf3]
    · obtain ⟨a1, a2, a3, a4, a5⟩ := loop_props hn hal hX hD dtol k (i + 1) s' _ h1 rfl
      generalize cdLoop n p X Xsq al lam (lam * al * n) ((1 - al) * lam * n) dtol k (i + 1) s'
        (loglike n p X y s'.b al lam) = t at *
      have hne : t.2.1 ≠ [] := by
        intro h0
        rw [h0] at a5
        simp at a5
      refine ⟨a1, by linarith, ?_, ?_, ?_⟩
      · simp only [List.dropLast_cons_of_ne_nil hne, List.map_cons, List.pairwise_cons]
        exact ⟨fun v hv => by rw [hf3]; linarith [a4 v hv], a3⟩
      · simp only [List.dropLast_cons_of_ne_nil hne, List.map_cons, List.mem_cons]
        rintro v (rfl | hv)
        · rw [hf3]
        · linarith [a4 v hv]
      · have e : (f :: t.2.1).getLast? = t.2.1.getLast? := by
          obtain ⟨x, l, hx⟩ := List.exists_cons_of_ne_nil hne
          rw [hx, List.getLast?_cons_cons]
        simp only [e]
        refine a5.imp (fun h => ⟨h.1, by rw [h.2]; omega⟩) id

/-- Hypotheses of the theorems on whole runs: at least one observation, the weights of the penalty nonnegative, no
coordinate without curvature. -/
structure Good (n p : ℕ) (X : ℕ → ℕ → α) (al lam : α) : Prop where
  obs : 0 < n
  lasso : 0 ≤ lam * al
  ridge : 0 ≤ lam * (1 - al)
  curv : ∀ j, j < p → 0 < colSq n X j + (1 - al) * lam * n

variable {active : ℕ → Bool} {iters : ℕ} {dtol : α} {t : St α × List (α × α × α) × ℕ}

theorem run_props (H : Good n p X al lam) (ht : elnCd n p X y (colSq n X) al lam b active iters dtol = some t) :
    Inv p X y t.1 ∧ obj n p X y al lam t.1.b ≤ obj n p X y al lam b ∧
      (t.2.1.dropLast.map (·.2.2)).Pairwise (· ≥ ·) ∧
      ((t.2.1.getLast? = some (0, 0, 0) ∧ t.2.2 = iters - 1) ∨
        (t.2.1.getLast? = some (loglike n p X y t.1.b al lam) ∧ ∃ s0, Inv p X y s0 ∧
          t.1 = sweep n p X (colSq n X) (lam * al * n) ((1 - al) * lam * n) s0 ∧
          obj n p X y al lam s0.b - obj n p X y al lam t.1.b < dtol)) := by
  unfold elnCd at ht
  simp only at ht
  split_ifs at ht with h0
  obtain rfl := Option.some.inj ht
  obtain ⟨a1, a2, a3, -, a5⟩ := loop_props (y := y) H.obs H.lasso (fun _ => rfl) H.curv dtol iters 0
    ⟨b, resid p X y b, active⟩ (msr n (resid p X y b), penalty p b al lam, msr n (resid p X y b) + penalty p b al lam)
    (fun _ => rfl) rfl
  exact ⟨a1, a2, a3, by simpa using a5⟩

/-- The result is no worse than the start; the recorded objectives do not increase (the last row apart). -/
theorem C103_monotone (H : Good n p X al lam) (ht : elnCd n p X y (colSq n X) al lam b active iters dtol = some t) :
    obj n p X y al lam t.1.b ≤ obj n p X y al lam b ∧ (t.2.1.dropLast.map (·.2.2)).Pairwise (· ≥ ·) :=
  ⟨(run_props H ht).2.1, (run_props H ht).2.2.1⟩

/-- Unless the iterations are used up, the last recorded row is the objective of the result, and the last sweep changed
the coefficients by a small amount only. -/
theorem C103_stop_partial (H : Good n p X al lam) (ht : elnCd n p X y (colSq n X) al lam b active iters dtol = some t)
    (hi : t.2.2 + 1 < iters) : t.2.1.getLast? = some (loglike n p X y t.1.b al lam) ∧ ∃ s0, Inv p X y s0 ∧
      t.1 = sweep n p X (colSq n X) (lam * al * n) ((1 - al) * lam * n) s0 ∧
      ∑ j ∈ Finset.range p, (colSq n X j + (1 - al) * lam * n) / (2 * n) * (t.1.b j - s0.b j) ^ 2 < dtol := by
  obtain ⟨-, -, -, h | ⟨h1, s0, h2, h3, h4⟩⟩ := run_props H ht
  · omega
  · refine ⟨h1, s0, h2, h3, ?_⟩
    have := C103_decrease H.obs H.lasso (fun _ => rfl) H.curv h2 h3.symm
    linarith

/-- When they are, it is a row of zeros. -/
theorem C103_stop_violated : ∃ t, elnCd 1 1 (fun _ _ => 1) (fun _ => 1) (colSq 1 fun _ _ => 1) 1 (1 / 2 : ℚ)
      (fun _ => 0) (fun _ => true) 1 (1 / 100) = some t ∧ t.2.1.getLast? = some (0, 0, 0) ∧
      loglike 1 1 (fun _ _ => 1) (fun _ => 1) t.1.b 1 (1 / 2 : ℚ) = (1 / 8, 1 / 4, 3 / 8) :=
  ⟨_, rfl, by decide +kernel, by decide +kernel⟩

/-! ## Minimisers -/

theorem sum_sq_expand (b c : ℕ → α) : ∑ i ∈ Finset.range n, resid p X y c i ^ 2 =
    ∑ i ∈ Finset.range n, resid p X y b i ^ 2 -
      2 * ∑ j ∈ Finset.range p, (c j - b j) * ∑ i ∈ Finset.range n, X i j * resid p X y b i +
      ∑ i ∈ Finset.range n, (∑ j ∈ Finset.range p, X i j * (c j - b j)) ^ 2 := by
  have e : ∀ i, resid p X y c i = resid p X y b i - ∑ j ∈ Finset.range p, X i j * (c j - b j) := by
    intro i
    simp only [resid, mul_sub, Finset.sum_sub_distrib]
    ring
  have e2 : ∑ j ∈ Finset.range p, (c j - b j) * ∑ i ∈ Finset.range n, X i j * resid p X y b i =
      ∑ i ∈ Finset.range n, resid p X y b i * ∑ j ∈ Finset.range p, X i j * (c j - b j) := by
    simp only [Finset.mul_sum]
    rw [Finset.sum_comm]
    exact Finset.sum_congr rfl fun i _ => Finset.sum_congr rfl fun j _ => by ring
  rw [e2, Finset.mul_sum, ← Finset.sum_sub_distrib, ← Finset.sum_add_distrib]
  exact Finset.sum_congr rfl fun i _ => by rw [e]; ring

theorem obj_resid : obj n p X y al lam b = (∑ i ∈ Finset.range n, resid p X y b i ^ 2) / (2 * n) +
    lam * (al * ∑ j ∈ Finset.range p, |b j| + (1 - al) / 2 * ∑ j ∈ Finset.range p, b j ^ 2) := rfl

theorem uCoef_eq (j : ℕ) : uCoef n p X y b j = ∑ i ∈ Finset.range n, X i j * resid p X y b i + colSq n X j * b j := by
  simp only [uCoef, colSq, Finset.sum_mul, ← Finset.sum_add_distrib]
  exact Finset.sum_congr rfl fun i _ => by ring

/-- Growth of the objective over a set of coordinates that are at the value of their update: comparison with any
vector agreeing with `b` elsewhere. -/
theorem min_of_coord (H : Good n p X al lam) (hb : ∀ j, j < p → c j ≠ b j → b j = zCoef n p X y al lam b j) :
    obj n p X y al lam b ≤ obj n p X y al lam c := by
  have hn' : (0 : α) < n := by exact_mod_cast H.obs
  rw [obj_resid, obj_resid, sum_sq_expand b c]
  have hq : 0 ≤ ∑ i ∈ Finset.range n, (∑ j ∈ Finset.range p, X i j * (c j - b j)) ^ 2 :=
    Finset.sum_nonneg fun _ _ => sq_nonneg _
  have key : ∀ j ∈ Finset.range p, (c j - b j) * (∑ i ∈ Finset.range n, X i j * resid p X y b i) / n ≤
      lam * (al * (|c j| - |b j|) + (1 - al) / 2 * (c j ^ 2 - b j ^ 2)) := by
    intro j hj
    have hj := Finset.mem_range.1 hj
    by_cases hcb : c j = b j
    · rw [hcb]; simp
    have h := soft_sub (u := uCoef n p X y b j) (mul_nonneg H.lasso hn'.le) (H.curv j hj) (c j)
    rw [← zCoef, ← hb j hj hcb, uCoef_eq] at h
    have h2 : 0 ≤ lam * (1 - al) * (c j - b j) ^ 2 := mul_nonneg H.ridge (sq_nonneg _)
    rw [div_le_iff₀ hn']
    nlinarith
  have hs := Finset.sum_le_sum key
  rw [← Finset.mul_sum, Finset.sum_add_distrib, ← Finset.mul_sum, ← Finset.mul_sum, Finset.sum_sub_distrib,
    Finset.sum_sub_distrib, ← Finset.sum_div] at hs
  have e : ∀ A B C : α, (A - 2 * B + C) / (2 * n) = A / (2 * n) - B / n + C / (2 * n) := by
    intro A B C; field_simp
  rw [e]
  have : 0 ≤ (∑ i ∈ Finset.range n, (∑ j ∈ Finset.range p, X i j * (c j - b j)) ^ 2) / (2 * n) :=
    div_nonneg hq (by positivity)
  linarith

/-- The coefficients minimise the objective exactly if each is the value of its own update. -/
theorem C103_minimum (H : Good n p X al lam) :
    (∀ c, obj n p X y al lam b ≤ obj n p X y al lam c) ↔ ∀ j, j < p → b j = zCoef n p X y al lam b j := by
  refine ⟨fun h j hj => ?_, fun h c => min_of_coord H fun j hj _ => h j hj⟩
  have h1 := C103_coordinate (y := y) (b := b) H.obs H.lasso hj (H.curv j hj) (b j)
  rw [Function.update_eq_self] at h1
  have h2 := h (Function.update b j (zCoef n p X y al lam b j))
  have hn' : (0 : α) < n := by exact_mod_cast H.obs
  have hw : 0 < (colSq n X j + (1 - al) * lam * n) / (2 * n) := div_pos (H.curv j hj) (by positivity)
  have h3 : (b j - zCoef n p X y al lam b j) ^ 2 ≤ 0 := by
    by_contra hcon
    have := mul_pos hw (not_le.1 hcon)
    linarith
  exact sub_eq_zero.1 (pow_eq_zero_iff (two_ne_zero) |>.1 (le_antisymm h3 (sq_nonneg _)))

theorem fold_fixed (hX : ∀ j, Xsq j = colSq n X j) : ∀ (L : List ℕ) (s : St α), Inv p X y s → (∀ j ∈ L, j < p) → L.Nodup →
    ((L.foldl (cdStep n X Xsq (lam * al * n) ((1 - al) * lam * n)) s).b = s.b ↔
      ∀ j ∈ L, s.b j = zCoef n p X y al lam s.b j)
  | [], _, _, _, _ => by simp
  | j :: L, s, h, hL, hnd => by
    have hj := hL j (by simp)
    have hjL : j ∉ L := (List.nodup_cons.1 hnd).1
    have hst := step_b (al := al) (lam := lam) h hX j
    have ih := fold_fixed hX L _ (step_inv (n := n) (Xsq := Xsq) h (lam * al * n) ((1 - al) * lam * n) hj)
      (fun k hk => hL k (by simp [hk])) (List.nodup_cons.1 hnd).2
    rw [hst] at ih
    have hval := fold_other (n := n) (X := X) (Xsq := Xsq) (lam * al * n) ((1 - al) * lam * n) L
      (cdStep n X Xsq (lam * al * n) ((1 - al) * lam * n) s j) j hjL
    rw [hst, Function.update_self] at hval
    rw [List.foldl_cons, List.forall_mem_cons]
    constructor
    · intro he
      have hz : s.b j = zCoef n p X y al lam s.b j := by rw [← hval, he]
      have hu : Function.update s.b j (zCoef n p X y al lam s.b j) = s.b := by
        rw [← hz, Function.update_eq_self]
      rw [hu] at ih
      exact ⟨hz, ih.1 he⟩
    · rintro ⟨hz, hr⟩
      have hu : Function.update s.b j (zCoef n p X y al lam s.b j) = s.b := by
        rw [← hz, Function.update_eq_self]
      rw [hu] at ih
      exact ih.2 hr

/-- A sweep leaves the coefficients as they are exactly if they are minimal among all vectors that agree with them
outside the active set. -/
theorem C103_sweep_fixed (H : Good n p X al lam) (h : Inv p X y s) :
    (sweep n p X (colSq n X) (lam * al * n) ((1 - al) * lam * n) s).b = s.b ↔
      ∀ c, (∀ j, s.active j = false → c j = s.b j) → obj n p X y al lam s.b ≤ obj n p X y al lam c := by
  rw [sweep, fold_fixed (fun _ => rfl) _ _ h (fun _ hj => (mem_vars.1 hj).1) (List.nodup_range.filter _)]
  constructor
  · intro hz c hc
    refine min_of_coord H fun j hj hne => hz j (mem_vars.2 ⟨hj, ?_⟩)
    by_contra ha
    exact hne (hc j (by simpa using ha))
  · intro hm j hjm
    obtain ⟨hj, hja⟩ := mem_vars.1 hjm
    have h1 := C103_coordinate (y := y) (b := s.b) H.obs H.lasso hj (H.curv j hj) (s.b j)
    rw [Function.update_eq_self] at h1
    have h2 := hm (Function.update s.b j (zCoef n p X y al lam s.b j)) fun k hk =>
      Function.update_of_ne (fun e => by rw [e, hja] at hk; cases hk) _ _
    have hn' : (0 : α) < n := by exact_mod_cast H.obs
    have hw : 0 < (colSq n X j + (1 - al) * lam * n) / (2 * n) := div_pos (H.curv j hj) (by positivity)
    have h3 : (s.b j - zCoef n p X y al lam s.b j) ^ 2 ≤ 0 := by
      by_contra hcon
      have := mul_pos hw (not_le.1 hcon)
      linarith
    exact sub_eq_zero.1 (pow_eq_zero_iff (two_ne_zero) |>.1 (le_antisymm h3 (sq_nonneg _)))

/-- So with every variable active a fixed point is a global minimum. -/
theorem C103_fixed_partial (H : Good n p X al lam) (h : Inv p X y s) (ha : ∀ j, s.active j = true)
    (hs : (sweep n p X (colSq n X) (lam * al * n) ((1 - al) * lam * n) s).b = s.b) (c : ℕ → α) :
    obj n p X y al lam s.b ≤ obj n p X y al lam c :=
  (C103_sweep_fixed H h).1 hs c fun j hj => by rw [ha j] at hj; cases hj

/-- But a variable whose coefficient is once zero is never looked at again: with two equal columns and the default
start `elnet` returns `(0, 1/3)`, a fixed point, whereas `(1/5, 1/5)` is better. -/
theorem C103_minimum_violated : ∃ t, elnet 2 2 (fun i _ => if i = 0 then 1 else -1) (fun i => if i = 0 then 1 else -1)
      1 (1 / 2 : ℚ) none none 1000 (1 / 10 ^ 9) true = some t ∧ t.1.b 0 = 0 ∧ t.1.b 1 = 1 / 3 ∧ t.2.2 = 1 ∧
      obj 2 2 (fun i _ => if i = 0 then 1 else -1) (fun i => if i = 0 then 1 else -1) (1 / 2 : ℚ) 1 (fun _ => 1 / 5) <
        obj 2 2 (fun i _ => if i = 0 then 1 else -1) (fun i => if i = 0 then 1 else -1) (1 / 2 : ℚ) 1 t.1.b :=
  ⟨_, rfl, by decide +kernel, by decide +kernel, by decide +kernel, by decide +kernel⟩

/-- The hypotheses hold there. -/
example : Good 2 2 (fun i _ => if i = 0 then 1 else -1) (1 / 2 : ℚ) 1 :=
  ⟨by decide, by norm_num, by norm_num, fun j _ => by simp [colSq, Finset.sum_range_succ]; norm_num⟩

/-! ## The gradient -/

section real
variable {X : ℕ → ℕ → ℝ} {y b : ℕ → ℝ} {al lam : ℝ}

theorem obj_deriv (hn : 0 < n) {j : ℕ} (hj : j < p) (hb : b j ≠ 0) :
    HasDerivAt (fun x => obj n p X y al lam (Function.update b j x))
      (elnetGrad n p X y b lam al j - lam * al + lam * al * SignType.sign (b j)) (b j) := by
  have hn' : (0 : ℝ) < n := by exact_mod_cast hn
  simp only [obj_update j hj]
  have hx := hasDerivAt_id (b j)
  have h2 := hx.fun_pow 2
  have ha := hasDerivAt_abs hb
  simp only [id] at hx h2
  have h := ((((hx.const_mul 2).mul_const (uCoef n p X y b j)).const_sub
    (∑ i ∈ Finset.range n, (resid p X y b i + X i j * b j) ^ 2)).fun_add (h2.mul_const (colSq n X j))).div_const (2 * n)
    |>.fun_add ((((ha.const_add (∑ j ∈ Finset.range p, |b j| - |b j|)).const_mul al).fun_add
      ((h2.const_add (∑ j ∈ Finset.range p, b j ^ 2 - b j ^ 2)).const_mul ((1 - al) / 2))).const_mul lam)
  refine h.congr_deriv ?_
  rw [elnetGrad, uCoef_eq]
  field_simp
  ring

/-- For a positive coefficient `elnet_grad` is the derivative of the objective. -/
theorem C103_grad_partial (hn : 0 < n) {j : ℕ} (hj : j < p) (hb : 0 < b j) :
    HasDerivAt (fun x => obj n p X y al lam (Function.update b j x)) (elnetGrad n p X y b lam al j) (b j) := by
  refine (obj_deriv hn hj hb.ne').congr_deriv ?_
  simp [hb]

/-- For a negative one the sign of the penalty is wrong. -/
theorem C103_grad_violated (hn : 0 < n) {j : ℕ} (hj : j < p) (hb : b j < 0) (hla : lam * al ≠ 0) :
    ¬ HasDerivAt (fun x => obj n p X y al lam (Function.update b j x)) (elnetGrad n p X y b lam al j) (b j) := by
  intro h
  have h2 := h.unique (obj_deriv hn hj hb.ne)
  simp [hb] at h2
  exact hla (by linear_combination h2 / 2)

end real
end Verif.Eln
