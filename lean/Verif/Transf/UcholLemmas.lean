import Verif.Transf.Uchol
import Verif.Index.Props
import Verif.Vec.Lemmas
import Verif.Calc.Matrix
import Mathlib.Analysis.SpecialFunctions.Sqrt
import Mathlib.Algebra.BigOperators.Fin
import Mathlib.Algebra.BigOperators.Field
import Mathlib.Algebra.Order.BigOperators.Ring.Finset
/-! # Lemmas on the triangular loop -/
namespace Verif.Transf
open Verif.Vec Verif.Index Verif.Calc Real

section loop
variable {α σ : Type*}

/-- State of the inner loop after the cells `1..c` of a row with positions `κ`. -/
def aux (a0 : ℤ → σ) (next : σ → ℤ → σ) (κ : ℕ → ℤ) : ℕ → σ
  | 0 => a0 (κ 0)
  | j + 1 => next (aux a0 next κ j) (κ (j + 1))

theorem inner_spec (a0 : ℤ → σ) (val : σ → ℤ → α) (next : σ → ℤ → σ) (κ : ℕ → ℤ) (A : ℤ → α)
    (c : ℕ) (hinj : ∀ a b, a ≤ c → b ≤ c → κ a = κ b → a = b) :
    let r := (List.range' 1 c).foldl (fun (st : (ℤ → α) × σ) (j : ℕ) =>
      (store st.1 (κ j) (val st.2 (κ j)), next st.2 (κ j))) (A, a0 (κ 0))
    r.2 = aux a0 next κ c ∧
    (∀ j, j + 1 ≤ c → r.1 (κ (j + 1)) = val (aux a0 next κ j) (κ (j + 1))) ∧
    (∀ p, (∀ j, 1 ≤ j → j ≤ c → p ≠ κ j) → r.1 p = A p) := by
  induction c with
  | zero => exact ⟨rfl, fun j h => by omega, fun p _ => rfl⟩
  | succ c ih =>
    obtain ⟨h2, h1, h0⟩ := ih (fun a b ha hb => hinj a b (by omega) (by omega))
    simp only [List.range'_concat, List.foldl_append, List.foldl_cons, List.foldl_nil]
    generalize hr : (List.range' 1 c).foldl (fun (st : (ℤ → α) × σ) (j : ℕ) =>
      (store st.1 (κ j) (val st.2 (κ j)), next st.2 (κ j))) (A, a0 (κ 0)) = r at *
    rw [show 1 + 1 * c = c + 1 by omega]
    refine ⟨by rw [h2]; rfl, fun j hj => ?_, fun p hp => ?_⟩
    · simp only [store]
      by_cases e : j = c
      · subst e; simp [h2]
      · rw [if_neg (show ¬ κ (j + 1) = κ (c + 1) from fun h => by
          have := hinj _ _ (by omega) (by omega) h; omega)]
        exact h1 j (by omega)
    · simp only [store]
      rw [if_neg (hp (c + 1) (by omega) (by omega))]
      exact h0 p fun j ha hb => hp j ha (by omega)

/-- Position of cell `(i, j)`. -/
abbrev pos (n i j : ℕ) : ℤ := veclIndsForwards i j n

theorem pos_inj {n i j i' j' : ℕ} (h1 : j < i) (h2 : i < n) (h1' : j' < i') (h2' : i' < n)
    (h : pos n i j = pos n i' j') : i = i' ∧ j = j' := by
  have a := (C03_vecl_reverse_forwards n i j (by omega) (by omega) (by omega)).2.2
  have b := (C03_vecl_reverse_forwards n i' j' (by omega) (by omega) (by omega)).2.2
  change veclIndsForwards _ _ _ = veclIndsForwards _ _ _ at h
  rw [h, b] at a
  simp only [Prod.mk.injEq] at a
  omega

/-- What the loop leaves in cell `(i, j)`. -/
def cellVal (v0 : ℤ → α) (a0 : ℤ → σ) (val : σ → ℤ → α) (next : σ → ℤ → σ) (κ : ℕ → ℤ) : ℕ → α
  | 0 => v0 (κ 0)
  | j + 1 => val (aux a0 next κ j) (κ (j + 1))

theorem triLoop_spec (n : ℕ) (v0 : ℤ → α) (a0 : ℤ → σ) (val : σ → ℤ → α) (next : σ → ℤ → σ)
    (A : ℤ → α) (i j : ℕ) (hj : j < i) (hi : i < n) :
    triLoop n v0 a0 val next A (pos n i j) = cellVal v0 a0 val next (pos n i) j := by
  have key : ∀ c, c ≤ n - 1 → ∀ i j, j < i → i ≤ c →
      (List.range' 1 c).foldl (fun A (i : ℕ) =>
        let k1 := veclIndsForwards i 0 n
        let A := store A k1 (v0 k1)
        ((List.range' 1 (i - 1)).foldl (fun (st : (ℤ → α) × σ) (j : ℕ) =>
          let k2 := veclIndsForwards i j n
          (store st.1 k2 (val st.2 k2), next st.2 k2)) (A, a0 k1)).1) A (pos n i j) =
      cellVal v0 a0 val next (pos n i) j := by
    intro c
    induction c with
    | zero => intro _ i j h1 h2; omega
    | succ c ih =>
      intro hc i j h1 h2
      rw [List.range'_concat, List.foldl_append, List.foldl_cons, List.foldl_nil]
      generalize hB : (List.range' 1 c).foldl _ A = B at *
      rw [show 1 + 1 * c = c + 1 by omega]
      have sp := inner_spec a0 val next (pos n (c + 1))
        (store B (pos n (c + 1) 0) (v0 (pos n (c + 1) 0))) (c + 1 - 1)
        (fun a b ha hb e => (pos_inj (by omega) (by omega) (by omega) (by omega) e).2)
      obtain ⟨-, s1, s0⟩ := sp
      by_cases e : i = c + 1
      · subst e
        cases j with
        | zero =>
          refine (s0 _ fun j ha hb e => ?_).trans ?_
          · have := (pos_inj (by omega) (by omega) (by omega) (by omega) e).2; omega
          · simp [store, cellVal]
        | succ j => exact s1 j (by omega)
      · refine (s0 _ fun j' ha hb e' => ?_).trans ?_
        · have := (pos_inj (by omega) (by omega) (by omega) (by omega) e').1; omega
        · simp only [store]
          rw [if_neg (show ¬ pos n i j = pos n (c + 1) 0 from fun e' => by
            have := (pos_inj (by omega) (by omega) (by omega) (by omega) e').1; omega)]
          exact ih (by omega) i j h1 (by omega)
  exact key (n - 1) le_rfl i j hj (by omega)

end loop

/-- Every cell of the vector is some `(i, j)` strictly below the diagonal, and conversely. -/
theorem pos_range {n m i j : ℕ} (hm : 2 * m = n * (n - 1)) (h1 : j < i) (h2 : i < n) :
    0 ≤ pos n i j ∧ pos n i j < m := by
  have a := C03_vecl_reverse_forwards n i j (by omega) (by omega) (by omega)
  refine ⟨a.1, ?_⟩
  have : (2 * m : ℤ) = n * (n - 1) := by
    have := congrArg (Nat.cast (R := ℤ)) hm
    push_cast [show 1 ≤ n by omega] at this
    exact this
  have := a.2.1
  show veclIndsForwards i j n < m
  omega

theorem pos_surj {n m : ℕ} (hm : 2 * m = n * (n - 1)) (hn : 1 ≤ n) (p : ℤ) (h0 : 0 ≤ p) (h1 : p < m) :
    ∃ i j : ℕ, j < i ∧ i < n ∧ pos n i j = p := by
  have e : (2 * m : ℤ) = n * (n - 1) := by
    have := congrArg (Nat.cast (R := ℤ)) hm
    push_cast [hn] at this
    exact this
  obtain ⟨a, b, c, d⟩ := C03_vecl_forwards_reverse n p (by omega) h0 (by omega)
  refine ⟨(veclIndsReverse p n).1.toNat, (veclIndsReverse p n).2.toNat, by omega, by omega, ?_⟩
  show veclIndsForwards _ _ _ = p
  rw [Int.toNat_of_nonneg (by omega), Int.toNat_of_nonneg a]
  exact d

theorem size_eq {n m : ℕ} (hm : 2 * m = n * (n - 1)) (hn : 1 ≤ n) : lhvSizeToMatSize m = n := by
  have := lhvSize_roundtrip n hn
  rwa [show n * (n - 1) / 2 = m by omega] at this

/-! ## values -/

/-- Running sum of squares of a row. -/
def rowSum (y : ℤ → ℝ) (κ : ℕ → ℤ) (j : ℕ) : ℝ := ∑ l ∈ Finset.range j, y (κ l) ^ 2

/-- States of the two loops. -/
noncomputable def rvsAux (x : ℤ → ℝ) := aux (fun k => x k ^ 2)
  (fun s k => s + (x k * sqrt (1 - s)) ^ 2)

noncomputable def fwdAux (y : ℤ → ℝ) := aux (fun k => y k ^ 2) (fun s k => s + y k ^ 2)

section vals
variable {n m : ℕ}

theorem rvs_zero (hm : 2 * m = n * (n - 1)) (x : ℤ → ℝ) {i : ℕ} (h1 : 0 < i) (h2 : i < n) :
    ucRvs m x (pos n i 0) = x (pos n i 0) := by
  rw [ucRvs, size_eq hm (by omega), triLoop_spec _ _ _ _ _ _ _ _ h1 h2]; rfl

theorem rvs_succ (hm : 2 * m = n * (n - 1)) (x : ℤ → ℝ) {i j : ℕ} (h1 : j + 1 < i) (h2 : i < n) :
    ucRvs m x (pos n i (j + 1)) = x (pos n i (j + 1)) * sqrt (1 - rvsAux x (pos n i) j) := by
  rw [ucRvs, size_eq hm (by omega), triLoop_spec _ _ _ _ _ _ _ _ h1 h2]; rfl

theorem fwd_zero (hm : 2 * m = n * (n - 1)) (x : ℤ → ℝ) {i : ℕ} (h1 : 0 < i) (h2 : i < n) :
    ucFwd m x (pos n i 0) = x (pos n i 0) := by
  rw [ucFwd, size_eq hm (by omega), triLoop_spec _ _ _ _ _ _ _ _ h1 h2]; rfl

theorem fwd_succ (hm : 2 * m = n * (n - 1)) (x : ℤ → ℝ) {i j : ℕ} (h1 : j + 1 < i) (h2 : i < n) :
    ucFwd m x (pos n i (j + 1)) = x (pos n i (j + 1)) / sqrt (1 - fwdAux x (pos n i) j) := by
  rw [ucFwd, size_eq hm (by omega), triLoop_spec _ _ _ _ _ _ _ _ h1 h2]; rfl

theorem fwdAux_eq (y : ℤ → ℝ) (κ : ℕ → ℤ) (j : ℕ) : fwdAux y κ j = rowSum y κ (j + 1) := by
  induction j with
  | zero => simp [fwdAux, aux, rowSum]
  | succ j ih =>
    rw [rowSum, Finset.sum_range_succ, ← rowSum, ← ih]; rfl

/-- In the reverse direction the state is the sum of squares of the produced values. -/
theorem rvsAux_eq (hm : 2 * m = n * (n - 1)) (x : ℤ → ℝ) {i : ℕ} (h2 : i < n) (j : ℕ) (hj : j < i) :
    rvsAux x (pos n i) j = rowSum (ucRvs m x) (pos n i) (j + 1) := by
  induction j with
  | zero => simp [rvsAux, aux, rowSum, rvs_zero hm x hj h2]
  | succ j ih =>
    rw [rowSum, Finset.sum_range_succ, ← rowSum, ← ih (by omega), rvs_succ hm x hj h2]; rfl

/-- The remaining stick: `1 - s` is the product of `1 - x²`. -/
theorem rvs_stick (x : ℤ → ℝ) (κ : ℕ → ℤ) (j : ℕ) (hx : ∀ l ≤ j, x (κ l) ^ 2 ≤ 1) :
    1 - rvsAux x κ j = ∏ l ∈ Finset.range (j + 1), (1 - x (κ l) ^ 2) := by
  induction j with
  | zero => simp [rvsAux, aux]
  | succ j ih =>
    have ih := ih fun l hl => hx l (by omega)
    rw [Finset.prod_range_succ, ← ih]
    have : 0 ≤ 1 - rvsAux x κ j := by
      rw [ih]; exact Finset.prod_nonneg fun l hl => by
        have := hx l (by simp at hl; omega); linarith
    show 1 - (rvsAux x κ j + (x (κ (j + 1)) * sqrt (1 - rvsAux x κ j)) ^ 2) = _
    rw [mul_pow, sq_sqrt this]; ring

theorem rvs_stick_pos (x : ℤ → ℝ) (κ : ℕ → ℤ) (j : ℕ) (hx : ∀ l ≤ j, x (κ l) ^ 2 < 1) :
    0 < 1 - rvsAux x κ j := by
  rw [rvs_stick x κ j fun l hl => (hx l hl).le]
  exact Finset.prod_pos fun l hl => by have := hx l (by simp at hl; omega); linarith

end vals
end Verif.Transf
