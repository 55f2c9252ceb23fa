import Verif.Misc.SashProps
import Verif.Misc.Sad

/-!
# C178: gradient and Hessian in `sinharcsinh_dist.py`

The hand written first and second derivatives agree with the derivatives of the log density; the
parameters are in the order `m, s, v, t`.
-/

namespace Verif.Misc.Sad

open Verif.Misc Verif.Misc.Sym
open Verif.Misc.Shash (args logDens)
open Verif.Misc.Sash (Dom saSetup base setup_ok)

set_option maxRecDepth 100000 in
private theorem c_1 : check1 saSetup base grad 0 = true := by decide +kernel

set_option maxRecDepth 100000 in
private theorem c_2 : check saSetup 2 grad 0 hess 0 = true := by decide +kernel

/-- The gradient of one observation. -/
theorem C178_grad (y : ℝ) (θ : ℕ → ℝ) (h : Dom θ) :
    IsNext 4 1 (fun θ => some [logDens y (θ 0) (θ 1) (θ 3) (θ 2)]) (fun θ => grad.block 0 (args y θ)) θ := by
  obtain ⟨D, h1, h2, h3⟩ := Sash.first_block c_1 y θ h
  refine ⟨D, h1, h2, fun k I hI => ?_⟩
  refine (h3 k I hI).congr_of_eventuallyEq ?_
  filter_upwards [(setup_ok y).near θ h (I.getLastD 0)] with x hx
  rw [Sash.logp_block y _ hx]

/-- The second derivatives of one observation. -/
theorem C178_hess (y : ℝ) (θ : ℕ → ℝ) (h : Dom θ) :
    IsNext 4 2 (fun θ => grad.block 0 (args y θ)) (fun θ => hess.block 0 (args y θ)) θ :=
  isNext_of_check (setup_ok y) c_2 θ h

theorem upper (i j : ℕ) (hi : i < 4) (hj : j < 4) :
    ((hess.outs.getD (i + 1) []).getD j 0) =
      (hess.outs.getD 0 []).getD ((multi 4 0 2).idxOf [min i j, max i j]) 0 ∧
    (hess.outs.getD (i + 1) []).length = 4 ∧
    (multi 4 0 2).idxOf [min i j, max i j] < 10 ∧
    (multi 4 0 2)[(multi 4 0 2).idxOf [min i j, max i j]]? = some [min i j, max i j] := by
  interval_cases i <;> interval_cases j <;> exact ⟨rfl, rfl, by decide, by decide⟩

theorem evalAll_getD (inp env : List ℝ) : ∀ (es : List Expr) (l : List ℝ), evalAll inp env es = some l →
    ∀ j, j < es.length → (es.getD j 0).eval inp env = some (l.getD j 0)
  | [], _, _, j, hj => by simp at hj
  | e :: r, l, h, j, hj => by
    rw [evalAll] at h
    cases he : e.eval inp env with
    | none => rw [he] at h; simp at h
    | some a =>
      cases hr : evalAll inp env r with
      | none => rw [he, hr] at h; simp at h
      | some b =>
        rw [he, hr] at h
        have : a :: b = l := by simpa using h
        subst this
        cases j with
        | zero => simpa using he
        | succ j => simpa using evalAll_getD inp env r b hr j (by simpa using hj)

theorem evalAll_some (inp env : List ℝ) : ∀ es : List Expr,
    (∀ j, j < es.length → ∃ a, (es.getD j 0).eval inp env = some a) → ∃ l, evalAll inp env es = some l
  | [], _ => ⟨[], rfl⟩
  | e :: r, h => by
    obtain ⟨a, ha⟩ := h 0 (by simp)
    obtain ⟨b, hb⟩ := evalAll_some inp env r fun j hj => by
      simpa using h (j + 1) (by simpa using hj)
    refine ⟨a :: b, ?_⟩
    rw [List.getD_cons_zero] at ha
    simp [evalAll, ha, hb]

/-- The rows of the matrix hold the second derivatives: entry `i, j` is that of the pair
`min i j ≤ max i j`, so the matrix is symmetric. -/
theorem C178_matrix (y : ℝ) (θ : ℕ → ℝ) (h : Dom θ) (i j : ℕ) (hi : i < 4) (hj : j < 4) :
    entry (hess.block (i + 1) (args y θ)) j =
      entry (hess.block 0 (args y θ)) ((multi 4 0 2).idxOf [min i j, max i j]) := by
  obtain ⟨D, h1, h2, -⟩ := C178_hess y θ h
  beta_reduce at h1
  have h1' := h1
  simp only [Prog.block] at h1
  rw [Option.bind_eq_bind, Option.bind_eq_some_iff] at h1
  obtain ⟨env, he, hD⟩ := h1
  have hg := evalAll_getD _ _ _ _ hD
  obtain ⟨l, hl⟩ := evalAll_some (args y θ) env (hess.outs.getD (i + 1) []) (by
    intro k hk
    rw [(upper i 0 hi (by omega)).2.1] at hk
    rw [(upper i k hi hk).1]
    exact ⟨_, hg _ (upper i k hi hk).2.2.1⟩)
  have hb : hess.block (i + 1) (args y θ) = some l := by
    simp only [Prog.block, he, Option.bind_eq_bind, Option.bind_some, hl]
  rw [hb, h1', entry, entry, Option.getD_some, Option.getD_some]
  have e1 := evalAll_getD _ _ _ _ hl j (by rw [(upper i j hi hj).2.1]; exact hj)
  rw [(upper i j hi hj).1, hg _ (upper i j hi hj).2.2.1] at e1
  exact (Option.some.inj e1).symm

theorem sum_deriv {α : Type*} (xs : List α) (f : α → ℝ → ℝ) (f' : α → ℝ) (x₀ : ℝ)
    (h : ∀ a ∈ xs, HasDerivAt (f a) (f' a) x₀) :
    HasDerivAt (fun x => (xs.map fun a => f a x).sum) (xs.map f').sum x₀ := by
  induction xs with
  | nil => exact hasDerivAt_const x₀ 0
  | cons a l ih =>
    simp only [List.map_cons, List.sum_cons]
    exact (h a (by simp)).fun_add (ih fun b hb => h b (by simp [hb]))

/-- `_grad` is the gradient of the log likelihood of a sample. -/
theorem C178_grad_sum (xs : List ℝ) (θ : ℕ → ℝ) (h : Dom θ) (k : ℕ) (hk : k < 4) :
    HasDerivAt (fun x => (xs.map fun y => logDens y (Function.update θ k x 0) (Function.update θ k x 1)
      (Function.update θ k x 3) (Function.update θ k x 2)).sum) (gradSum xs θ k) (θ k) := by
  refine sum_deriv xs _ (fun y => entry (grad.block 0 (args y θ)) k) (θ k) fun y _ => ?_
  obtain ⟨D, h1, h2, h3⟩ := C178_grad y θ h
  beta_reduce at h1
  have := h3 k [k] (by interval_cases k <;> rfl)
  rw [h1, entry]
  exact this

/-- `_hess` is the Hessian of the log likelihood of a sample. -/
theorem C178_hess_sum (xs : List ℝ) (θ : ℕ → ℝ) (h : Dom θ) (i j : ℕ) (hi : i < 4) (hj : j < 4) :
    HasDerivAt (fun x => gradSum xs (Function.update θ (max i j) x) (min i j)) (hessSum xs θ i j)
      (θ (max i j)) := by
  have e : hessSum xs θ i j = (xs.map fun y => entry (hess.block 0 (args y θ))
      ((multi 4 0 2).idxOf [min i j, max i j])).sum := by
    rw [hessSum]
    congr 1
    refine List.map_congr_left fun y _ => ?_
    exact C178_matrix y θ h i j hi hj
  rw [e]
  refine sum_deriv xs _ (fun y => entry (hess.block 0 (args y θ))
    ((multi 4 0 2).idxOf [min i j, max i j])) _ fun y _ => ?_
  obtain ⟨D, h1, h2, h3⟩ := C178_hess y θ h
  beta_reduce at h1
  have := h3 _ _ (upper i j hi hj).2.2.2
  rw [h1, entry]
  refine this.congr_of_eventuallyEq (Filter.Eventually.of_forall fun x => ?_)
  have hm : (multi 4 0 (2 - 1)).idxOf [min i j, max i j].dropLast = min i j := by
    interval_cases i <;> interval_cases j <;> decide
  rw [hm]
  rfl

end Verif.Misc.Sad
