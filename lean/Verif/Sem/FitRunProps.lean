import Verif.Sem.FitRun
import Verif.Sem.ShareProps
import Verif.Func.Props
import Mathlib.LinearAlgebra.Matrix.Notation
import Mathlib.LinearAlgebra.Matrix.NonsingularInverse
/-!
# C238: fitting a structural equation model
-/
namespace Verif.Sem
open Verif.Func Verif.Rank

variable {T : Type}

/-- **C238, violated.** The newer class cannot be fitted with default arguments: `fit()` raises whatever the optimiser. -/
theorem C238_default_violated (solve : MinCall T → T × ℝ) (theta : T) (init : Option T) (kws : MinKws) (hess : Bool) :
    fitRun true solve theta init kws none hess = none := rfl

/-- **C238.** The older one starts where it should with the defaults, and the user's options override them. -/
theorem C238_older_options (theta : T) (init : Option T) (mo : Opts) (h : (mo.map Prod.fst).Nodup) (hess : Bool) :
    ∃ o o', fitCall false theta init ⟨none, none⟩ none hess = some ⟨init.getD theta, "trust-constr", o, hess⟩ ∧
      o.get "initial_tr_radius" = some (.num 1) ∧ o.get "verbose" = some (.num 3) ∧
      fitCall false theta init ⟨none, none⟩ (some mo) hess = some ⟨init.getD theta, "trust-constr", o', hess⟩ ∧
      ∀ k, o'.get k = (mo.get k).or (trDefaults.get k) :=
  ⟨_, _, rfl, rfl, rfl, rfl, fun k => (C55_handle_default_kws mo trDefaults h (by decide) k).1⟩

/-- **C238, partial.** With options given, an option of the user always has the user's value in the newer class too,
unless `minimize_kws` has options of its own. -/
theorem C238_options_partial (theta : T) (init : Option T) (mo : Opts) (h : (mo.map Prod.fst).Nodup) (meth : Option String) (hess : Bool) :
    ∃ o, fitCall true theta init ⟨meth, none⟩ (some mo) hess = some ⟨init.getD theta, meth.getD "trust-constr", o, hess⟩ ∧
      ∀ k v, mo.get k = some v → o.get k = some v := by
  refine ⟨_, rfl, fun k v hk => ?_⟩
  refine ((C55_handle_default_kws mo _ h (by split_ifs <;> decide) k).1).trans ?_
  rw [hk]
  rfl

/-- **C238, partial.** If the gradient is not huge, one call is made, its point is the result, and the dictionary of
the caller is left alone. -/
theorem C238_once_partial (newer : Bool) (solve : MinCall T → T × ℝ) (theta : T) (init : Option T) (kws : MinKws) (mo : Opts) (hess : Bool)
    (h : ∀ c, (solve c).2 ≤ 10 ^ 16) :
    ∃ c, fitCall newer theta init kws (some mo) hess = some c ∧
      fitRun newer solve theta init kws (some mo) hess = some ⟨[c], (solve c).1, some mo⟩ := by
  have hc : ∃ c, fitCall newer theta init kws (some mo) hess = some c := by cases newer <;> exact ⟨_, rfl⟩
  obtain ⟨c, hc⟩ := hc
  refine ⟨c, hc, ?_⟩
  unfold fitRun
  rw [hc]
  simp only [Option.bind_eq_bind, Option.bind_some]
  rw [if_neg (not_lt.2 (h c))]
  rfl

/-- Optimisers of both kinds: one that always succeeds, one that never does. -/
example : (∀ c : MinCall T, ((fun c : MinCall T => (c.x0, (0 : ℝ))) c).2 ≤ 10 ^ 16) ∧
    (∀ c : MinCall T, 10 ^ 16 < ((fun c : MinCall T => (c.x0, (10 : ℝ) ^ 17)) c).2) := by
  constructor <;> intro _ <;> norm_num

/-- **C238, violated.** A method named among the options is not the one used. -/
theorem C238_method_violated (theta : T) (init : Option T) (s : String) (hess : Bool) :
    ∃ o, fitCall true theta init ⟨none, none⟩ (some [("method", .str s)]) hess = some ⟨init.getD theta, "trust-constr", o, hess⟩ ∧
      o.get "method" = some (.str s) := by
  refine ⟨_, rfl, ?_⟩
  exact (C55_handle_default_kws [("method", OptVal.str s)] _ (by simp) (by split_ifs <;> decide) "method").1

/-- **C238, violated.** The second attempt forgets the starting value of the user: whenever it is made, it starts at
`self.theta`. -/
theorem C238_restart_violated (newer : Bool) (solve : MinCall T → T × ℝ) (theta init : T) (kws : MinKws) (mo : Opts) (hess : Bool)
    (h : ∀ c, 10 ^ 16 < (solve c).2) :
    ∃ c c', (fitRun newer solve theta (some init) kws (some mo) hess).map (·.calls) = some [c, c'] ∧ c.x0 = init ∧ c'.x0 = theta := by
  have hc : ∃ c, fitCall newer theta (some init) kws (some mo) hess = some c ∧ c.x0 = init := by cases newer <;> exact ⟨_, rfl, rfl⟩
  have hc' : ∃ c, fitCall newer theta none kws (some (mo.put "initial_tr_radius" (.num (1 / 100)))) hess = some c ∧ c.x0 = theta := by
    cases newer <;> exact ⟨_, rfl, rfl⟩
  obtain ⟨c, hc, h1⟩ := hc
  obtain ⟨c', hc', h2⟩ := hc'
  refine ⟨c, c', ?_, h1, h2⟩
  unfold fitRun
  rw [hc]
  simp only [Option.bind_eq_bind, Option.bind_some, Option.getD_some]
  rw [if_pos (h c), hc']
  rfl

/-- **C238, violated.** It also writes into the dictionary of the caller. -/
theorem C238_mutate_violated (newer : Bool) (solve : MinCall T → T × ℝ) (theta : T) (init : Option T) (kws : MinKws) (mo : Opts) (hess : Bool)
    (h : ∀ c, 10 ^ 16 < (solve c).2) :
    ∃ o, (fitRun newer solve theta init kws (some mo) hess).map (·.opts) = some (some o) ∧ o.get "initial_tr_radius" = some (.num (1 / 100)) := by
  have hc : ∃ c, fitCall newer theta init kws (some mo) hess = some c := by cases newer <;> exact ⟨_, rfl⟩
  have hc' : ∃ c, fitCall newer theta none kws (some (mo.put "initial_tr_radius" (.num (1 / 100)))) hess = some c := by
    cases newer <;> exact ⟨_, rfl⟩
  obtain ⟨c, hc⟩ := hc
  obtain ⟨c', hc'⟩ := hc'
  refine ⟨mo.put "initial_tr_radius" (.num (1 / 100)), ?_, ?_⟩
  · unfold fitRun
    rw [hc]
    simp only [Option.bind_eq_bind, Option.bind_some, Option.getD_some]
    rw [if_pos (h c), hc']
    rfl
  · rw [Dict.get_put]
    simp

/-- **C238, violated.** If the options are given in `minimize_kws`, the second attempt is the first one over again. -/
theorem C238_same_violated (newer : Bool) (solve : MinCall T → T × ℝ) (theta : T) (meth : Option String) (o mo : Opts) (hess : Bool)
    (h : ∀ c, 10 ^ 16 < (solve c).2) :
    ∃ c, (fitRun newer solve theta none ⟨meth, some o⟩ (some mo) hess).map (·.calls) = some [c, c] := by
  refine ⟨⟨theta, meth.getD "trust-constr", o, hess⟩, ?_⟩
  have hc : ∀ mo, fitCall newer theta none ⟨meth, some o⟩ (some mo) hess = some ⟨theta, meth.getD "trust-constr", o, hess⟩ := by
    intro mo; cases newer <;> rfl
  unfold fitRun
  rw [hc]
  simp only [Option.bind_eq_bind, Option.bind_some, Option.getD_some]
  rw [if_pos (h _), hc]
  rfl

/-! ## Bounds -/

variable {α : Type*} [LinearOrder α] [Inhabited α]

/-- **C238, partial.** If parameters with one label are alike — all variances or none — values of `theta` within the
bounds give free parameters within theirs. -/
theorem C238_bounds_partial (rows : List (FreeRow α)) (theta : ℕ → ℝ)
    (hsame : ∀ r ∈ rows, ∀ s ∈ rows, r.label = s.label → rowLb r = rowLb s)
    (hθ : ∀ k lb, (thetaLb rows)[k]? = some lb → aboveLb lb (theta k)) (i : ℕ) (hi : i < rows.length) :
    ∃ x, (thetaToFree (rows.map (·.label)) theta)[i]? = some x ∧ aboveLb (rowLb rows[i]) x := by
  have hl : i < (rows.map (·.label)).length := by rw [List.length_map]; exact hi
  refine ⟨_, C30_free _ theta i hl, ?_⟩
  set labels := rows.map (·.label) with hlab
  have hx : labels[i] ∈ labels := List.getElem_mem hl
  obtain ⟨h1, h2, h3, h4, h5, h6⟩ := C10_unique labels
  have hm : labels[i] ∈ (unique labels).1 := (h2 _).2 hx
  have hlt := List.idxOf_lt_length_iff.2 hm
  have hk : (unique labels).1.idxOf labels[i] < (unique labels).2.2.length := by rw [h3, List.length_map]; exact hlt
  have hj := ind_get labels labels[i] hx
  rw [List.getD_eq_getElem _ _ hk] at hj
  have hjl : labels.idxOf labels[i] < labels.length := List.idxOf_lt_length_iff.2 hx
  have hjr : labels.idxOf labels[i] < rows.length := hjl.trans_eq (List.length_map _)
  have := hθ ((unique labels).1.idxOf labels[i]) (rowLb rows[labels.idxOf labels[i]]) (by
    unfold thetaLb
    rw [List.getElem?_map, List.getElem?_eq_getElem hk, hj, Option.map_some, List.getElem?_eq_getElem hjr]
    rfl)
  rwa [hsame rows[labels.idxOf labels[i]] (List.getElem_mem _) rows[i] (List.getElem_mem _) (by
    have e1 : rows[labels.idxOf labels[i]].label = labels[labels.idxOf labels[i]] := (List.getElem_map FreeRow.label (h := by rw [List.length_map]; exact hjr)).symm
    rw [e1, List.getElem_idxOf hjl]
    exact List.getElem_map FreeRow.label)] at this

/-- **C238, violated.** If the first parameter with a label is a covariance and a later one a variance, the bound is
lost: values allowed give a negative variance. -/
theorem C238_bounds_violated : ∃ rows : List (FreeRow ℕ), ∃ theta : ℕ → ℝ,
    (∀ k lb, (thetaLb rows)[k]? = some lb → aboveLb lb (theta k)) ∧
    ∃ h : 1 < rows.length, ∃ x, (thetaToFree (rows.map (·.label)) theta)[1]? = some x ∧ ¬ aboveLb (rowLb rows[1]) x := by
  have hu := C10_unique ([0, 0] : List ℕ)
  obtain ⟨h1, h2, h3, -, -, -⟩ := hu
  have hlen : (unique ([0, 0] : List ℕ)).1 = [0] := by
    have hp : (unique ([0, 0] : List ℕ)).1.Perm [0] := (List.perm_ext_iff_of_nodup h1 (by simp)).2 fun x => by rw [h2]; simp
    exact List.perm_singleton.1 hp
  refine ⟨[⟨"x", "~~", "y", 0⟩, ⟨"y", "~~", "y", 0⟩], fun _ => -1, fun k lb hk => ?_, by decide, -1, ?_, ?_⟩
  · have e : thetaLb [⟨"x", "~~", "y", 0⟩, ⟨"y", "~~", "y", (0 : ℕ)⟩] = [none] := by
      unfold thetaLb
      rw [show ([⟨"x", "~~", "y", 0⟩, ⟨"y", "~~", "y", 0⟩] : List (FreeRow ℕ)).map (·.label) = [0, 0] from rfl, h3, hlen]
      rfl
    rw [e] at hk
    have : lb = none := by
      cases k with
      | zero => simpa using hk.symm
      | succ k => simp at hk
    subst this
    intro b hb
    simp at hb
  · exact C30_free [0, 0] (fun _ => (-1 : ℝ)) 1 (by decide)
  · intro h
    have := h 0 (by simp [rowLb])
    norm_num at this

/-! ## Standard errors -/

variable {n m : ℕ}

theorem sandwich_diag (V : Matrix (Fin m) (Fin m) ℝ) (hV : V.transpose = V) (G : Matrix (Fin n) (Fin m) ℝ) (j : Fin m) :
    (V * ((G.transpose * G) * V)) j j = ∑ i, ((G * V) i j) ^ 2 := by
  have : V * ((G.transpose * G) * V) = (G * V).transpose * (G * V) := by
    rw [Matrix.transpose_mul, hV]; simp only [Matrix.mul_assoc]
  rw [this, Matrix.mul_apply]
  exact Finset.sum_congr rfl fun i _ => by rw [Matrix.transpose_apply, sq]

/-- **C238.** Robust standard errors exist for every symmetric Hessian, positive or not, and are the lengths of the
columns of the scores times its inverse. -/
theorem C238_robust (V : Matrix (Fin m) (Fin m) ℝ) (hV : V.transpose = V) (G : Matrix (Fin n) (Fin m) ℝ) (j : Fin m) :
    semSe V G true j = some (Real.sqrt (∑ i, ((G * V) i j) ^ 2)) := by
  unfold semSe npSqrt
  rw [if_pos rfl, sandwich_diag V hV, if_neg (not_lt.2 (Finset.sum_nonneg fun i _ => sq_nonneg _))]

/-- **C238.** They agree with the others where the scores have the Hessian as their sum of squares. -/
theorem C238_agree (H : Matrix (Fin m) (Fin m) ℝ) (hH : IsUnit H.det) (G : Matrix (Fin n) (Fin m) ℝ) (h : G.transpose * G = H) (j : Fin m) :
    semSe H⁻¹ G true j = semSe H⁻¹ G false j := by
  unfold semSe
  rw [if_pos rfl, if_neg (by simp), h, Matrix.mul_nonsing_inv _ hH, Matrix.mul_one]

/-- **C238, partial.** The others exist where the inverse Hessian has a non-negative diagonal. -/
theorem C238_se_partial (V : Matrix (Fin m) (Fin m) ℝ) (G : Matrix (Fin n) (Fin m) ℝ) (j : Fin m) (h : 0 ≤ V j j) :
    semSe V G false j = some (Real.sqrt (V j j)) := by
  show npSqrt (V j j) = _
  unfold npSqrt
  rw [if_neg (not_lt.2 h)]

/-- **C238, violated.** At a saddle point they need not. -/
theorem C238_se_violated (G : Matrix (Fin n) (Fin 2) ℝ) : semSe (!![1, 0; 0, -1])⁻¹ G false 1 = none := by
  have : (!![1, 0; 0, -1] : Matrix (Fin 2) (Fin 2) ℝ)⁻¹ = !![1, 0; 0, -1] :=
    Matrix.inv_eq_right_inv (by ext i j; fin_cases i <;> fin_cases j <;> simp)
  unfold semSe npSqrt
  rw [this]
  simp

end Verif.Sem
