import Verif.Opt.Lemmas
/-!
# Properties C23, C24, C56
-/
namespace Verif.Opt

open Verif.Func (Dict)

/-! ## C23: memoising wrappers -/

/-- Any call history over points of one length, with the extra arguments fixed and no call
raising: each call returns the wrapped function's result at its own point. -/
theorem C23_memoize_transparent_partial {R V G H A : Type*} [DecidableEq R]
    (f : List R → A → Option (V × G × H)) (n : ℕ) (args : A)
    (calls : List (Entry × List R))
    (hlen : ∀ c ∈ calls, c.2.length = n) (hok : ∀ c ∈ calls, f c.2 args ≠ none) :
    HessState.run f {} (calls.map fun c => (c.1, c.2, args)) =
      calls.map fun c => expected f c.1 c.2 args := by
  suffices H : ∀ s, Coherent f n args s →
      HessState.run f s (calls.map fun c => (c.1, c.2, args)) =
        calls.map fun c => expected f c.1 c.2 args from H {} (Or.inl ⟨rfl, rfl, rfl⟩)
  induction calls with
  | nil => intro s _; rfl
  | cons c cs ih =>
    intro s hs
    obtain ⟨h1, h2⟩ := enter_coherent f n args s hs c.1 c.2 (hlen c (by simp)) (hok c (by simp))
    simp only [List.map_cons, HessState.run]
    rw [h1, ih (fun c hc => hlen c (by simp [hc])) (fun c hc => hok c (by simp [hc])) _ h2]

/-- The two-function wrapper `MemoizeJac`, one call from any coherent cache. -/
theorem C23_memoize_jac_transparent_partial {R V G A : Type*} [DecidableEq R]
    (f : List R → A → Option (V × G)) (args : A) (s : JacState R V G) (x : List R)
    (hs : (s.value = none ∧ s.jac = none) ∨ ∃ y v g, y.length = x.length ∧
      f y args = some (v, g) ∧ s.x = some y ∧ s.value = some v ∧ s.jac = some g)
    (v : V) (g : G) (hf : f x args = some (v, g)) :
    (s.call f x args).2 = some v ∧ (s.derivative f x args).2 = some g ∧
    (s.compute f x args).1.x = some x ∧ (s.compute f x args).1.value = some v ∧
    (s.compute f x args).1.jac = some g := by
  by_cases hc : (!npAllEq x s.x || s.value.isNone || s.jac.isNone) = true
  · have hcomp : s.compute f x args = (JacState.mk (some x) (some v) (some g)
        (s.calls + 1), true) := by
      unfold JacState.compute; rw [if_pos hc, hf]
    simp [JacState.call, JacState.derivative, hcomp]
  · have hcomp : s.compute f x args = (s, true) := by
      unfold JacState.compute; rw [if_neg hc]
    simp only [Bool.or_eq_true, Bool.not_eq_true', not_or, Bool.not_eq_false] at hc
    rcases hs with ⟨h1, h2⟩ | ⟨y, v', g', hy, hfy, hsx, h1, h2⟩
    · exact absurd hc.2 (by simp [h2])
    · have hxy : x = y := by
        have := hc.1.1
        rw [hsx, npAllEq_same _ _ hy.symm] at this
        simpa using this
      subst hxy
      rw [hf] at hfy
      simp only [Option.some.injEq, Prod.mk.injEq] at hfy
      obtain ⟨rfl, rfl⟩ := hfy
      simp [JacState.call, JacState.derivative, hcomp, hsx, h1, h2]

/-- Asking for value, gradient and Hessian at one point evaluates the function once. -/
theorem C23_memoize_single_evaluation {R V G H A : Type*} [DecidableEq R]
    (f : List R → A → Option (V × G × H)) (args : A) (s : HessState R V G H) (x : List R)
    (hf : f x args ≠ none) (e1 e2 : Entry) :
    ((s.enter f e1 x args).1.enter f e2 x args).1 = (s.enter f e1 x args).1 ∧
    (s.enter f e1 x args).1.calls ≤ s.calls + 1 := by
  obtain ⟨⟨v, g, h⟩, hfx⟩ := Option.ne_none_iff_exists'.1 hf
  by_cases hc : (!npAllEq x s.x || s.value.isNone || s.jac.isNone || s.hess.isNone) = true
  · have hcomp : s.compute f x args = (HessState.mk (some x) (some v) (some g)
        (some h) (s.calls + 1), true) := by
      unfold HessState.compute; rw [if_pos hc, hfx]
    have h1 : (s.enter f e1 x args).1 = HessState.mk (some x) (some v) (some g)
        (some h) (s.calls + 1) := by simp [HessState.enter, hcomp]
    rw [h1]
    refine ⟨?_, le_rfl⟩
    simp [HessState.enter, HessState.compute, npAllEq]
  · have h1 : (s.enter f e1 x args).1 = s := by
      simp only [HessState.enter]; unfold HessState.compute; rw [if_neg hc]
    rw [h1]
    refine ⟨?_, by omega⟩
    simp only [HessState.enter]; unfold HessState.compute; rw [if_neg hc]

/-- Stale value 1: the extra arguments are not part of the cache key. -/
theorem C23_memoize_args_violated :
    ∃ (f : List ℕ → ℕ → Option (ℕ × ℕ × ℕ)) (calls : List (Entry × List ℕ × ℕ)),
      HessState.run f {} calls ≠ calls.map fun c => expected f c.1 c.2.1 c.2.2 :=
  ⟨fun _ a => some (a, a, a), [(.value, [1], 0), (.value, [1], 5)], by decide⟩

/-- Stale value 2: after the function raised at a point, retrying there returns the results of
the previous point. -/
theorem C23_memoize_exception_violated :
    ∃ (f : List ℕ → Unit → Option (ℕ × ℕ × ℕ)) (calls : List (Entry × List ℕ × Unit)),
      HessState.run f {} calls = [.value 1, .raised, .value 1] ∧
      (calls.map fun c => expected f c.1 c.2.1 c.2.2) = [.value 1, .raised, .raised] :=
  ⟨fun x _ => if x = [1] then some (1, 1, 1) else none,
    [(.value, [1], ()), (.value, [2], ()), (.value, [2], ())], by decide, by decide⟩

/-- Stale value 3: points of different length compare equal through broadcasting. -/
theorem C23_memoize_broadcast_violated :
    ∃ (f : List ℕ → Unit → Option (ℕ × ℕ × ℕ)) (calls : List (Entry × List ℕ × Unit)),
      HessState.run f {} calls ≠ calls.map fun c => expected f c.1 c.2.1 c.2.2 :=
  ⟨fun x _ => some (x.length, 0, 0), [(.value, [1, 1], ()), (.value, [1], ())], by decide⟩

example : HessState.run (fun (x : List ℕ) (_ : Unit) => some (x.sum, x.length, x)) {}
    [(.value, [1, 2], ()), (.jac, [1, 2], ()), (.hess, [3, 4], ()), (.value, [1, 2], ())] =
    [.value 3, .jac 2, .hess [3, 4], .value 3] := by decide

/-! ## C24: optimizer options -/

/-- User options win, defaults fill the rest, the method is kept, and no other dictionary
changes. -/
theorem C24_process_merge {υ : Type*} (h h' : Heap υ) (kw kw' : Kwargs) (o : ℕ) (dm : String)
    (ho : kw.options = some o) (hp : process h kw dm = some (h', kw')) :
    ∃ l, defaultLoc (kw.method.getD dm) = some l ∧
      kw' = ⟨some (kw.method.getD dm), some o⟩ ∧
      (((h l).map Prod.fst).Nodup →
        ∀ k, (h' o).get k = ((h o).get k).or ((h l).get k)) ∧
      ∀ l', l' ≠ o → h' l' = h l' := by
  unfold process at hp
  rw [ho] at hp
  simp only [Option.map_eq_some_iff, Prod.mk.injEq] at hp
  obtain ⟨l, h1, rfl, rfl⟩ := hp
  refine ⟨l, h1, rfl, ?_, ?_⟩
  · intro hnd k
    rw [Heap.write, if_pos rfl, get_fill _ hnd]
  · intro l' hl'
    rw [Heap.write, if_neg hl']

/-- Without user options the result refers to the module-level default itself. -/
theorem C24_process_no_options {υ : Type*} (h : Heap υ) (kw : Kwargs) (dm : String)
    (ho : kw.options = none) :
    process h kw dm = (defaultLoc (kw.method.getD dm)).map
      fun l => (h, ⟨some (kw.method.getD dm), some l⟩) := by
  unfold process; rw [ho]

/-- Unknown method: `KeyError`, and only then. -/
theorem C24_process_error {υ : Type*} (h : Heap υ) (kw : Kwargs) (dm : String) :
    process h kw dm = none ↔ defaultLoc (kw.method.getD dm) = none := by
  unfold process; split <;> simp

/-- No leakage, provided callers always pass their own options dictionary and write only to
dictionaries that are not module defaults: along any history the defaults never change. -/
theorem C24_no_leakage_partial {υ : Type*} (h : Heap υ) (events : List (Event υ))
    (hev : ∀ e ∈ events, match e with
      | .process kw => ∃ o, kw.options = some o ∧ 4 ≤ o
      | .assign l _ _ => 4 ≤ l) (l : ℕ) (hl : l < 4) :
    (events.foldl Event.step h) l = h l := by
  induction events generalizing h with
  | nil => rfl
  | cons e es ih =>
    rw [List.foldl_cons, ih _ (fun e he => hev e (by simp [he]))]
    have := hev e (by simp)
    cases e with
    | process kw =>
      obtain ⟨o, ho, h4⟩ := this
      simp only [Event.step]
      rcases hp : process h kw with _ | ⟨h', kw'⟩
      · rfl
      · obtain ⟨_, _, _, _, h5⟩ := C24_process_merge h h' kw kw' o _ ho hp
        exact h5 l (by omega)
    | assign l' k v =>
      simp only at this
      simp only [Event.step, Heap.write]
      rw [if_neg (by omega)]

/-- Leakage: a caller who passed no options and then edits the returned options changes what the
next caller gets. -/
theorem C24_leakage_violated :
    ∃ (h : Heap ℕ) (h1 : Heap ℕ) (l : ℕ),
      process h ⟨none, none⟩ = some (h1, ⟨some "trust-constr", some l⟩) ∧
      ((h l).get "gtol" = some 8) ∧
      let h2 := Event.step h1 (.assign l "gtol" 1)
      ∃ l2, process h2 ⟨none, none⟩ = some (h2, ⟨some "trust-constr", some l2⟩) ∧
        (h2 l2).get "gtol" = some 1 :=
  ⟨fun l => if l = 2 then [("verbose", 0), ("gtol", 8)] else [], _, 2, rfl, by decide, 2, rfl,
    by decide⟩

/-- The defaults of one spelling of a method are shared with its other spellings. -/
theorem C24_shared_aliases :
    defaultLoc "L-BFGS-B" = defaultLoc "lbfgsb" ∧ defaultLoc "SLSQP" = defaultLoc "slsqp" ∧
    defaultLoc "trust-constr" ≠ defaultLoc "trust-ncg" := by decide

example : (process (fun l : ℕ => if l = 0 then [("gtol", 8), ("maxiter", 5000)]
    else if l = 7 then [("gtol", 3)] else []) ⟨some "lbfgsb", some 7⟩).map
      (fun r => (r.1 7, r.2)) =
    some ([("gtol", 3), ("maxiter", 5000)], ⟨some "lbfgsb", some 7⟩) := by decide

/-! ## C56: ZeroConstraint -/

/-- The constant Jacobian of the constraint is the exact linear map: `func(p) = jac · p`, so the
constraint is zero exactly when the selected parameters are. -/
theorem C56_zero_constraint {R : Type*} [Semiring R] (n : ℕ) (zi : List ℕ)
    (hzi : ∀ j ∈ zi, j < n) (p : ℕ → R) (i : ℕ) :
    zeroFunc zi p i = ∑ j ∈ Finset.range n, zeroJac zi i j * p j := by
  unfold zeroFunc zeroJac
  rcases h : zi[i]? with _ | j
  · simp
  · have hj : j < n := hzi j (List.mem_of_getElem? h)
    rw [Finset.sum_eq_single j]
    · simp
    · intro b _ hb
      simp [hb.symm]
    · intro h'; exact absurd (Finset.mem_range.2 hj) h'

/-- All selected parameters vanish iff every constraint value does. -/
theorem C56_zero_constraint_iff {R : Type*} [Semiring R] (zi : List ℕ) (p : ℕ → R) :
    (∀ i < zi.length, zeroFunc zi p i = 0) ↔ ∀ j ∈ zi, p j = 0 := by
  constructor
  · intro h j hj
    obtain ⟨i, hi, rfl⟩ := List.getElem_of_mem hj
    have := h i hi
    simpa [zeroFunc, List.getElem?_eq_getElem hi] using this
  · intro h i hi
    simp only [zeroFunc, List.getElem?_eq_getElem hi]
    exact h _ (List.getElem_mem hi)

example : zeroFunc [2, 0] (fun i => (i : ℤ) + 10) 0 = 12 := by decide

end Verif.Opt
