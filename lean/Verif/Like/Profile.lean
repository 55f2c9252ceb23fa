import Mathlib.Data.Real.Basic
/-!
# Model of the profile likelihood of `pyglm2/likelihood_model.py`

Parameter vectors are functions of the position.  Indices are nonnegative.  `sp.optimize.minimize` and
`sp.optimize.root_scalar` are parameters.
-/
namespace Verif.Like

/-! ## equality constraints -/

/-- The variables `i`, `xi` of the enclosing function, which the closures read when they are called. -/
structure Env where
  i : ℕ
  xi : ℝ

/-- `for i, xi in list(zip(ind, par)): constraints.append({"fun": lambda x: x[i] - xi})` — `_make_constraints` 233-236
(integer indices) and `_profile_loglike_constrained` 274-276.  A closure is a function of the environment; after the
loop the environment holds the last pair. -/
def makeConstraints (ind : List ℕ) (par : List ℝ) : List ((ℕ → ℝ) → ℝ) :=
  let run := (ind.zip par).foldl
    (fun (s : List (Env → (ℕ → ℝ) → ℝ) × Option Env) (p : ℕ × ℝ) =>
      (s.1 ++ [fun (e : Env) (x : ℕ → ℝ) => x e.i - e.xi], some { i := p.1, xi := p.2 })) ([], none)
  match run.2 with
  | none => []
  | some e => run.1.map fun f => f e

/-- `_make_constraints` on a Boolean mask: `np.where` returns a tuple with one array of positions, so `zip` makes one
pair, of that array and the first value; the constraint is the array `x[array] - value`. -/
def makeConstraintsBool (n : ℕ) (mask : ℕ → Bool) (par : List ℝ) : List ((ℕ → ℝ) → List ℝ) :=
  let pos := (List.range n).filter mask
  ([pos].zip par).map fun p => fun x => p.1.map fun i => x i - p.2

/-! ## restriction to the free parameters -/

/-- `x[ind] = v`, later pairs overwriting earlier ones. -/
def setAt (x : ℕ → ℝ) (ind : List ℕ) (v : List ℝ) : ℕ → ℝ :=
  (ind.zip v).foldl (fun x p => fun j => if j = p.1 then p.2 else x j) x

/-- `np.setdiff1d(np.arange(len(params)), ind)` — 332. -/
def freeInd (n : ℕ) (ind : List ℕ) : List ℕ := (List.range n).filter fun i => decide (i ∉ ind)

/-- The shared array `full_params` after the assignments of a call — 337-338. -/
def refill (n : ℕ) (ind : List ℕ) (par : List ℝ) (full : ℕ → ℝ) (free : List ℝ) : ℕ → ℝ :=
  let full := setAt full (freeInd n ind) free
  setAt full ind par

/-- `restricted_func` — 336-340: the value and the array left behind. -/
def restrictedFunc (loglike : (ℕ → ℝ) → ℝ) (n : ℕ) (ind : List ℕ) (par : List ℝ) (full : ℕ → ℝ) (free : List ℝ) :
    ℝ × (ℕ → ℝ) :=
  let full := refill n ind par full free
  (loglike full, full)

/-- `restricted_grad` — 342-346. -/
def restrictedGrad (grad : (ℕ → ℝ) → ℕ → ℝ) (n : ℕ) (ind : List ℕ) (par : List ℝ) (full : ℕ → ℝ) (free : List ℝ) :
    List ℝ × (ℕ → ℝ) :=
  let full := refill n ind par full free
  ((freeInd n ind).map (grad full), full)

/-- `restricted_hess` — 348-352. -/
def restrictedHess (hess : (ℕ → ℝ) → ℕ → ℕ → ℝ) (n : ℕ) (ind : List ℕ) (par : List ℝ) (full : ℕ → ℝ)
    (free : List ℝ) : List (List ℝ) × (ℕ → ℝ) :=
  let full := refill n ind par full free
  ((freeInd n ind).map fun i => (freeInd n ind).map fun j => hess full i j, full)

/-- `_profile_loglike_restricted` — 331-366 (without `return_info`).  The optimiser gets the starting point and
returns the point it stops at; the calls it makes leave some array behind, `left`. -/
def profileRestricted (loglike : (ℕ → ℝ) → ℝ) (minimize : List ℝ → List ℝ) (n : ℕ) (ind : List ℕ) (par : List ℝ)
    (params left : ℕ → ℝ) : ℝ :=
  let x0 := (freeInd n ind).map params
  let opt := minimize x0
  (restrictedFunc loglike n ind par left opt).1

/-! ## confidence interval -/

open Classical in
/-- `for k in range(1, 20): if profile_loglike(g(k)) > lli: break` — the value of `k` after the loop. -/
noncomputable def searchK (f : ℝ → ℝ) (lli : ℝ) (g : ℕ → ℝ) : ℕ :=
  ((List.range' 1 19).find? fun k => decide (f (g k) > lli)).getD 19

/-- `_solve_interval`, method `"root"` — 403-421.  `root f a b` is `root_scalar` with a bracket: `none` is the
`ValueError` it raises when `f a` and `f b` have the same sign. -/
noncomputable def solveInterval (root : (ℝ → ℝ) → ℝ → ℝ → Option ℝ) (f : ℝ → ℝ) (par se lli : ℝ) :
    Option (ℝ × ℝ) := do
  let kl := searchK f lli fun k => par - k * se
  let kr := searchK f lli fun k => par + k * se
  let left ← root (fun x => f x - lli) (par - kl * se) par
  let right ← root (fun x => f x - lli) par (par + kr * se)
  return (left, right)

/-- Contract of the bracketing root finder. -/
structure RootOk (root : (ℝ → ℝ) → ℝ → ℝ → Option ℝ) : Prop where
  /-- it raises when both ends have the same strict sign -/
  raises : ∀ f a b, 0 < f a * f b → root f a b = none
  /-- otherwise it ends at a point of the bracket which, if a zero exists there, is a zero -/
  finds : ∀ f a b, a ≤ b → f a * f b ≤ 0 → (∃ x, a ≤ x ∧ x ≤ b ∧ f x = 0) →
    ∃ x, root f a b = some x ∧ a ≤ x ∧ x ≤ b ∧ f x = 0

end Verif.Like
