import Verif.Func.Lemmas
import Mathlib.Algebra.BigOperators.Group.Finset.Basic
/-!
# Model of `pystatsm/utilities/optimizer_utils.py`

The memoising wrappers are state machines; `process_optimizer_kwargs` works on a heap of option
dictionaries because aliasing is the point of the property.
-/
namespace Verif.Opt

open Verif.Func (Dict)

/-! ## Memoising wrappers -/

/-- `np.all(x == self.x)`: comparing with `None` is elementwise `False` (so `True` only for an
empty array); arrays of equal length compare elementwise; an array of length one broadcasts.
Other length mismatches give `False` (recent numpy raises instead). -/
def npAllEq {R : Type*} [DecidableEq R] (x : List R) : Option (List R) → Bool
  | none => x.isEmpty
  | some y =>
    if x.length = y.length then decide (x = y)
    else match x, y with
      | [a], ys => ys.all (fun b => decide (a = b))
      | xs, [b] => xs.all (fun a => decide (a = b))
      | _, _ => false

/-- Attributes of a `MemoizeJac` object; `calls` counts evaluations of the wrapped function
(ghost). -/
structure JacState (R V G : Type*) where
  x : Option (List R) := none
  value : Option V := none
  jac : Option G := none
  calls : ℕ := 0

/-- `MemoizeJac._compute_if_needed` — optimizer_utils.py 47-52.  The wrapped function returns
`none` when it raises; `self.x` has been overwritten by then, the cached results have not.
Second component: `false` if the exception propagates. -/
def JacState.compute {R V G A : Type*} [DecidableEq R] (f : List R → A → Option (V × G))
    (s : JacState R V G) (x : List R) (args : A) : JacState R V G × Bool :=
  if !npAllEq x s.x || s.value.isNone || s.jac.isNone then
    match f x args with
    | none => ({ s with x := some x, calls := s.calls + 1 }, false)
    | some (v, g) => ({ x := some x, value := some v, jac := some g, calls := s.calls + 1 }, true)
  else (s, true)

/-- `MemoizeJac.__call__` — 54-56. -/
def JacState.call {R V G A : Type*} [DecidableEq R] (f : List R → A → Option (V × G))
    (s : JacState R V G) (x : List R) (args : A) : JacState R V G × Option V :=
  let r := s.compute f x args
  (r.1, if r.2 then r.1.value else none)

/-- `MemoizeJac.derivative` — 58-60. -/
def JacState.derivative {R V G A : Type*} [DecidableEq R] (f : List R → A → Option (V × G))
    (s : JacState R V G) (x : List R) (args : A) : JacState R V G × Option G :=
  let r := s.compute f x args
  (r.1, if r.2 then r.1.jac else none)

/-- Attributes of a `MemoizeGradHess` object. -/
structure HessState (R V G H : Type*) where
  x : Option (List R) := none
  value : Option V := none
  jac : Option G := none
  hess : Option H := none
  calls : ℕ := 0

/-- `MemoizeGradHess._compute_if_needed` — optimizer_utils.py 73-76. -/
def HessState.compute {R V G H A : Type*} [DecidableEq R]
    (f : List R → A → Option (V × G × H))
    (s : HessState R V G H) (x : List R) (args : A) : HessState R V G H × Bool :=
  if !npAllEq x s.x || s.value.isNone || s.jac.isNone || s.hess.isNone then
    match f x args with
    | none => ({ s with x := some x, calls := s.calls + 1 }, false)
    | some (v, g, h) =>
      ({ x := some x, value := some v, jac := some g, hess := some h, calls := s.calls + 1 }, true)
  else (s, true)

/-- The three entry points of `MemoizeGradHess`. -/
inductive Entry | value | jac | hess
  deriving DecidableEq

/-- What an entry point returns. -/
inductive Ret (V G H : Type*)
  | value (v : V) | jac (g : G) | hess (h : H) | raised | missing
  deriving DecidableEq

/-- `__call__` (54-56), `derivative` (58-60) and `hessian` (78-80). -/
def HessState.enter {R V G H A : Type*} [DecidableEq R]
    (f : List R → A → Option (V × G × H)) (s : HessState R V G H) (e : Entry) (x : List R)
    (args : A) : HessState R V G H × Ret V G H :=
  let r := s.compute f x args
  (r.1,
    if !r.2 then .raised
    else match e with
      | .value => match r.1.value with | some v => .value v | none => .missing
      | .jac => match r.1.jac with | some v => .jac v | none => .missing
      | .hess => match r.1.hess with | some v => .hess v | none => .missing)

/-- A call history, and the values returned along it. -/
def HessState.run {R V G H A : Type*} [DecidableEq R] (f : List R → A → Option (V × G × H)) :
    HessState R V G H → List (Entry × List R × A) → List (Ret V G H)
  | _, [] => []
  | s, c :: cs =>
    let r := s.enter f c.1 c.2.1 c.2.2
    r.2 :: HessState.run f r.1 cs

/-! ## process_optimizer_kwargs -/

/-- The user's `optimizer_kwargs`: only the two keys the function looks at.  `options` holds the
address of a dictionary. -/
structure Kwargs where
  method : Option String
  options : Option ℕ
  deriving DecidableEq

/-- Heap of option dictionaries. -/
abbrev Heap (υ : Type*) := ℕ → Dict String υ

/-- Heap write. -/
def Heap.write {υ : Type*} (h : Heap υ) (l : ℕ) (d : Dict String υ) : Heap υ :=
  fun l' => if l' = l then d else h l'

/-- Addresses of the four module-level default dictionaries and the table `default_opts`
— optimizer_utils.py 12-23. -/
def defaultLoc : String → Option ℕ
  | "L-BFGS-B" | "l-bfgs-b" | "lbfgsb" | "LBFGSB" => some 0
  | "SLSQP" | "slsqp" => some 1
  | "trust-constr" => some 2
  | "trust-ncg" => some 3
  | _ => none

/-- The loop filling missing defaults — 33-36: `for dfkey, dfval in defaults.items(): if dfkey
not in options.keys(): options[dfkey] = dfval`. -/
def fillDefaults {υ : Type*} (defaults options : Dict String υ) : Dict String υ :=
  defaults.foldl (fun o e => if o.any (fun e' => e'.1 = e.1) then o else o.put e.1 e.2) options

/-- `process_optimizer_kwargs(optimizer_kwargs, default_method)` — optimizer_utils.py 25-38.
The dictionary argument is mutated and returned, the result is its new contents together with
the new heap; `none` is the `KeyError` for an unknown method. -/
def process {υ : Type*} (h : Heap υ) (kw : Kwargs) (defaultMethod : String := "trust-constr") :
    Option (Heap υ × Kwargs) :=
  let method := kw.method.getD defaultMethod
  match kw.options with
  | none => (defaultLoc method).map fun l => (h, ⟨some method, some l⟩)
  | some o => (defaultLoc method).map fun l =>
      (h.write o (fillDefaults (h l) (h o)), ⟨some method, some o⟩)

/-- Events after import: a call of `process_optimizer_kwargs`, or a caller assigning a key of a
dictionary it holds. -/
inductive Event (υ : Type*)
  | process (kw : Kwargs)
  | assign (l : ℕ) (k : String) (v : υ)

/-- Effect of an event on the heap (a call that raises changes nothing here). -/
def Event.step {υ : Type*} (h : Heap υ) : Event υ → Heap υ
  | .process kw => match Opt.process h kw with | none => h | some r => r.1
  | .assign l k v => h.write l ((h l).put k v)

/-! ## ZeroConstraint -/

/-- `ZeroConstraint.__init__`: the Jacobian — optimizer_utils.py 85-91. -/
def zeroJac {R : Type*} [Zero R] [One R] (zeroIndices : List ℕ) (i j : ℕ) : R :=
  if zeroIndices[i]? = some j then 1 else 0

/-- `ZeroConstraint.func(params)` — 93-95. -/
def zeroFunc {R : Type*} [Zero R] (zeroIndices : List ℕ) (params : ℕ → R) (i : ℕ) : R :=
  match zeroIndices[i]? with
  | some j => params j
  | none => 0

end Verif.Opt
