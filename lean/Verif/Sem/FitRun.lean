import Verif.Sem.Share
import Verif.Func.Lemmas
import Mathlib.Data.Real.Sqrt
import Mathlib.Data.Matrix.Mul
/-!
# Fitting a structural equation model

Code: pysem2/sem.py 399-462 (`_fit`, `get_standard_errors`, `fit`), pysem/sem2.py 305-349 (the same methods of the older
class), pysem2/param_table.py 59-67 (`_add_bounds`) and pysem2/model_specification.py 57 (`bounds`).

The optimiser is a function from the call made to the point and the norm of the gradient returned; it is deterministic.
`minimize_kws` is read only for its keys `method` and `options`.  The keyword dictionaries are those of C55.
-/
namespace Verif.Sem
open Verif.Func Verif.Rank

/-- Value of an option. -/
inductive OptVal
  | num (x : ℚ)
  | str (s : String)
  deriving DecidableEq

abbrev Opts := Dict String OptVal

/-- The two keys of `minimize_kws` which matter. -/
structure MinKws where
  method : Option String
  options : Option Opts

/-- A call of `scipy.optimize.minimize`. -/
structure MinCall (T : Type) where
  x0 : T
  method : String
  options : Opts
  hess : Bool

/-- Options by default — sem.py 410, sem2.py 314. -/
def trDefaults : Opts := [("initial_tr_radius", .num 1), ("verbose", .num 3)]

/-- The options after the defaults.  Newer class, sem.py 408-416: `"method" in None` raises.  Older class, sem2.py
314-316. -/
def fitOptions (newer : Bool) (mo : Option Opts) : Option Opts :=
  if newer then
    match mo with
    | none => none
    | some o => some (handleDefaultKws (some o) (if o.get "method" = some (.str "trust-constr") then trDefaults else []))
  else some (handleDefaultKws mo trDefaults)

/-- `_fit` up to the call — sem.py 399-422, sem2.py 305-322.  `theta` is `self.theta`. -/
def fitCall {T : Type} (newer : Bool) (theta : T) (init : Option T) (kws : MinKws) (mo : Option Opts) (hess : Bool) :
    Option (MinCall T) := do
  let o ← fitOptions newer mo
  pure ⟨init.getD theta, kws.method.getD "trust-constr", kws.options.getD o, hess⟩

/-- What `fit` leaves: the calls made, the point, and the dictionary `minimize_options` of the caller. -/
structure FitOut (T : Type) where
  calls : List (MinCall T)
  x : T
  opts : Option Opts

/-- `fit` as far as the point — sem.py 435-445, sem2.py 335-345.  A dictionary passed by the caller is changed in place;
one made here is not seen. -/
noncomputable def fitRun {T : Type} (newer : Bool) (solve : MinCall T → T × ℝ) (theta : T) (init : Option T) (kws : MinKws)
    (mo : Option Opts) (hess : Bool) : Option (FitOut T) := do
  let c ← fitCall newer theta init kws mo hess
  let r := solve c
  if r.2 > 10 ^ 16 then
    let mo' := (mo.getD []).put "initial_tr_radius" (.num (1 / 100))
    let c' ← fitCall newer theta none kws (some mo') hess
    pure ⟨[c, c'], (solve c').1, mo.map fun _ => mo'⟩
  else pure ⟨[c], r.1, mo⟩

/-! ## Bounds -/

/-- Rows of the free table: the two variables, the relation, the label. -/
structure FreeRow (α : Type*) where
  lhs : String
  rel : String
  rhs : String
  label : α

/-- Lower bound of a row — param_table.py 61-65. -/
def rowLb {α : Type*} (r : FreeRow α) : Option ℚ := if r.lhs = r.rhs ∧ r.rel = "~~" then some 0 else none

/-- Lower bounds of `theta` — model_specification.py 57; upper bounds are all absent. -/
def thetaLb {α : Type*} [LinearOrder α] [Inhabited α] (rows : List (FreeRow α)) : List (Option ℚ) :=
  (unique (rows.map (·.label))).2.2.map fun i => (rows[i]?.bind rowLb)

/-- A value is allowed by a lower bound. -/
def aboveLb (lb : Option ℚ) (x : ℝ) : Prop := ∀ b ∈ lb, (b : ℝ) ≤ x

/-! ## Standard errors -/

/-- `np.sqrt` of a real: `nan` below zero. -/
noncomputable def npSqrt (x : ℝ) : Option ℝ := if x < 0 then none else some (Real.sqrt x)

/-- `get_standard_errors` — sem.py 425-433, sem2.py 325-333, of the inverse `V` of the Hessian and the scores `G`. -/
noncomputable def semSe {n m : ℕ} (V : Matrix (Fin m) (Fin m) ℝ) (G : Matrix (Fin n) (Fin m) ℝ) (robust : Bool) (j : Fin m) : Option ℝ :=
  npSqrt ((if robust then V * ((G.transpose * G) * V) else V) j j)

end Verif.Sem
