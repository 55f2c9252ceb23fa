import Mathlib.Analysis.SpecialFunctions.Arsinh
import Mathlib.Analysis.SpecialFunctions.Pow.Real
import Mathlib.Analysis.SpecialFunctions.Gaussian.GaussianIntegral

/-!
# A language for the generated derivative code

`/repo/pystatsm/misc/` holds long straight-line functions printed by a computer algebra system: some
hundreds of assignments `x17 = x15*x16 + 1` followed by the entries of an array.  They are
transcribed as programs of the small language below, one expression for each assignment, and
given meaning by an interpreter over the reals.

* The interpreter answers `none` for a division by zero, a square root of a negative number, a
  logarithm or a fractional power of a number that is not positive.  (numpy answers `nan` or `inf`.)
* `numpy` floats are real numbers, and an array argument is one of its elements: every operation of
  these functions acts elementwise.
-/

namespace Verif.Misc

/-- The functions of one variable that the code calls. -/
inductive Fn
  | inv | sqrt | arcsinh | sinh | cosh | exp | log | erf | rpow (q : ℚ)
  deriving DecidableEq

/-- Expressions: `inp i` is the `i`-th argument of the function, `x i` its `i`-th assignment. -/
inductive Expr
  | inp (i : ℕ)
  | x (i : ℕ)
  | c (q : ℚ)
  | pi
  | add (a b : Expr)
  | sub (a b : Expr)
  | mul (a b : Expr)
  | neg (a : Expr)
  | pow (a : Expr) (k : ℕ)
  | fn (f : Fn) (a : Expr)

namespace Expr

instance : Add Expr := ⟨add⟩
instance : Sub Expr := ⟨sub⟩
instance : Mul Expr := ⟨mul⟩
instance : Neg Expr := ⟨neg⟩
instance : Div Expr := ⟨fun a b => mul a (fn .inv b)⟩
instance : HPow Expr ℕ Expr := ⟨pow⟩
instance (n : ℕ) : OfNat Expr n := ⟨c n⟩

/-- `a**(-k)` for a whole number `k`. -/
def npow (a : Expr) (k : ℕ) : Expr := pow (fn .inv a) k

end Expr

/-- The error function. -/
noncomputable def erf (x : ℝ) : ℝ := 2 / √Real.pi * ∫ t in (0 : ℝ)..x, Real.exp (-t ^ 2)

open Classical in
/-- The meaning of the functions of one variable. -/
noncomputable def Fn.eval : Fn → ℝ → Option ℝ
  | .inv, a => if a = 0 then none else some a⁻¹
  | .sqrt, a => if a < 0 then none else some (√a)
  | .arcsinh, a => some (Real.arsinh a)
  | .sinh, a => some (Real.sinh a)
  | .cosh, a => some (Real.cosh a)
  | .exp, a => some (Real.exp a)
  | .log, a => if a ≤ 0 then none else some (Real.log a)
  | .erf, a => some (Misc.erf a)
  | .rpow q, a => if a ≤ 0 then none else some (a ^ (q : ℝ))

/-- The meaning of an expression, given the arguments and the assignments made so far. -/
noncomputable def Expr.eval (inp env : List ℝ) : Expr → Option ℝ
  | .inp i => inp[i]?
  | .x i => env[i]?
  | .c q => some q
  | .pi => some Real.pi
  | .add a b => do pure ((← a.eval inp env) + (← b.eval inp env))
  | .sub a b => do pure ((← a.eval inp env) - (← b.eval inp env))
  | .mul a b => do pure ((← a.eval inp env) * (← b.eval inp env))
  | .neg a => do pure (-(← a.eval inp env))
  | .pow a k => do pure ((← a.eval inp env) ^ k)
  | .fn f a => do f.eval (← a.eval inp env)

/-- The assignments, in order. -/
noncomputable def run (inp : List ℝ) : List Expr → List ℝ → Option (List ℝ)
  | [], env => some env
  | e :: r, env => do run inp r (env ++ [← e.eval inp env])

/-- A straight-line function: its assignments and the arrays it returns. -/
structure Prog where
  body : List Expr
  outs : List (List Expr)

/-- The entries of a list of expressions. -/
noncomputable def evalAll (inp env : List ℝ) : List Expr → Option (List ℝ)
  | [] => some []
  | e :: r => do pure ((← e.eval inp env) :: (← evalAll inp env r))

/-- The arrays that a straight-line function returns. -/
noncomputable def Prog.block (P : Prog) (k : ℕ) (inp : List ℝ) : Option (List ℝ) := do
  let env ← run inp P.body []
  evalAll inp env (P.outs.getD k [])

end Verif.Misc
