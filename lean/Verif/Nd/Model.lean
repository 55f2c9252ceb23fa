import Mathlib.LinearAlgebra.Matrix.NonsingularInverse
import Mathlib.Algebra.Order.Field.Basic
import Mathlib.Data.Complex.Basic
import Mathlib.Algebra.Order.Floor.Defs
import Mathlib.Algebra.Order.Floor.Ring
/-!
# Model of `utilities/numerical_derivs.py`

A vector is a function on the naturals with the length `n` beside it.  The arrays `h`, `hi`, `hj`, `ei`, `ej`, `u`, `v`
are zero outside the iteration which sets them, so that in each iteration they are `e i eps`, the array whose only entry
is `eps`.  The default of `eps` is a positive number; the numbers are those of a field.
-/
namespace Verif.Nd

section
variable {R : Type*} [Field R]

/-- `h[i] = eps` in an array of zeros. -/
def e (i : ℕ) (eps : R) : ℕ → R := Function.update 0 i eps

/-- `H[i, j] = v; H[j, i] = H[i, j]` for `j ≤ i`. -/
def sym (v : ℕ → ℕ → R) (i j : ℕ) : R := if j ≤ i then v i j else v j i

/-- `fo_fc_fd` — numerical_derivs.py 15-24. -/
def foFcFd (f : (ℕ → R) → R) (x : ℕ → R) (eps : R) (i : ℕ) : R := (f (x + e i eps) - f x) / eps

/-- `so_fc_fd` — 27-41. -/
def soFcFd (f : (ℕ → R) → R) (x : ℕ → R) (eps : R) : ℕ → ℕ → R :=
  sym fun i j => (f (x + e i eps + e j eps) - f (x + e i eps) - f (x + e j eps) + f x) / eps ^ 2

/-- `so_gc_fd` — 44-59. -/
def soGcFd (g : (ℕ → R) → ℕ → R) (x : ℕ → R) (eps : R) : ℕ → ℕ → R :=
  let gx := fun _ : ℕ => g x
  let gxh := fun i => g (x + e i eps)
  sym fun i j => ((gxh i j - gx i j) + (gxh j i - gx j i)) / (2 * eps)

/-- `fo_fc_cd` — 62-71. -/
def foFcCd (f : (ℕ → R) → R) (x : ℕ → R) (eps : R) (i : ℕ) : R := (f (x + e i eps) - f (x - e i eps)) / (2 * eps)

/-- `so_fc_cd` — 74-95. -/
def soFcCd (f : (ℕ → R) → R) (x : ℕ → R) (eps : R) : ℕ → ℕ → R :=
  sym fun i j =>
    let ei := e i eps
    let ej := e j eps
    if i = j then
      let dn := -f (x + 2 * ei) + 16 * f (x + ei) - 30 * f x + 16 * f (x - ei) - f (x - 2 * ei)
      dn / (12 * eps ^ 2)
    else
      let dn := f (x + ei + ej) - f (x + ei - ej) - f (x - ei + ej) + f (x - ei - ej)
      dn / (4 * eps * eps)

/-- `so_gc_cd` — 98-113. -/
def soGcCd (g : (ℕ → R) → ℕ → R) (x : ℕ → R) (eps : R) : ℕ → ℕ → R :=
  let gxp := fun i => g (x + e i eps)
  let gxn := fun i => g (x - e i eps)
  sym fun i j => (gxp i j - gxn i j + gxp j i - gxn j i) / (4 * eps)

/-! ## Weights -/

/-- `W[j, k] = v`. -/
def set2 (W : ℕ → ℕ → R) (j k : ℕ) (v : R) : ℕ → ℕ → R := Function.update W j (Function.update (W j) k v)

/-- `range(r, 0, -1)`. -/
def down : ℕ → List ℕ
  | 0 => []
  | r + 1 => (r + 1) :: down r

/-- The body of the loop over `j` — 125-133; `c = (W, c2)`. -/
def fdInner (x : ℕ → R) (c1 c4 c5 : R) (r i : ℕ) (c : (ℕ → ℕ → R) × R) (j : ℕ) : (ℕ → ℕ → R) × R :=
  let c3 := x i - x j
  let c2 := c.2 * c3
  let W := if j = i - 1 then
      let W := (down r).foldl (fun W k => set2 W i k (c1 * (k * W (i - 1) (k - 1) - c5 * W (i - 1) k) / c2)) c.1
      set2 W i 0 (-c1 * c5 * W (i - 1) 0 / c2)
    else c.1
  let W := (down r).foldl (fun W k => set2 W j k ((c4 * W j k - k * W j (k - 1)) / c3)) W
  (set2 W j 0 (c4 * W j 0 / c3), c2)

/-- The body of the loop over `i` — 121-134; the state is `(W, c1, c4)`. -/
def fdOuter (x : ℕ → R) (x0 : R) (n : ℕ) (s : (ℕ → ℕ → R) × R × R) (i : ℕ) : (ℕ → ℕ → R) × R × R :=
  let r := min i n
  let c5 := s.2.2
  let c4 := x i - x0
  let t := (List.range i).foldl (fdInner x s.2.1 c4 c5 r i) (s.1, 1)
  (t.1, t.2, c4)

/-- `_fd_coefs` — 116-135, on an array of zeros: `none` for an empty `x`, `x[0]` raises. -/
def fdCoefs (m : ℕ) (x : ℕ → R) (x0 : R) (n : ℕ) : Option (ℕ → ℕ → R) :=
  if m = 0 then none
  else some ((List.range' 1 (m - 1)).foldl (fdOuter x x0 n) (set2 (fun _ _ => 0) 0 0 1, 1, x 0 - x0)).1

/-- `np.linspace(a, b, m)`. -/
def linsp (a b : R) (m : ℕ) (i : ℕ) : R := a + i * ((b - a) / ((m - 1 : ℕ) : R))

/-- `finite_diff` — 163-170: `f` at one point. -/
def finiteDiff (f : R → R) (x : R) (order m n : ℕ) : Option R :=
  let N := 2 * m + 2 * order + 1
  let pts := linsp (-(n : R)) n N
  let h : R := 1 / n
  (fdCoefs N pts 0 order).map fun W =>
    (List.range N).foldl (fun du i => du + W i order * f (x + h * pts i) / h ^ order) 0

open Classical in
/-- `fd_coefficients` — 409-417: `np.linalg.inv` raises on a singular matrix, the assignment to `b[order]` when `order`
is not below the number of points. -/
noncomputable def fdCoefficients {m : ℕ} (pts : Fin m → R) (order : ℕ) : Option (Fin m → R) :=
  let A : Matrix (Fin m) (Fin m) R := Matrix.of fun i j => pts j ^ (i : ℕ)
  if order < m ∧ IsUnit A.det then
    some (Matrix.mulVec A⁻¹ fun i => if (i : ℕ) = order then (order.factorial : R) else 0)
  else none

/-- `fd_derivative` — 420-430. -/
noncomputable def fdDerivative {m : ℕ} (f : R → R) (x eps : R) (order : ℕ) (pts : Fin m → R) : Option R :=
  (fdCoefficients pts order).map fun c => (∑ i, c i * f (x + eps * pts i)) / eps ^ order

/-! ## Extrapolation -/

/-- One pass `A = (A[1:]*t - A[:-1]) / (t-1.0)`. -/
def richStep (t : R) (A : ℕ → R) (k : ℕ) : R := (A (k + 1) * t - A k) / (t - 1)

/-- The passes `i = 0, …, m - 1` — 186-188, 237-239: `A k` is entry `k`; entries past the end of the shrinking array
are not used for the result. -/
def rich (m : ℕ) (A : ℕ → R) : ℕ → R := (List.range m).foldl (fun A i => richStep (4 ^ (i + 1)) A) A

end

section
variable {R : Type*} [Field R] [LinearOrder R]

/-- `np.abs(d * x) + eps * (np.abs(x) < tol)`. -/
def stepOf (d eps tol x : R) : R := |d * x| + eps * (if |x| < tol then 1 else 0)

/-- `grad_approx` — 174-189: entry `j` of the only row of the result; `nr ≥ 1`. -/
def gradApprox (f : (ℕ → R) → R) (x : ℕ → R) (eps tol d : R) (nr : ℕ) (v : R) (j : ℕ) : R :=
  let h := fun i : ℕ => stepOf d eps tol (x j) / v ^ i
  rich (nr - 1) (fun i => (f (x + e j (h i)) - f (x - e j (h i))) / (2 * h i)) 0

/-- An argument passed on to the differentiated function. -/
inductive Arg (R : Type*) where
  | scalar (r : R)
  | tuple (l : List R)

/-- The inner `Func(X, args=())`, called as `Func(X, *args)` — 195-196, 243-244, 268-269, 291-292: the first
element of `args` is unpacked once more, a second element is one too many.  `F` takes any number of arguments. -/
def wrap {Y : Type*} (F : (ℕ → R) → List R → Y) (X : ℕ → R) : List (Arg R) → Option Y
  | [] => some (F X [])
  | [.tuple l] => some (F X l)
  | _ => none

/-- `jac_approx`, `jac_approx4` — 194-222, 267-287: one component, `X` of one dimension.  `int`: `X` is an integer
array, and so is `H`; `none` inside is the quotient of two zeros. -/
def jacApprox [FloorRing R] (F : (ℕ → R) → List R → R) (X : ℕ → R) (eps tol d : R) (args : List (Arg R)) (int : Bool)
    (j : ℕ) : Option (Option R) := do
  let h := stepOf d eps tol (X j)
  let h := if int then (⌊h⌋ : R) else h
  let Fp ← wrap F (X + e j h) args
  let Fm ← wrap F (X - e j h) args
  pure (if h = 0 then none else some ((Fp - Fm) / (2 * h)))

/-- `hess_approx` — 290-337: one component. -/
def hessApprox (F : (ℕ → R) → R) (X : ℕ → R) (eps tol d : R) (j k : ℕ) : R :=
  let hj := stepOf d eps tol (X j)
  let hk := stepOf d eps tol (X k)
  let Hjj := e j hj
  let Hkk := e k hk
  if j = k then
    let t1 := -1 * F (X + 2 * Hjj)
    let t2 := 16 * F (X + 1 * Hjj)
    let t3 := -30 * F X
    let t4 := 16 * F (X - 1 * Hjj)
    let t5 := -1 * F (X - 2 * Hjj)
    let num := t1 + t2 + t3 + t4 + t5
    num / (12 * hj ^ 2)
  else
    let t1 := F (X + Hjj + Hkk) + F (X - Hjj - Hkk)
    let t2 := F (X + Hjj - Hkk) + F (X - Hjj + Hkk)
    let num := t1 - t2
    num / (4 * hj * hk)

/-- The loops over `j` and `k` which overwrite `Da` — 361-365, 387-390. -/
def richInplace (nr : ℕ) (A : ℕ → R) : ℕ → R :=
  (List.range (nr - 1)).foldl (fun A j => (List.range (nr - j - 1)).foldl
    (fun A k => Function.update A k ((A (k + 1) * 4 ^ (j + 1) - A k) / (4 ^ (j + 1) - 1))) A) A

/-- `Hd[:, i]` of `_hess_approx` — 353-368: one component. -/
def hessDiag (f : (ℕ → R) → R) (x : ℕ → R) (d : ℕ → R) (nr : ℕ) (s : R) (i : ℕ) : R :=
  let h := fun j : ℕ => d i / s ^ j
  richInplace nr (fun j => (f (x + e i (h j)) + f (x - e i (h j)) - 2 * f x) / h j ^ 2) 0

/-- `D[:, i]` for `i < nx` — 366. -/
def hessGrad (f : (ℕ → R) → R) (x : ℕ → R) (d : ℕ → R) (nr : ℕ) (s : R) (i : ℕ) : R :=
  let h := fun j : ℕ => d i / s ^ j
  richInplace nr (fun j => (f (x + e i (h j)) - f (x - e i (h j))) / (2 * h j)) 0

/-- The entry for `j < i` — 377-392. -/
def hessOff (f : (ℕ → R) → R) (x : ℕ → R) (d : ℕ → R) (nr : ℕ) (s : R) (i j : ℕ) : R :=
  let hi := fun m : ℕ => d i / s ^ m
  let hj := fun m : ℕ => d j / s ^ m
  richInplace nr (fun m =>
    let fp := f (x + e i (hi m) + e j (hj m))
    let fn := f (x - e i (hi m) - e j (hj m))
    let fii := hessDiag f x d nr s i * hi m ^ 2
    let fjj := hessDiag f x d nr s j * hj m ^ 2
    (fp - 2 * f x + fn - fii - fjj) / (2 * hi m * hj m)) 0

/-- `_hess_approx` — 341-393: the columns of `D` from `nx` on, in the order in which `c` counts them. -/
def hessCols (f : (ℕ → R) → R) (x : ℕ → R) (a r tol : R) (nx nr : ℕ) (s : R) : List R :=
  let d := fun i => stepOf r a tol (x i)
  (List.range nx).flatMap fun i => (List.range (i + 1)).map fun j =>
    if i = j then hessDiag f x d nr s i else hessOff f x d nr s i j

/-- `hess_approx2` — 396-406: the counter `k` runs through the columns in the same order. -/
def hessApprox2 (f : (ℕ → R) → R) (x : ℕ → R) (a r tol : R) (nx nr : ℕ) (s : R) (i j : ℕ) : R :=
  let D := hessCols f x a r tol nx nr s
  sym (fun i j => D.getD (((List.range i).map (· + 1)).sum + j) 0) i j

end

/-! ## Complex steps -/

/-- `fo_fc_cs`, a component of `jac_cs` — 433-454. -/
noncomputable def foFcCs (f : (ℕ → ℂ) → ℂ) (x : ℕ → ℝ) (delta : ℝ) (i : ℕ) : ℝ :=
  (f ((fun j => (x j : ℂ)) + fun j => (e i delta j : ℂ) * Complex.I)).im / delta

/-- `hess_cs` — 457-477. -/
noncomputable def hessCs (f : (ℕ → ℂ) → ℂ) (x : ℕ → ℝ) (delta : ℝ) : ℕ → ℕ → ℝ :=
  let dl := fun i => delta * max |x i| 0.1
  sym fun i j =>
    let yp := f ((fun k => (x k : ℂ)) + (fun k => Complex.I * e i 1 k * (dl i : ℂ)) + fun k => e j 1 k * (dl j : ℂ))
    let yn := f ((fun k => (x k : ℂ)) + (fun k => Complex.I * e i 1 k * (dl i : ℂ)) - fun k => e j 1 k * (dl j : ℂ))
    (yp - yn).im / (2 * dl i * dl j)

end Verif.Nd
