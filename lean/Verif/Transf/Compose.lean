import Mathlib.Algebra.BigOperators.Ring.Finset
import Mathlib.Data.Real.Basic
/-!
# Model of `CombinedTransform`, `_hess_chain_rule`, `ComposedTransform` — param_transforms.py 93-240

A transform is its six methods on arrays (functions of the index; the length is a parameter of the
caller).  Floating-point input is assumed, so that the public wrapper `_apply_method` returns the
value of the private method (see `ApplyMethod.lean` for integer input).  Indexing a Python list out
of bounds raises, modelled by `none`.
-/
namespace Verif.Transf

/-- A parameter transform: `_fwd`, `_rvs`, `_jac_fwd`, `_jac_rvs`, `_hess_fwd`, `_hess_rvs`. -/
structure Tr where
  fwd : (ℕ → ℝ) → ℕ → ℝ
  rvs : (ℕ → ℝ) → ℕ → ℝ
  jacF : (ℕ → ℝ) → ℕ → ℕ → ℝ
  jacR : (ℕ → ℝ) → ℕ → ℕ → ℝ
  hessF : (ℕ → ℝ) → ℕ → ℕ → ℕ → ℝ
  hessR : (ℕ → ℝ) → ℕ → ℕ → ℕ → ℝ

/-- `np.eye(m)`. -/
def eyeN : ℕ → ℕ → ℝ := fun i j => if i = j then 1 else 0

/-- `np.dot` of two `m × m` matrices. -/
def mulN (m : ℕ) (A B : ℕ → ℕ → ℝ) : ℕ → ℕ → ℝ := fun i j => ∑ k ∈ Finset.range m, A i k * B k j

/-- `_hess_chain_rule(d2z_dy2, dy_dx, dz_dy, d2y_dx2)`: the three `einsum`s. -/
def hessChain (m : ℕ) (d2z : ℕ → ℕ → ℕ → ℝ) (dy dz : ℕ → ℕ → ℝ) (d2y : ℕ → ℕ → ℕ → ℝ) :
    ℕ → ℕ → ℕ → ℝ :=
  let H1 : ℕ → ℕ → ℕ → ℝ := fun i j l => ∑ k ∈ Finset.range m, d2z i j k * dy k l
  let H1' : ℕ → ℕ → ℕ → ℝ := fun i l k => ∑ j ∈ Finset.range m, H1 i j k * dy j l
  let H2 : ℕ → ℕ → ℕ → ℝ := fun i k l => ∑ j ∈ Finset.range m, dz i j * d2y j k l
  fun i j k => H1' i j k + H2 i j k

/-! ## `ComposedTransform` -/

/-- `ComposedTransform._fwd`. -/
def compFwd (ts : List Tr) (x : ℕ → ℝ) : ℕ → ℝ := ts.foldl (fun x t => t.fwd x) x

/-- `ComposedTransform._rvs`. -/
def compRvs (ts : List Tr) (y : ℕ → ℝ) : ℕ → ℝ := ts.reverse.foldl (fun y t => t.rvs y) y

/-- `ComposedTransform._jac_fwd`. -/
def compJacFwd (m : ℕ) (ts : List Tr) (x : ℕ → ℝ) : ℕ → ℕ → ℝ :=
  (ts.foldl (fun (s : (ℕ → ℝ) × (ℕ → ℕ → ℝ)) t =>
    let jac := t.jacF s.1
    let params := t.fwd s.1
    (params, mulN m jac s.2)) (x, eyeN)).2

/-- `ComposedTransform._jac_rvs`. -/
def compJacRvs (m : ℕ) (ts : List Tr) (y : ℕ → ℝ) : ℕ → ℕ → ℝ :=
  (ts.reverse.foldl (fun (s : (ℕ → ℝ) × (ℕ → ℕ → ℝ)) t =>
    let jac := t.jacR s.1
    let params := t.rvs s.1
    (params, mulN m jac s.2)) (y, eyeN)).2

/-- The list manipulation shared by `_hess_fwd` and `_hess_rvs`: `ts` is the list of stages in the
order in which they are applied. -/
def compHess (m : ℕ) (ts : List ((((ℕ → ℝ) → ℕ → ℝ)) × ((ℕ → ℝ) → ℕ → ℕ → ℝ) ×
    ((ℕ → ℝ) → ℕ → ℕ → ℕ → ℝ))) (x0 : ℕ → ℝ) : Option (ℕ → ℕ → ℕ → ℝ) := do
  let inputVars ← ts.foldlM (fun l t => do return l ++ [t.1 (← l.getLast?)]) [x0]
  let jacobians ← (ts.zipIdx).foldlM (fun l p => do return l ++ [p.1.2.1 (← inputVars[p.2]?)]) []
  let jacs ← (List.range' 1 (ts.length - 1 - 1)).foldlM
    (fun l i => do return l ++ [mulN m (← jacobians[i]?) (← l[i - 1]?)]) [← jacobians[0]?]
  let hessians ← (ts.zipIdx).foldlM (fun l p => do return l ++ [p.1.2.2 (← inputVars[p.2]?)]) []
  let hess ← (List.range' 1 (ts.length - 1)).foldlM
    (fun l i => do
      return l ++ [hessChain m (← hessians[i]?) (← jacs[i - 1]?) (← jacobians[i]?) (← l[i - 1]?)])
    [← hessians[0]?]
  hess.getLast?

/-- `ComposedTransform._hess_fwd`. -/
def compHessFwd (m : ℕ) (ts : List Tr) (x : ℕ → ℝ) : Option (ℕ → ℕ → ℕ → ℝ) :=
  compHess m (ts.map fun t => (t.fwd, t.jacF, t.hessF)) x

/-- `ComposedTransform._hess_rvs`. -/
def compHessRvs (m : ℕ) (ts : List Tr) (y : ℕ → ℝ) : Option (ℕ → ℕ → ℕ → ℝ) :=
  compHess m (ts.reverse.map fun t => (t.rvs, t.jacR, t.hessR)) y

/-! ## `CombinedTransform` -/

/-- An index object: a length or a `(start, stop)` pair (tuple, list, array or slice).  Slices with
missing ends and negative numbers are not modelled. -/
inductive IdxObj
  | len (k : ℕ)
  | pair (a b : ℕ)

/-- `_process_index_objects`. -/
def processIdx : List IdxObj → ℕ → List (ℕ × ℕ)
  | [], _ => []
  | .len k :: l, start => (start, start + k) :: processIdx l (start + k)
  | .pair a b :: l, _ => (a, b) :: processIdx l b

/-- `params[start:]` seen as an array. -/
def sliceN (x : ℕ → ℝ) (a : ℕ) : ℕ → ℝ := fun k => x (a + k)

/-- `result[a:b] = v` where `v` is an array of length `b - a`. -/
def assign1 (r : ℕ → ℝ) (a b : ℕ) (v : ℕ → ℝ) : ℕ → ℝ :=
  fun p => if a ≤ p ∧ p < b then v (p - a) else r p

/-- Body of the loop of `_apply_transform` for `_fwd`/`_rvs`: state is `(result, prev_stop)`. -/
def combStep (f : Tr → (ℕ → ℝ) → ℕ → ℝ) (x : ℕ → ℝ) (s : (ℕ → ℝ) × ℕ) (p : (ℕ × ℕ) × Tr) :
    (ℕ → ℝ) × ℕ :=
  let start := p.1.1
  let stop := p.1.2
  let result := if s.2 < start then assign1 s.1 s.2 start (sliceN x s.2) else s.1
  (assign1 result start stop (f p.2 (sliceN x start)), stop)

/-- The copy of the remaining range after the loop. -/
def combFinish (m : ℕ) (x : ℕ → ℝ) (s : (ℕ → ℝ) × ℕ) : ℕ → ℝ :=
  if s.2 < m then assign1 s.1 s.2 m (sliceN x s.2) else s.1

/-- `_apply_transform` for `_fwd`/`_rvs`: `f` selects the method. -/
def combApply (m : ℕ) (f : Tr → (ℕ → ℝ) → ℕ → ℝ) (rts : List ((ℕ × ℕ) × Tr)) (x : ℕ → ℝ) : ℕ → ℝ :=
  combFinish m x (rts.foldl (combStep f x) (fun _ => 0, 0))

/-- `result[a:b, a:b] = v`. -/
def assign2 (r : ℕ → ℕ → ℝ) (a b : ℕ) (v : ℕ → ℕ → ℝ) : ℕ → ℕ → ℝ :=
  fun p q => if a ≤ p ∧ p < b ∧ a ≤ q ∧ q < b then v (p - a) (q - a) else r p q

/-- `_apply_transform` for the Jacobians. -/
def combJac (f : Tr → (ℕ → ℝ) → ℕ → ℕ → ℝ) (rts : List ((ℕ × ℕ) × Tr)) (x : ℕ → ℝ) : ℕ → ℕ → ℝ :=
  rts.foldl (fun r p => assign2 r p.1.1 p.1.2 (f p.2 (sliceN x p.1.1))) eyeN

/-- `result[a:b, a:b, a:b] = v`. -/
def assign3 (r : ℕ → ℕ → ℕ → ℝ) (a b : ℕ) (v : ℕ → ℕ → ℕ → ℝ) : ℕ → ℕ → ℕ → ℝ :=
  fun p q k => if a ≤ p ∧ p < b ∧ a ≤ q ∧ q < b ∧ a ≤ k ∧ k < b
    then v (p - a) (q - a) (k - a) else r p q k

/-- `_apply_transform` for the Hessians. -/
def combHess (f : Tr → (ℕ → ℝ) → ℕ → ℕ → ℕ → ℝ) (rts : List ((ℕ × ℕ) × Tr)) (x : ℕ → ℝ) :
    ℕ → ℕ → ℕ → ℝ :=
  rts.foldl (fun r p => assign3 r p.1.1 p.1.2 (f p.2 (sliceN x p.1.1))) fun _ _ _ => 0

end Verif.Transf
