import Verif.Vec.Model
import Mathlib.LinearAlgebra.Matrix.NonsingularInverse
import Mathlib.Data.Real.Basic
/-!
# Model of `pyfa2/cayley.py` and `pyfa2/layout.py`

Square arrays of size `m` are Mathlib matrices over `Fin m`; index arrays are lists of pairs of
naturals, as produced by `tril_indices` (Fortran order by default).
-/
namespace Verif.Fa
open Matrix Verif.Np Verif.Index Verif.Vec

/-- The array read at naturals. -/
def entry {p m : ℕ} (S : Matrix (Fin p) (Fin m) ℝ) (i j : ℕ) : ℝ :=
  if h : i < p ∧ j < m then S ⟨i, h.1⟩ ⟨j, h.2⟩ else 0

/-- The `p × m` part of an array. -/
def toMat (p m : ℕ) (S : ℕ → ℕ → ℝ) : Matrix (Fin p) (Fin m) ℝ := Matrix.of fun i j => S i j

/-- `a[rows, cols] = v`: a value of length one is broadcast, other lengths must agree. -/
def assign2 (a : ℕ → ℕ → ℝ) (idx : List (ℕ × ℕ)) (v : List ℝ) : Option (ℕ → ℕ → ℝ) :=
  if v.length = idx.length then some (scatter2 a idx v)
  else match v with
    | [x] => some (scatter2 a idx (List.replicate idx.length x))
    | _ => none

/-- `vec_to_skew` — cayley.py 6-11 (one vector). -/
def vecToSkew (theta : List ℝ) (m : ℕ) : Option (Matrix (Fin m) (Fin m) ℝ) := do
  let idx := trilIndices m (-1) true
  let S ← assign2 (fun _ _ => 0) idx theta
  let S ← assign2 S (idx.map Prod.swap) (theta.map fun x => -x)
  some (toMat m m S)

/-- `skew_to_vec` — cayley.py 14-16. -/
def skewToVec {m : ℕ} (S : Matrix (Fin m) (Fin m) ℝ) : List ℝ :=
  (trilIndices m (-1) true).map fun ij => entry S ij.1 ij.2

open Classical in
/-- `cayley`, `cayley_inverse` — cayley.py 19-25; `np.linalg.solve` raises on a singular matrix. -/
noncomputable def cayley {m : ℕ} (S : Matrix (Fin m) (Fin m) ℝ) :
    Option (Matrix (Fin m) (Fin m) ℝ) :=
  let M := 1 + S
  if IsUnit M.det then some ((2 : ℝ) • M⁻¹ - 1) else none

/-- `vec_to_rot` — cayley.py 28-29. -/
noncomputable def vecToRot (theta : List ℝ) (m : ℕ) : Option (Matrix (Fin m) (Fin m) ℝ) := do
  cayley (← vecToSkew theta m)

/-- `rot_to_vec` — cayley.py 32-33. -/
noncomputable def rotToVec {m : ℕ} (Q : Matrix (Fin m) (Fin m) ℝ) : Option (List ℝ) := do
  some (skewToVec (← cayley Q))

/-! ## `ParamLayout` — layout.py -/

/-- Sizes and index ranges — layout.py 7-17. -/
structure Layout where
  p : ℕ
  m : ℕ
  nl : ℕ
  ns : ℕ
  nr : ℕ
  nt : ℕ
  ixl : List ℕ
  ixs : List ℕ
  ixr : List ℕ
  idx : List (ℕ × ℕ)

/-- `np.arange(a, b)`. -/
def arange (a b : ℕ) : List ℕ := (List.range (b - a)).map (a + ·)

def layout (p m : ℕ) : Layout :=
  let nl := p * m
  let ns := m * (m - 1) / 2
  let nr := p
  let nt := nl + ns + nr
  { p := p, m := m, nl := nl, ns := ns, nr := nr, nt := nt
    ixl := arange 0 nl
    ixs := arange nl (nl + ns)
    ixr := arange (nl + ns) nt
    idx := trilIndices m (-1) true }

/-- `a[ix] = v` on a one-dimensional array (uninitialised cells are `none`). -/
def assign1 (a : ℕ → Option ℝ) (ix : List ℕ) (v : List ℝ) : Option (ℕ → Option ℝ) :=
  let put (v : List ℝ) : ℕ → Option ℝ :=
    (ix.zip v).foldl (fun a q => fun i => if i = q.1 then some q.2 else a i) a
  if v.length = ix.length then some (put v)
  else match v with
    | [x] => some (put (List.replicate ix.length x))
    | _ => none

/-- The argument `Psi`: a `p × p` matrix or a vector. -/
inductive PsiArg where
  | full (P : ℕ → ℕ → ℝ)
  | diag (v : List ℝ)

/-- `pack` — layout.py 19-24; `np.empty` leaves cells uninitialised. -/
def pack (l : Layout) (L : ℕ → ℕ → ℝ) (Phi : ℕ → ℕ → ℝ) (Psi : PsiArg) : Option (List (Option ℝ)) := do
  let theta : ℕ → Option ℝ := fun _ => none
  let theta ← assign1 theta l.ixl (vec L l.p l.m)
  let theta ← assign1 theta l.ixs (l.idx.map fun ij => Phi ij.1 ij.2)
  let theta ← assign1 theta l.ixr (match Psi with
    | .full P => (List.range l.p).map fun i => P i i
    | .diag v => v)
  some ((List.range l.nt).map theta)

/-- `theta[ix]`: out-of-range positions raise. -/
def take1 (theta : List ℝ) (ix : List ℕ) : Option (List ℝ) := ix.mapM fun i => theta[i]?

/-- `unpack` — layout.py 26-32. -/
def unpack (l : Layout) (theta : List ℝ) :
    Option ((ℕ → ℕ → ℝ) × (ℕ → ℕ → ℝ) × List ℝ) := do
  let L ← invec (← take1 theta l.ixl) l.p l.m
  let th ← take1 theta l.ixs
  let Phi ← assign2 (fun i j => if i = j then 1 else 0) l.idx th
  let Phi ← assign2 Phi (l.idx.map Prod.swap) th
  let psi ← take1 theta l.ixr
  some (L, Phi, psi)

end Verif.Fa
