import Verif.Fa.Criterion
import Verif.Fa.Rotation
/-!
# Parameter vectors, and the identification constraints of `pyfa2/rotation.py`, `identification.py`

A parameter vector of length `nt = p m + m (m - 1) / 2 + p` is a function of the position; the parts are
those of `ParamLayout.unpack` (see `unpack_flat`).
-/
namespace Verif.Fa
open Matrix Verif.Np Verif.Index Verif.Vec

variable {p m : ℕ}

/-- `tril_indices(m, -1)`. -/
def tri (m : ℕ) : List (ℕ × ℕ) := trilIndices m (-1) true
/-- `_row_i[k]`. -/
def rowI (m k : ℕ) : ℕ := ((tri m).getD k (0, 0)).1
/-- `_col_j[k]`. -/
def colJ (m k : ℕ) : ℕ := ((tri m).getD k (0, 0)).2
/-- `ns`. -/
def nS (m : ℕ) : ℕ := m * (m - 1) / 2
/-- `nt`. -/
def nT (p m : ℕ) : ℕ := p * m + nS m + p

def Lof (p m : ℕ) (th : ℕ → ℝ) : Matrix (Fin p) (Fin m) ℝ := unflatF p m th

def phiOf (p m : ℕ) (th : ℕ → ℝ) : Matrix (Fin m) (Fin m) ℝ := Matrix.of fun i j =>
  if j < i then th (p * m + (tri m).idxOf ((i : ℕ), (j : ℕ)))
  else if i < j then th (p * m + (tri m).idxOf ((j : ℕ), (i : ℕ))) else 1

def psiOf (p m : ℕ) (th : ℕ → ℝ) : Fin p → ℝ := fun i => th (p * m + nS m + i)

/-! ## orthogonal rotation -/

/-- `OrthoRotation.constraint` — rotation.py 59-61. -/
noncomputable def orthoCons (c : Crit p m) (L : Matrix (Fin p) (Fin m) ℝ) : List ℝ :=
  let M := Lᵀ * c.dQ L
  vecl (entry (M - Mᵀ)) m

/-- The slabs `U[2k]`, `U[2k+1]` — rotation.py 66-72; `np.triu_indices(m, 1)` gives `(col_j, row_i)`. -/
def orthoU (m : ℕ) (L : Matrix (Fin p) (Fin m) ℝ) (s : ℕ) : Matrix (Fin p) (Fin m) ℝ :=
  let q := (npTriu m 1).getD (s / 2) (0, 0)
  let rowi := q.2
  let colj := q.1
  Matrix.of fun i j =>
    if s % 2 = 0 then (if (j : ℕ) = colj then entry L i rowi else 0)
    else (if (j : ℕ) = rowi then entry L i colj else 0)

/-- `OrthoRotation.d_constraint` — rotation.py 63-80: entry `[k, f]` of `dCdL` (`dCdPhi` is zero). -/
noncomputable def orthoDCons (c : Crit p m) (L : Matrix (Fin p) (Fin m) ℝ) (k : ℕ) : ℕ → ℝ :=
  let G := c.dQ L
  let q := (npTriu m 1).getD k (0, 0)
  let rowi := q.2
  let colj := q.1
  let Y := c.app L fun f s => flatF (orthoU m L s) f
  let T : ℕ → Matrix (Fin p) (Fin m) ℝ := fun s => unflatF p m fun f => Y f s
  let T := T (2 * k) - T (2 * k + 1)
  let T : Matrix (Fin p) (Fin m) ℝ :=
    Matrix.of fun i j => if (j : ℕ) = rowi then T i j + entry G i colj else T i j
  let T : Matrix (Fin p) (Fin m) ℝ :=
    Matrix.of fun i j => if (j : ℕ) = colj then T i j - entry G i rowi else T i j
  flatF T

/-! ## oblique rotation -/

/-- The pairs `(i_idx, j_idx)` — rotation.py 131-134, also the order of `_vec_ndg`. -/
def ndg (m : ℕ) : List (ℕ × ℕ) :=
  ((List.range m).flatMap fun j => (List.range m).map fun i => (i, j)).filter fun q => decide (q.1 ≠ q.2)

/-- `ObliqueRotation.constraint` — rotation.py 121-124. -/
noncomputable def oblCons (c : Crit p m) (L : Matrix (Fin p) (Fin m) ℝ) (Phi : Matrix (Fin m) (Fin m) ℝ) :
    Option (List ℝ) :=
  (inv? Phi).map fun V =>
    let C := Lᵀ * c.dQ L * V
    (ndg m).map fun q => entry C q.1 q.2

/-- `U[k] = L[:, i_idx[k]] V[:, j_idx[k]]ᵀ` — rotation.py 137. -/
def oblU (L : Matrix (Fin p) (Fin m) ℝ) (V : Matrix (Fin m) (Fin m) ℝ) (k : ℕ) : Matrix (Fin p) (Fin m) ℝ :=
  Matrix.of fun a b => entry L a ((ndg m).getD k (0, 0)).1 * entry V b ((ndg m).getD k (0, 0)).2

/-- The body of `ObliqueRotation.d_constraint` after the inversion — rotation.py 129-143, 145-151. -/
noncomputable def oblDConsV (c : Crit p m) (L : Matrix (Fin p) (Fin m) ℝ) (V : Matrix (Fin m) (Fin m) ℝ) :
    (ℕ → ℕ → ℝ) × (ℕ → ℕ → ℝ) :=
  let G := c.dQ L
  let GV := G * V
  let ii : ℕ → ℕ := fun k => ((ndg m).getD k (0, 0)).1
  let jj : ℕ → ℕ := fun k => ((ndg m).getD k (0, 0)).2
  let Y := c.app L fun f k => flatF (oblU L V k) f
  let T : ℕ → Matrix (Fin p) (Fin m) ℝ := fun k => unflatF p m fun f => Y f k
  let T : ℕ → Matrix (Fin p) (Fin m) ℝ := fun k =>
    Matrix.of fun a b => if (b : ℕ) = ii k then T k a b + entry GV a (jj k) else T k a b
  let M := Lᵀ * G * V
  let J : ℕ → Matrix (Fin m) (Fin m) ℝ := fun k => Matrix.of fun a b =>
    -entry M a (rowI m k) * entry V (colJ m k) b - entry M a (colJ m k) * entry V (rowI m k) b
  (fun k => flatF (T k), fun q k => entry (J k) (ii q) (jj q))

/-- `ObliqueRotation.d_constraint` — rotation.py 126-143: rows of `dCdL` and `dCdPhi`. -/
noncomputable def oblDCons (c : Crit p m) (L : Matrix (Fin p) (Fin m) ℝ) (Phi : Matrix (Fin m) (Fin m) ℝ) :
    Option ((ℕ → ℕ → ℝ) × (ℕ → ℕ → ℝ)) :=
  (inv? Phi).map fun V => oblDConsV c L V

/-! ## `identification.py` -/

/-- `RotationIdentification.constraint` with `OrthoRotation` — identification.py 42-44. -/
noncomputable def rotConsOrtho (c : Crit p m) (th : ℕ → ℝ) : List ℝ := orthoCons c (Lof p m th)

/-- `np.concatenate([dCdL, dCdPhi, dCdPsi], axis=1)`, one row. -/
def concatRow (p m : ℕ) (dL dPhi dPsi : ℕ → ℝ) : ℕ → ℝ := fun f =>
  if f < p * m then dL f else if f < p * m + nS m then dPhi (f - p * m) else dPsi (f - (p * m + nS m))

/-- `RotationIdentification.d_constraint` with `OrthoRotation` — identification.py 46-50. -/
noncomputable def rotDConsOrtho (c : Crit p m) (th : ℕ → ℝ) (k : ℕ) : ℕ → ℝ :=
  concatRow p m (orthoDCons c (Lof p m th) k) (fun _ => 0) (fun _ => 0)

/-- `RotationIdentification.constraint` with `ObliqueRotation`. -/
noncomputable def rotConsObl (c : Crit p m) (th : ℕ → ℝ) : Option (List ℝ) :=
  oblCons c (Lof p m th) (phiOf p m th)

/-- `RotationIdentification.d_constraint` with `ObliqueRotation`. -/
noncomputable def rotDConsObl (c : Crit p m) (th : ℕ → ℝ) : Option (ℕ → ℕ → ℝ) :=
  (oblDCons c (Lof p m th) (phiOf p m th)).map fun d => fun k =>
    concatRow p m (d.1 k) (d.2 k) (fun _ => 0)

/-- `CanonicalIdentification.constraint` — identification.py 80-84. -/
noncomputable def canonCons (p m : ℕ) (th : ℕ → ℝ) : List ℝ :=
  let L := Lof p m th
  let psi := psiOf p m th
  let LD : Matrix (Fin p) (Fin m) ℝ := Matrix.of fun i j => L i j / psi i
  let M := LDᵀ * L
  (tri m).map fun q => entry M q.1 q.2

/-- `CanonicalIdentification.d_constraint` — identification.py 86-101. -/
noncomputable def canonDCons (p m : ℕ) (th : ℕ → ℝ) (k : ℕ) : ℕ → ℝ :=
  let L := Lof p m th
  let psi := psiOf p m th
  let LD : Matrix (Fin p) (Fin m) ℝ := Matrix.of fun i j => L i j / psi i
  let J : Matrix (Fin p) (Fin m) ℝ := 0
  let J : Matrix (Fin p) (Fin m) ℝ :=
    Matrix.of fun i j => if (j : ℕ) = rowI m k then entry LD i (colJ m k) else J i j
  let J : Matrix (Fin p) (Fin m) ℝ :=
    Matrix.of fun i j => if (j : ℕ) = colJ m k then entry LD i (rowI m k) else J i j
  let dL : ℕ → ℝ := fun f => entry Jᵀ (f / p) (f % p)
  let dPsi : ℕ → ℝ := fun a => if h : a < p then
    -(entry L a (rowI m k) * entry L a (colJ m k) / psi ⟨a, h⟩ ^ 2) else 0
  concatRow p m dL (fun _ => 0) dPsi

end Verif.Fa
