import Verif.Vec.Model

/-!
Model of the two-sided applications of the elimination and duplication matrices of `pystatsm/utilities/special_mats.py` (lines 174-327 and
350-434).  An array carries its numbers of rows and columns; a product of arrays that do not fit, or an index outside an array, raises
(`none`).  `int(np.sqrt(k))` is the integer square root.
-/

namespace Verif.Vec
open Verif.Np Verif.Index

variable {R : Type*}

/-- A two-dimensional array. -/
structure Arr (R : Type*) where
  rows : ℕ
  cols : ℕ
  entry : ℕ → ℕ → R

/-- `A.T`. -/
def Arr.tr (A : Arr R) : Arr R := ⟨A.cols, A.rows, fun i j => A.entry j i⟩

/-- `A.dot(B)`. -/
def Arr.dot [NonUnitalNonAssocSemiring R] (A B : Arr R) : Option (Arr R) :=
  if A.cols = B.rows then some ⟨A.rows, B.cols, fun i j => ∑ k ∈ Finset.range A.cols, A.entry i k * B.entry k j⟩ else none

/-- `dmat(n)` as an array. -/
def dmatA [AddCommMonoid R] [One R] (n : ℕ) : Arr R := ⟨n ^ 2, n * (n + 1) / 2, cooEntry (dmat n)⟩

/-- `lmat(n)` as an array. -/
def lmatA [AddCommMonoid R] [One R] (n : ℕ) : Arr R := ⟨n * (n + 1) / 2, n ^ 2, cooEntry (lmat n)⟩

/-- `_apply_lmat_post1`, `EliminationMatrix.apply_post`: `arr[:, indices]` (lines 180-181, 206-212 and 364-365). -/
def applyLmatPost1 [Zero R] (A : Arr R) (n : Option ℕ) : Option (Arr R) :=
  let n := n.getD (Nat.sqrt A.cols)
  let idx := (trilIndices n 0 true).map fun ij => ij.2 * n + ij.1
  if ∀ k ∈ idx, k < A.cols then some ⟨A.rows, idx.length, fun i j => (applyLmat1 (fun k => A.entry i k) n).getD j 0⟩ else none

/-- `apply_lmat_post2`, `EliminationMatrix.apply_post_alt`: `arr.dot(L)` (lines 183-184, 215-220 and 370-371). -/
def applyLmatPost2 [NonUnitalNonAssocSemiring R] [One R] (A : Arr R) (n : Option ℕ) : Option (Arr R) :=
  A.dot (lmatA (n.getD (Nat.sqrt A.cols)))

/-- The left half of `_apply_dmat1`: `arr[rl] + arr[cl]`, the diagonal entries halved (lines 234-236 and 394-396). -/
def dmatPre1 [Field R] (A : Arr R) (n : ℕ) : Option (Arr R) :=
  let t := trilIndices n 0 true
  if ∀ ij ∈ t, ij.2 * n + ij.1 < A.rows ∧ ij.1 * n + ij.2 < A.rows then
    some ⟨t.length, A.cols, fun i j => (applyDmat1 (fun k => A.entry k j) n).getD i 0⟩
  else none

/-- The right half: `out[:, rl] + out[:, cl]`, the diagonal entries halved (lines 239-241 and 400-402). -/
def dmatPost1 [Field R] (A : Arr R) (n : ℕ) : Option (Arr R) :=
  let t := trilIndices n 0 true
  if ∀ ij ∈ t, ij.2 * n + ij.1 < A.cols ∧ ij.1 * n + ij.2 < A.cols then
    some ⟨A.rows, t.length, fun i j => (applyDmat1 (fun k => A.entry i k) n).getD j 0⟩
  else none

/-- `_apply_dmat1` (lines 233-242), `DuplicationMatrix.apply` (lines 393-403). -/
def dmatFlags [Field R] (A : Arr R) (n : ℕ) (pre post : Bool) : Option (Arr R) := do
  let out ← if pre then dmatPre1 A n else some A
  if post then dmatPost1 out n else some out

/-- `apply_dmat1` (lines 244-252): the size comes from the number of rows. -/
def applyDmat1A [Field R] (A : Arr R) (n : Option ℕ) (pre post : Bool) : Option (Arr R) := dmatFlags A (n.getD (Nat.sqrt A.rows)) pre post

/-- `apply_dmat3` (lines 308-327) for one matrix of the stack: the size comes from the last axis. -/
def applyDmat3A [Field R] (A : Arr R) (n : Option ℕ) (pre post : Bool) : Option (Arr R) := dmatFlags A (n.getD (Nat.sqrt A.cols)) pre post

/-- `apply_dmat2_pre` (lines 254-265), `DuplicationMatrix.apply_pre` (lines 405-410). -/
def applyDmat2Pre [NonUnitalNonAssocSemiring R] [One R] (A : Arr R) (n : Option ℕ) (D : Option (Arr R)) (transpose : Bool) : Option (Arr R) :=
  let n := n.getD (Nat.sqrt A.rows)
  let D := D.getD (dmatA n)
  (if transpose then D.tr else D).dot A

/-- `apply_dmat2_post` (lines 267-279): `arr.dot(D)`. -/
def applyDmat2Post [NonUnitalNonAssocSemiring R] [One R] (A : Arr R) (n : Option ℕ) (D : Option (Arr R)) (transpose : Bool) : Option (Arr R) :=
  let n := n.getD (Nat.sqrt A.cols)
  let D := D.getD (dmatA n)
  A.dot (if transpose then D.tr else D)

/-- `DuplicationMatrix.apply_post` (lines 412-417): `(D.dot(A.T)).T`. -/
def dupPost [NonUnitalNonAssocSemiring R] [One R] (n : ℕ) (A : Arr R) (D : Option (Arr R)) (transpose : Bool) : Option (Arr R) :=
  let D := D.getD (dmatA n)
  ((if transpose then D.tr else D).dot A.tr).map Arr.tr

/-- `apply_dmat2_pre_post` (lines 281-305). -/
def applyDmat2PrePost [NonUnitalNonAssocSemiring R] [One R] (A : Arr R) (n1 n2 : Option ℕ) (D1 D2 : Option (Arr R)) (t1 t2 : Bool) :
    Option (Arr R) := do
  let n1 := n1.getD (Nat.sqrt A.rows)
  let n2 := n2.getD (Nat.sqrt A.cols)
  let (D1, D2) :=
    if n1 = n2 then
      match D1, D2 with
      | none, some d2 => (d2, d2)
      | some d1, none => (d1, d1)
      | none, none => (dmatA n1, dmatA n1)
      | some d1, some d2 => (d1, d2)
    else (D1.getD (dmatA n1), D2.getD (dmatA n2))
  let D1 := if t1 then D1.tr else D1
  let D2 := if t2 then D2.tr else D2
  let B ← D1.dot A
  (D2.tr.dot B.tr).map Arr.tr

/-- `DuplicationMatrix.apply_pre_post` (lines 419-434): the right factor is `D2` and not `D2.T`. -/
def dupPrePost [NonUnitalNonAssocSemiring R] [One R] (n : ℕ) (A : Arr R) (D1 D2 : Option (Arr R)) (t1 t2 : Bool) : Option (Arr R) := do
  let (D1, D2) :=
    match D1, D2 with
    | none, none => (dmatA n, dmatA n)
    | none, some d2 => (d2, d2)
    | some d1, none => (d1, d1)
    | some d1, some d2 => (d1, d2)
  let D1 := if t1 then D1.tr else D1
  let D2 := if t2 then D2.tr else D2
  let B ← D1.dot A
  (D2.dot B.tr).map Arr.tr

end Verif.Vec
