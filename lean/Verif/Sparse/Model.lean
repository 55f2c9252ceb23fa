import Mathlib.Algebra.BigOperators.Group.Finset.Basic
import Mathlib.Algebra.Ring.Defs
import Mathlib.Order.Interval.Finset.Nat
/-!
# Model of the sparse C kernels in `pystatsm/utilities/src`

C arrays are total functions `ℕ → α`; a store is a point update.  Memory capacity is therefore
not modelled (the wrappers allocate the outputs); loop bounds, index arithmetic and workspaces
are.  Values live in an arbitrary commutative ring.
-/
namespace Verif.Sparse

variable {R : Type*}

/-- A store `a[i] = v`. -/
def store {α : Type*} (a : ℕ → α) (i : ℕ) (v : α) : ℕ → α := fun k => if k = i then v else a k

/-- A compressed-column matrix as three arrays. -/
structure Csc (R : Type*) where
  p : ℕ → ℕ
  i : ℕ → ℕ
  x : ℕ → R

/-- `for (k = lo; k < hi; k++)` as the list of visited values. -/
def loopRange (lo hi : ℕ) : List ℕ := List.range' lo (hi - lo)

/-- The matrix a compressed-column triple denotes (scipy contract: duplicates add). -/
def Csc.entry [AddCommMonoid R] (M : Csc R) (r c : ℕ) : R :=
  ∑ k ∈ Finset.Ico (M.p c) (M.p (c + 1)), if M.i k = r then M.x k else 0

/-! ## coo_to_csc -/

/-- First loop, coo_to_csc.c 7-9: `Bp[Aj[i]]++`. -/
def countCols (Aj : ℕ → ℕ) (nz : ℕ) (Bp : ℕ → ℕ) : ℕ → ℕ :=
  (List.range nz).foldl (fun Bp i => store Bp (Aj i) (Bp (Aj i) + 1)) Bp

/-- Second loop, coo_to_csc.c 11-17: exclusive cumulative sum, then `Bp[Anc] = c`. -/
def cumCols (nc : ℕ) (Bp : ℕ → ℕ) : ℕ → ℕ :=
  let st := (List.range nc).foldl
    (fun (st : (ℕ → ℕ) × ℕ) j => (store st.1 j st.2, st.2 + st.1 j)) (Bp, 0)
  store st.1 nc st.2

/-- Third loop, coo_to_csc.c 19-24: place every triplet. -/
def placeCols (Ai Aj : ℕ → ℕ) (Ax : ℕ → R) (nz : ℕ) (B : Csc R) : Csc R :=
  (List.range nz).foldl
    (fun B k =>
      let c := Aj k
      { i := store B.i (B.p c) (Ai k), x := store B.x (B.p c) (Ax k),
        p := store B.p c (B.p c + 1) }) B

/-- Fourth loop, coo_to_csc.c 26-31: shift the pointers back by one column. -/
def shiftCols (nc : ℕ) (Bp : ℕ → ℕ) : ℕ → ℕ :=
  ((List.range (nc + 1)).foldl
    (fun (st : (ℕ → ℕ) × ℕ) j => (store st.1 j st.2, st.1 j)) (Bp, 0)).1

/-- `coo_to_csc(Anr, Anc, Anz, Ai, Aj, Ax, Bp, Bi, Bx)` — coo_to_csc.c 3-32 with the wrapper's
zero-initialised outputs (python_wrappers.py 121-134; `Bi`, `Bx` start as zeros). -/
def cooToCsc [Zero R] (nc nz : ℕ) (Ai Aj : ℕ → ℕ) (Ax : ℕ → R) : Csc R :=
  let Bp := countCols Aj nz (fun _ => 0)
  let Bp := cumCols nc Bp
  let B := placeCols Ai Aj Ax nz { p := Bp, i := fun _ => 0, x := fun _ => 0 }
  { B with p := shiftCols nc B.p }

/-! ## cs_add -/

section ring
variable [CommRing R]

/-- One scatter loop of cs_add.c 11-14 / 15-18: `x[i] += alpha * Ax[p]`. -/
def scatterCol (M : Csc R) (alpha : R) (j : ℕ) (x : ℕ → R) : ℕ → R :=
  (loopRange (M.p j) (M.p (j + 1))).foldl
    (fun x p => store x (M.i p) (x (M.i p) + alpha * M.x p)) x

/-- Gather loop of cs_add.c 19-22. State: `(Cx, x)`. -/
def gatherCol (Cp Ci : ℕ → ℕ) (j : ℕ) (st : (ℕ → R) × (ℕ → R)) : (ℕ → R) × (ℕ → R) :=
  (loopRange (Cp j) (Cp (j + 1))).foldl
    (fun st p => (store st.1 p (st.2 (Ci p)), store st.2 (Ci p) 0)) st

/-- `cs_add` / `cs_add_inplace` — cs_add.c 4-26, cs_add_inplace.c 4-26 (identical bodies):
values `Cx` for the given pattern `Cp, Ci`. -/
def csAdd (A B : Csc R) (alpha beta : R) (C : Csc R) (nc : ℕ) : Csc R :=
  let st := (List.range nc).foldl
    (fun (st : (ℕ → R) × (ℕ → R)) j =>
      let x := scatterCol A alpha j st.2
      let x := scatterCol B beta j x
      gatherCol C.p C.i j (st.1, x)) (C.x, fun _ => 0)
  { C with x := st.1 }

/-! ## Kronecker kernels -/

/-- Output buffers of a kernel that appends entries. -/
structure Out (R : Type*) where
  cnt : ℕ
  C : Csc R

/-- `Cx[cnt] = v; Ci[cnt] = r; cnt++`. -/
def Out.push (o : Out R) (rv : ℕ × R) : Out R :=
  { cnt := o.cnt + 1, C := { o.C with i := store o.C.i o.cnt rv.1, x := store o.C.x o.cnt rv.2 } }

/-- `Cp[j] = cnt`. -/
def Out.setP (o : Out R) (j : ℕ) : Out R := { o with C := { o.C with p := store o.C.p j o.cnt } }

/-- `cs_kron_ss` — cs_kron_ss.c 3-22 (used by `sparse_kron` and, through
`fully_dense_to_csc`, by `dense_sparse_kron`, python_wrappers.py 137-192). -/
def kronSS (A : Csc R) (Anc : ℕ) (B : Csc R) (Bnr Bnc : ℕ) (o : Out R) : Out R :=
  (List.range Anc).foldl (fun o a =>
    (List.range Bnc).foldl (fun o b =>
      ((loopRange (A.p a) (A.p (a + 1))).foldl (fun o ai =>
        let rout := A.i ai * Bnr
        let ax := A.x ai
        (loopRange (B.p b) (B.p (b + 1))).foldl (fun o bi =>
          o.push (B.i bi + rout, ax * B.x bi)) o) o).setP (a * Bnc + b + 1)) o) o

/-- `cs_kron_ds` — cs_kron_ds.c 3-22: dense `A` (Fortran order, `A[a_row + a_col*Anr]`). -/
def kronDS (A : ℕ → R) (Anr Anc : ℕ) (B : Csc R) (Bnr Bnc : ℕ) (o : Out R) : Out R :=
  (List.range Anc).foldl (fun o a =>
    (List.range Bnc).foldl (fun o b =>
      ((List.range Anr).foldl (fun o arow =>
        let aval := A (arow + a * Anr)
        (loopRange (B.p b) (B.p (b + 1))).foldl (fun o bi =>
          o.push (B.i bi + arow * Bnr, aval * B.x bi)) o) o).setP (a * Bnc + b + 1)) o) o

/-- `cs_kron_sd` — cs_kron_sd.c 3-22: dense `B` (Fortran order). -/
def kronSD (A : Csc R) (Anc : ℕ) (B : ℕ → R) (Bnr Bnc : ℕ) (o : Out R) : Out R :=
  (List.range Anc).foldl (fun o a =>
    (List.range Bnc).foldl (fun o b =>
      ((loopRange (A.p a) (A.p (a + 1))).foldl (fun o ai =>
        let arow := A.i ai
        let ax := A.x ai
        (List.range Bnr).foldl (fun o brow =>
          o.push (brow + arow * Bnr, ax * B (brow + b * Bnr))) o) o).setP (a * Bnc + b + 1)) o) o

/-- `cs_kron_id_sp` — cs_kron_id_sp.c 3-17. -/
def kronIdSp (m : ℕ) (B : Csc R) (Bnr Bnc : ℕ) (o : Out R) : Out R :=
  let o := { o with C := { o.C with p := store o.C.p 0 0 } }
  (List.range m).foldl (fun o i =>
    (List.range Bnc).foldl (fun o j =>
      ((loopRange (B.p j) (B.p (j + 1))).foldl (fun o k =>
        o.push (B.i k + i * Bnr, B.x k)) o).setP (i * Bnc + j + 1)) o) o

/-- Fresh output buffers (`np.zeros`). -/
def Out.fresh : Out R := { cnt := 0, C := { p := fun _ => 0, i := fun _ => 0, x := fun _ => 0 } }

/-- `sparse_kron(A, B)` — python_wrappers.py 165-192, `out=None`. -/
def sparseKron (A : Csc R) (Anc : ℕ) (B : Csc R) (Bnr Bnc : ℕ) : Csc R :=
  (kronSS A Anc B Bnr Bnc Out.fresh).C

/-- `fully_dense_to_csc(arr)` — python_wrappers.py 31-37; `arr` given in Fortran order. -/
def fullyDenseToCsc (arr : ℕ → R) (n : ℕ) : Csc R :=
  { p := fun j => j * n, i := fun k => k % n, x := arr }

/-- `dense_sparse_kron(A, B)` — python_wrappers.py 137-161, `out=None`. -/
def denseSparseKron (A : ℕ → R) (Anr Anc : ℕ) (B : Csc R) (Bnr Bnc : ℕ) : Csc R :=
  (kronSS (fullyDenseToCsc A Anr) Anc B Bnr Bnc Out.fresh).C

/-- `ds_kron(A, B)` — python_wrappers.py 204-225, `out=None`. -/
def dsKron (A : ℕ → R) (Anr Anc : ℕ) (B : Csc R) (Bnr Bnc : ℕ) : Csc R :=
  (kronDS A Anr Anc B Bnr Bnc Out.fresh).C

/-- `sparse_dense_kron(A, B)` — python_wrappers.py 271-298, `out=None`. -/
def sparseDenseKron (A : Csc R) (Anc : ℕ) (B : ℕ → R) (Bnr Bnc : ℕ) : Csc R :=
  (kronSD A Anc B Bnr Bnc Out.fresh).C

/-- `id_sp_kron(m, B)` — python_wrappers.py 247-258.  The wrapper passes `Bnc, Bnc` for the
parameters `Bnr, Bnc` of the kernel (line 256). -/
def idSpKron (m : ℕ) (B : Csc R) (_Bnr Bnc : ℕ) : Csc R :=
  (kronIdSp m B Bnc Bnc Out.fresh).C

/-- `Cx[cnt] = v; cnt++`, for the value-only kernels. State: `(cnt, Cx)`. -/
def pushX (st : ℕ × (ℕ → R)) (v : R) : ℕ × (ℕ → R) := (st.1 + 1, store st.2 st.1 v)

/-- `cs_kron_ss_inplace` — cs_kron_ss.c 24-40 (also cs_kron_inplace.c). -/
def kronSSInplace (A : Csc R) (Anc : ℕ) (B : Csc R) (Bnc : ℕ) (Cx : ℕ → R) : ℕ → R :=
  ((List.range Anc).foldl (fun st a =>
    (List.range Bnc).foldl (fun st b =>
      (loopRange (A.p a) (A.p (a + 1))).foldl (fun st ai =>
        let ax := A.x ai
        (loopRange (B.p b) (B.p (b + 1))).foldl (fun st bi => pushX st (ax * B.x bi)) st) st)
      st) (0, Cx)).2

/-- `cs_kron_ds_inplace` — cs_kron_ds.c 24-41. -/
def kronDSInplace (A : ℕ → R) (Anr Anc : ℕ) (B : Csc R) (Bnc : ℕ) (Cx : ℕ → R) : ℕ → R :=
  ((List.range Anc).foldl (fun st a =>
    (List.range Bnc).foldl (fun st b =>
      (List.range Anr).foldl (fun st arow =>
        let aval := A (arow + a * Anr)
        (loopRange (B.p b) (B.p (b + 1))).foldl (fun st bi => pushX st (aval * B.x bi)) st) st)
      st) (0, Cx)).2

/-- `cs_kron_sd_inplace` — cs_kron_sd.c 24-40. -/
def kronSDInplace (A : Csc R) (Anc : ℕ) (B : ℕ → R) (Bnr Bnc : ℕ) (Cx : ℕ → R) : ℕ → R :=
  ((List.range Anc).foldl (fun st a =>
    (List.range Bnc).foldl (fun st b =>
      (loopRange (A.p a) (A.p (a + 1))).foldl (fun st ai =>
        let ax := A.x ai
        (List.range Bnr).foldl (fun st brow => pushX st (ax * B (brow + b * Bnr))) st) st)
      st) (0, Cx)).2

/-- `cs_kron_id_sp_inplace` — cs_kron_id_sp.c 19-30. -/
def kronIdSpInplace (m : ℕ) (B : Csc R) (Bnc : ℕ) (Cx : ℕ → R) : ℕ → R :=
  ((List.range m).foldl (fun st _ =>
    (List.range Bnc).foldl (fun st j =>
      (loopRange (B.p j) (B.p (j + 1))).foldl (fun st k => pushX st (B.x k)) st) st) (0, Cx)).2

/-! ## cs_matmul_inplace -/

/-- State of cs_matmul_inplace.c: workspaces `w`, `x`, output `C` and the counter `nz`. -/
structure MM (R : Type*) where
  w : ℕ → ℤ
  x : ℕ → R
  C : Csc R
  nz : ℕ

/-- Innermost body, cs_matmul_inplace.c 22-30, for row `ii` and value `v = b * Ax[k]`. -/
def MM.add (j : ℕ) (s : MM R) (iv : ℕ × R) : MM R :=
  if s.w iv.1 < (j : ℤ) then
    { w := store s.w iv.1 j, x := store s.x iv.1 iv.2,
      C := { s.C with i := store s.C.i s.nz iv.1 }, nz := s.nz + 1 }
  else { s with x := store s.x iv.1 (s.x iv.1 + iv.2) }

/-- One column, cs_matmul_inplace.c 17-35. -/
def MM.col (A B : Csc R) (s : MM R) (j : ℕ) : MM R :=
  let s := { s with C := { s.C with p := store s.C.p j s.nz } }
  let s := (loopRange (B.p j) (B.p (j + 1))).foldl (fun s i =>
    let b := B.x i
    let jj := B.i i
    (loopRange (A.p jj) (A.p (jj + 1))).foldl (fun s k => s.add j (A.i k, b * A.x k)) s) s
  { s with C := { s.C with x :=
    (loopRange (s.C.p j) s.nz).foldl (fun Cx i => store Cx i (s.x (s.C.i i))) s.C.x } }

/-- `cs_matmul_inplace` — cs_matmul_inplace.c 4-41 (the workspace initialisation loop makes
`w = -1`, `x = 0`). -/
def csMatmul (A B : Csc R) (Bnc : ℕ) (C : Csc R) : Csc R :=
  let s := (List.range Bnc).foldl (MM.col A B) { w := fun _ => -1, x := fun _ => 0, C := C, nz := 0 }
  { s.C with p := store s.C.p Bnc s.nz }

/-! ## cs_dot, cs_pattern_trace, cs_block_diag_self_dot -/

/-- The two-pointer loop of cs_dot.c 4-19, cs_pattern_trace.c 12-23 and
cs_block_diag_self_dot.c 33-40: `i` runs to `e1`, `j` to `e2`. -/
def mergeDot (ai : ℕ → ℕ) (ax : ℕ → R) (bi : ℕ → ℕ) (bx : ℕ → R) (e1 e2 i j : ℕ) (acc : R) : R :=
  if _h : i < e1 ∧ j < e2 then
    if ai i < bi j then mergeDot ai ax bi bx e1 e2 (i + 1) j acc
    else if ai i > bi j then mergeDot ai ax bi bx e1 e2 i (j + 1) acc
    else mergeDot ai ax bi bx e1 e2 (i + 1) (j + 1) (acc + ax i * bx j)
  else acc
termination_by (e1 - i) + (e2 - j)

/-- `sparse_dot(a, b, c)` / `cs_dot` — cs_dot.c 1-21, python_wrappers.py 300-302. -/
def csDot (ai : ℕ → ℕ) (ax : ℕ → R) (anz : ℕ) (bi : ℕ → ℕ) (bx : ℕ → R) (bnz : ℕ) (c : R) : R :=
  mergeDot ai ax bi bx anz bnz 0 0 c

/-- `sparse_pattern_trace(B, C, out)` / `cs_pattern_trace` — cs_pattern_trace.c 3-28,
python_wrappers.py 304-309. -/
def patternTrace (B C : Csc R) (Cnc : ℕ) (out : R) : R :=
  (List.range Cnc).foldl (fun tr i =>
    (loopRange (C.p i) (C.p (i + 1))).foldl (fun tr k =>
      let j := C.i k
      let dot := mergeDot B.i B.x B.i B.x (B.p (i + 1)) (B.p (j + 1)) (B.p i) (B.p j) 0
      tr + C.x k * dot) tr) out

/-- `block_diag_self_dot(L_csr, ng, nv)` / `cs_block_diag_self_dot` —
cs_block_diag_self_dot.c 13-46, python_wrappers.py 312-322.  `L` is CSR (so `L.p` indexes rows
and `L.i` holds column numbers); the result is the flat row-major `nv × nv` array. -/
def blockDiagSelfDot (L : Csc R) (ng nv : ℕ) (out : ℕ → R) : ℕ → R :=
  let out := (List.range (nv * nv)).foldl (fun o i => store o i 0) out
  (List.range ng).foldl (fun out j =>
    (List.range nv).foldl (fun out a =>
      let r1 := j * nv + a
      let d := (loopRange (L.p r1) (L.p (r1 + 1))).foldl (fun d p => d + L.x p * L.x p) 0
      let out := store out (a * nv + a) (out (a * nv + a) + d)
      (loopRange (a + 1) nv).foldl (fun out b =>
        let r2 := j * nv + b
        let s := mergeDot L.i L.x L.i L.x (L.p (r1 + 1)) (L.p (r2 + 1)) (L.p r1) (L.p r2) 0
        let out := store out (a * nv + b) (out (a * nv + b) + s)
        store out (b * nv + a) (out (b * nv + a) + s)) out) out) out

/-! ## tile_1d, repeat_1d, naive_matmul -/

/-- `tile_1d_nested` — tile_1d.c 10-16 (tile_1d_complex.c is the same loop). -/
def tileNested (arr : ℕ → R) (n reps : ℕ) (out : ℕ → R) : ℕ → R :=
  (List.range reps).foldl (fun out i =>
    (List.range n).foldl (fun out j => store out (i * n + j) (arr j)) out) out

/-- `tile_1d_modulo` — tile_1d.c 3-8. -/
def tileModulo (arr : ℕ → R) (n reps : ℕ) (out : ℕ → R) : ℕ → R :=
  (List.range (n * reps)).foldl (fun out i => store out i (arr (i % n))) out

/-- `repeat_1d` — repeat_1d.c 3-9. -/
def repeat1d (arr : ℕ → R) (n reps : ℕ) (out : ℕ → R) : ℕ → R :=
  (List.range n).foldl (fun out i =>
    (List.range reps).foldl (fun out j => store out (i * reps + j) (arr i)) out) out

/-- `naive_matmul_inplace` — naive_matmul_inplace.c 5-18 (row-major dense arrays; the OpenMP
parallel-for only distributes independent rows and is modelled sequentially). -/
def naiveMatmul (A B C : ℕ → R) (N M K : ℕ) : ℕ → R :=
  (List.range N).foldl (fun C i =>
    (List.range K).foldl (fun C j =>
      store C (i * K + j)
        ((List.range M).foldl (fun sum k => sum + A (i * M + k) * B (k * K + j)) 0)) C) C

end ring
end Verif.Sparse
