import Verif.Sem.Formula
import Verif.Func.Model
import Mathlib.Data.Finset.Basic
import Mathlib.Data.List.Dedup
/-!
# Model of `pysem2/variable_ordering.py`, `param_table.py`, `model_matrices.py`
-/
namespace Verif.Sem

/-! ## Variable order -/

section order
variable {α : Type*} [DecidableEq α]

/-- `VariableOrder.default_sort(subset, var_names)` — variable_ordering.py 27-51.  `srt` is
`sorted(set, key=_default_sort_key)`: some arrangement of the set.  In the fourth line Python's
`-` binds tighter than `&`. -/
def defaultSort (srt : Finset α → List α) (subset obs nob ind endo : Finset α) : List α :=
  let g := srt (subset ∩ obs ∩ ind)
  let g := g ++ srt (subset ∩ nob ∩ ind)
  let g := g ++ srt (subset ∩ obs ∩ endo)
  let g := g ++ srt (subset ∩ (nob \ (nob ∩ ind)))
  let u := g.toFinset
  g ++ srt (subset \ u)

/-- `_ord_dict(iterable)` — variable_ordering.py 148-164: `dict(zip(iterable, arange(len)))`. -/
def ordDict (l : List α) : Func.Dict α ℕ :=
  (l.zip (List.range l.length)).foldl (fun d kv => d.put kv.1 kv.2) []

/-- `set_obs_order(None)` — variable_ordering.py 166-181. -/
def obsOrder (srt : Finset α → List α) (obs : Finset α) : Func.Dict α ℕ := ordDict (srt obs)

end order

/-! ## Parameter indexing -/

section index
variable {L : Type*} [DecidableEq L]

/-- What `_index_params` reads of a row: its pandas index label, `fixed`, `label`. -/
structure IRow (L : Type*) where
  idx : ℕ
  fixed : Bool
  label : Option L

/-- Index labels of the rows carrying label `ℓ` — param_table.py 117-118. -/
def sameLabel (rows : List (IRow L)) (ℓ : L) : List ℕ :=
  (rows.filter fun r => r.label = some ℓ).map fun r => r.idx

/-- `np.min(same_label_indices)`. -/
def repIdx (rows : List (IRow L)) (ℓ : L) : ℕ := ((sameLabel rows ℓ).min?).getD 0

/-- The distinct labels (`np.unique`; only the set matters). -/
def labels (rows : List (IRow L)) : List L := (rows.filterMap fun r => r.label).dedup

/-- `labeled_parameter_mask` after the loop over labels: labelled rows except representatives. -/
def stillLabeled (rows : List (IRow L)) (r : IRow L) : Bool :=
  r.label.isSome && !((labels rows).any fun ℓ => repIdx rows ℓ == r.idx)

/-- `independent_parameter_mask`. -/
def indep (rows : List (IRow L)) (r : IRow L) : Bool := !r.fixed && !stillLabeled rows r

/-- Write `1, 2, ...` at the selected positions and `0` elsewhere. -/
def number {R : Type*} (p : R → Bool) : List R → ℕ → List ℕ
  | [], _ => []
  | r :: rs, k => if p r then k :: number p rs (k + 1) else 0 :: number p rs k

/-- `param_df.loc[i, "free"]`. -/
def locFree (rows : List (IRow L)) (free : List ℕ) (i : ℕ) : ℕ :=
  (((rows.zip free).find? fun rf => rf.1.idx = i).map Prod.snd).getD 0

/-- `_index_params(param_df)` — param_table.py 70-150: the `free` column. -/
def indexFree (rows : List (IRow L)) : List ℕ :=
  let free := number (indep rows) rows 1
  (labels rows).foldl (fun free ℓ =>
    let v := locFree rows free (repIdx rows ℓ)
    List.zipWith (fun r f => if r.idx ∈ sameLabel rows ℓ then v else f) rows free) free

/-- The `ind` column — 143-148: `0..` over the rows with `free ≠ 0`, `0` elsewhere. -/
def indexInd (rows : List (IRow L)) : List ℕ :=
  number (fun f => f != 0) (indexFree rows) 0

end index

/-! ## Matrix assignment -/

/-- The three relations. -/
inductive R3 | mes | reg | cov
  deriving DecidableEq

/-- What `get_matrix_assignments` reads of a row. -/
structure MRow (N : Type*) where
  lhs : N
  rel : R3
  rhs : N
  dummy : Bool
  deriving DecidableEq

/-- Row/column label of a cell: a variable or the constant `0`. -/
inductive Cell (N : Type*) | zero | var (v : N)
  deriving DecidableEq

section assign
variable {N : Type*} [DecidableEq N]

/-- The six masks of `get_matrix_assignments` — model_matrices.py 33-53; `one` is the name "1". -/
def matMask (one : N) (lav obs : Finset N) (r : MRow N) (i : ℕ) : Bool :=
  let mes := r.rel == R3.mes
  let reg := r.rel == R3.reg
  let cov := r.rel == R3.cov
  let mst := r.rhs == one
  let rvl := decide (r.rhs ∈ lav)
  let rvo := decide (r.rhs ∈ obs)
  let lvl := decide (r.lhs ∈ lav)
  let lol := decide (r.lhs ∈ obs)
  let dmy := r.dummy
  let rvb := rvl && rvo
  match i with
  | 0 => (mes && !rvl) || dmy
  | 1 => ((mes && rvb) || (mes && !rvo) || reg) && !dmy
  | 2 => (cov && !rvl) || (cov && lvl)
  | 3 => cov && !lvl
  | 4 => lol && !lvl && reg && mst
  | _ => lvl && reg && mst

/-- One pass of the loop of `_assign_matrices` — 91-105; the state is `(mat, r, c)`, missing
entries being `none`. -/
def assignStep (one : N) (lav obs : Finset N) (row : MRow N)
    (st : ℕ × Option (Cell N) × Option (Cell N)) (i : ℕ) : ℕ × Option (Cell N) × Option (Cell N) :=
  let m := matMask one lav obs row i
  let st :=
    if m then
      if i = 0 then (i, some (Cell.var row.rhs), some (Cell.var row.lhs))
      else if i < 4 then (i, some (Cell.var row.lhs), some (Cell.var row.rhs))
      else (i, some Cell.zero, some (Cell.var row.lhs))
    else st
  if i = 1 then
    if st.1 = 1 ∧ row.rel = R3.mes then (st.1, st.2.2, st.2.1) else st
  else st

/-- `_assign_matrices` for one row — 69-107. -/
def assign (one : N) (lav obs : Finset N) (row : MRow N) : ℕ × Option (Cell N) × Option (Cell N) :=
  (List.range 6).foldl (assignStep one lav obs row) (0, none, none)

/-- The symmetric branch of `sort_flat_representation` on one cell — variable_ordering.py 78-80. -/
def symCell (rc : ℕ × ℕ) : ℕ × ℕ := if rc.1 < rc.2 then (rc.2, rc.1) else rc

end assign

end Verif.Sem
