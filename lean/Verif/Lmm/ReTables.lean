import Mathlib.Data.Real.Basic
import Mathlib.Algebra.BigOperators.Group.Finset.Basic
import Mathlib.Algebra.BigOperators.Group.List.Basic

/-!
Model of the random effects of `LMM2` as tables, pylmm/re_mod.py: the levels of a grouping (`pd.factorize`, 363-365), the columns of the design
(`make_zinds`, 58-61, `_make_z_matrix` 398-402, `hstack` 530), the slices of the effects (`sizes_to_slices`, 43-46, 503), `predict` (1055-1060) and
`random_effects` (1151-1189).  The names of the columns `v0, v1, …` are their numbers; a missing group is `none`.
-/

namespace Verif.Lmm.ReTables

/-- A random effects term after `factorize`: the number of variables, of levels, the level of each observation, and the variables. -/
structure GTerm where
  nv : ℕ
  ng : ℕ
  code : ℕ → ℕ
  arr : ℕ → ℕ → ℝ

/-- `pd.factorize(gr, sort=False)[1]`: the levels in the order of their first appearance — 363. -/
def levels {α : Type} [DecidableEq α] (gr : List α) : List α := gr.foldl (fun acc g => if g ∈ acc then acc else acc ++ [g]) []

/-- `pd.factorize(gr, sort=False)[0]`; a missing value has the code -1, which is no column of the design: `none` — 363. -/
def codes {α : Type} [DecidableEq α] (gr : List (Option α)) : Option (List ℕ) :=
  gr.mapM fun g => g.map fun a => (levels (gr.filterMap id)).idxOf a

/-- `ranef_sl[k].start` — 503. -/
def off (ts : List GTerm) (k : ℕ) : ℕ := ((ts.take k).map fun t => t.ng * t.nv).sum

/-- Column of the stored entry `s` of the design of a term: `np.repeat(cols * n_rv, n_rv) + np.tile(np.arange(n_rv), n_ob)` — 58-61. -/
def zCol (t : GTerm) (s : ℕ) : ℕ := t.code (s / t.nv) * t.nv + s % t.nv

/-- Entry `i` of `Z.dot(u)`, the sum of the stored entries of the row over the terms — 398-402, 530, 1060. -/
def zDot (ts : List GTerm) (n : ℕ) (u : ℕ → ℝ) (i : ℕ) : ℝ :=
  ((List.range ts.length).map fun k =>
    match ts[k]? with
    | some t => ∑ s ∈ (Finset.range (n * t.nv)).filter (fun s => s / t.nv = i), t.arr (s / t.nv) (s % t.nv) * u (off ts k + zCol t s)
    | none => 0).sum

/-- `self.u[sl].reshape(ng, nv)` — 1160, 1170, 1181. -/
def table (ts : List GTerm) (u : ℕ → ℝ) (k nv j a : ℕ) : ℝ := u (off ts k + (j * nv + a))

/-- The rows of the `'multi'` frame with the number of its columns: `pd.concat` fills absent columns — 1162-1173. -/
def multi (ts : List GTerm) (u : ℕ → ℝ) : ℕ × List ((ℕ × ℕ) × (ℕ → Option ℝ)) :=
  ((ts.map GTerm.nv).foldl max 0,
   (List.range ts.length).flatMap fun k =>
    match ts[k]? with
    | some t => (List.range t.ng).map fun j => ((k, j), fun a => if a < t.nv then some (table ts u k t.nv j a) else none)
    | none => [])

/-- The rows of the `'long'` frame: term, level, variable, estimate, standard error — 1174-1188. -/
def long (ts : List GTerm) (u se : ℕ → ℝ) : List ((ℕ × ℕ × ℕ) × ℝ × ℝ) :=
  (List.range ts.length).flatMap fun k =>
    match ts[k]? with
    | some t => (List.range t.ng).flatMap fun j => (List.range t.nv).map fun a => ((k, j, a), table ts u k t.nv j a, table ts se k t.nv j a)
    | none => []

end Verif.Lmm.ReTables
