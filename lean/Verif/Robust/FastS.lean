import Mathlib.Data.Real.Basic
import Mathlib.Data.List.Basic
/-!
Model of the search of `RobustSLM.fit` of `pystatsm/pyrobust/rls.py` (lines 221-269): the bookkeeping of the best subsamples and the choice at the
end.

Simplifications: a candidate is what the refining steps make of a subsample: its coefficients, whether `_s_est_eq` is negative at a scale, and its
scale `m_estimate_scale`.  At an infinite scale the former is minus `bd` and negative.  `refine` is the final `irls_step`.  The steps from the initial
fit (lines 227-229) are overwritten by the first subsample and left out.  For at most sixteen entries `np.argsort` is stable.
-/
namespace Verif.Robust
variable {β : Type*}

/-- A refined subsample. -/
structure FsCand (β : Type*) where
  coef : β
  neg : ℝ → Bool
  scale : ℝ

/-- `np.max(scales)` — 255. -/
noncomputable def fsMax (l : List (ℝ × β)) : ℝ := ((l.map Prod.fst).max?).getD 0

/-- `np.argsort(scales)[-1]` — 252: the last of the largest. -/
noncomputable def fsArg (l : List (ℝ × β)) : ℕ := l.length - 1 - l.reverse.findIdx fun x => decide (x.1 = fsMax l)

/-- One pass with `i > 0` — 247-255; `none` is the infinite `s_max`. -/
noncomputable def fsStep (st : List (ℝ × β) × Option ℝ) (c : FsCand β) : List (ℝ × β) × Option ℝ :=
  if (match st.2 with | none => true | some s => c.neg s) then
    let l := st.1.set (fsArg st.1) (c.scale, c.coef)
    (l, some (fsMax l))
  else st

/-- The loop — 230-260: `n` is `n_subsample`, `zero` the coefficients before any are stored; without subsamples to keep, storing raises. -/
noncomputable def fsLoop (n : ℕ) (zero : β) : List (FsCand β) → Option (List (ℝ × β))
  | [] => some (List.replicate n (10 ^ 12, zero))
  | c :: cs =>
    if n = 0 then none
    else some (cs.foldl fsStep ((List.replicate n (10 ^ 12, zero)).set (n - 1) (c.scale, c.coef), none)).1

/-- The last loop — 261-268: the smallest refined scale, from the last entry to the first; `none` is infinite. -/
noncomputable def fsBest (refine : ℝ × β → ℝ × β) (l : List (ℝ × β)) : Option (ℝ × β) :=
  l.reverse.foldl (fun acc x =>
    let r := refine x
    match acc with
    | none => some r
    | some a => if r.1 < a.1 then some r else some a) none

end Verif.Robust
