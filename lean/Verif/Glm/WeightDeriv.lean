import Verif.Glm.Families
/-!
# Model of the weight derivatives of `pyglm2/families.py` (175-233)

All four methods begin with a call of `self._check_args`, and `dw_deta` calls `get_w`, which calls
`self._get_a`.  No class defines either attribute.  `has` says whether the missing attributes exist
(`_check_args` returning its arguments, `_get_a` being `get_a`); in the code `has = false`.
-/
namespace Verif.Glm
open Real

/-- Raise `AttributeError` unless the attribute exists. -/
def attr (has : Bool) : Option Unit := if has then some () else none

/-- `da_dmu` — families.py 175-182. -/
noncomputable def daDmu (has : Bool) (F : Family) (l : LinkFns) (y mu k : ℝ) : Option ℝ := do
  attr has
  let V0 := F.V0 mu k
  let V1 := F.V1 mu k
  let V2 := F.V2 mu k
  let g1 := l.d1 mu
  let g2 := l.d2 mu
  let g3 := l.d3 mu
  let u := V1 / V0 + g2 / g1
  let v := V2 / V0 - (V1 / V0) ^ 2 + g3 / g1 - (g2 / g1) ^ 2
  some ((y - mu) * v - u)

/-- `d2a_dmu2` — families.py 184-195. -/
noncomputable def d2aDmu2 (has : Bool) (F : Family) (l : LinkFns) (y mu k : ℝ) : Option ℝ := do
  attr has
  let V0 := F.V0 mu k
  let V1 := F.V1 mu k
  let V2 := F.V2 mu k
  let V3 := F.V3 mu k
  let g1 := l.d1 mu
  let g2 := l.d2 mu
  let g3 := l.d3 mu
  let g4 ← l.d4 mu
  let u := V2 / V0 - (V1 / V0) ^ 2 + g3 / g1 - (g2 / g1) ^ 2
  let v1 := V3 / V0 - 3 * (V1 * V2) / V0 ^ 2 + 2 * (V1 / V0) ^ 3
  let v2 := g4 / g1 - 3 * (g3 * g2) / g1 ^ 2 + 2 * (g2 / g1) ^ 3
  some ((y - mu) * (v1 + v2) - 2 * u)

/-- `dw_deta` — families.py 197-205. -/
noncomputable def dwDeta (has : Bool) (F : Family) (l : LinkFns) (y mu k : ℝ) : Option ℝ := do
  attr has
  let a0 := getA F l y mu k
  let a1 ← daDmu has F l y mu k
  let w ← getW (if has then some fun y mu => getA F l y mu k else none) F l y mu k
  let V0 := F.V0 mu k
  let V1 := F.V1 mu k
  let g1 := l.d1 mu
  let g2 := l.d2 mu
  some (w / g1 * (a1 / a0 - V1 / V0 - 2 * g2 / g1))

/-- `d2w_deta2` — families.py 207-233. -/
noncomputable def d2wDeta2 (has : Bool) (F : Family) (l : LinkFns) (y mu k : ℝ) : Option ℝ := do
  attr has
  let V0 := F.V0 mu k
  let V1 := F.V1 mu k
  let V2 := F.V2 mu k
  let V3 := F.V3 mu k
  let g1 := l.d1 mu
  let g2 := l.d2 mu
  let g3 := l.d3 mu
  let g4 ← l.d4 mu
  let g21 := g2 / g1
  let g31 := g3 / g1
  let V10 := V1 / V0
  let V20 := V2 / V0
  let V30 := V3 / V0
  let V12 := V1 * V2
  let V10_sq := V10 ^ 2
  let V10_cb := V10 * V10_sq
  let g21_sq := g21 ^ 2
  let g21_cb := g21 * g21_sq
  let a0 := 1 + (y - mu) * (V10 + g21)
  let a1 := (y - mu) * (V20 - V10_sq + g31 - g21_sq) - (V10 + g21)
  let u := V20 - V10 ^ 2 + g31 - g21 ^ 2
  let v1 := V30 - 3 * V12 / V0 ^ 2 + 2 * V10_cb
  let v2 := g4 / g1 - 3 * (g3 * g2) / g1 ^ 2 + 2 * g21_cb
  let a2 := (y - mu) * (v1 + v2) - 2 * u
  let dmu := l.d1 mu
  let w0 := a0 / (dmu ^ 2 * V0)
  let w1 := w0 / g1 * (a1 / a0 - V10 - 2 * g21)
  let t1 := w1 ^ 2 / w0
  let t2 := w1 * g2 / g1 ^ 2
  let t3 := a2 / a0 - (a1 / a0) ^ 2 - V2 / V0 + (V1 / V0) ^ 2 - 2 * (g3 / g1) + 2 * (g2 / g1) ^ 2
  let t3 := t3 * (w0 / g1 ^ 2)
  some (t1 - t2 + t3)

end Verif.Glm
