import Verif.Misc.Expr

/-!
# The sinh-arcsinh distribution of `sinharcsinh_dist.py`: gradient and Hessian
-/

namespace Verif.Misc.Sad

open Expr

/-- Argument `obs`. -/
abbrev obs : Expr := inp 0
/-- Argument `m`. -/
abbrev m : Expr := inp 1
/-- Argument `s`. -/
abbrev s : Expr := inp 2
/-- Argument `v`. -/
abbrev v : Expr := inp 3
/-- Argument `t`. -/
abbrev t : Expr := inp 4

/-- The assignments of the four functions that `_grad_elementwise` calls, one after the other
(`/repo/pystatsm/misc/sinharcsinh_dist.py`, lines at each function). -/
def gradBody : List Expr := [
  -- `_dL_dmu` (`:46-52`)
  -- `z`
  (obs - m) / s,
  -- `y`
  fn .arcsinh (x 0) * t - v,
  -- `r`
  fn .sinh (x 1),
  -- `c`
  fn .cosh (x 1),
  -- `w`
  fn .sqrt (1 + (x 0) ^ 2),
  -- `rt`
  x 2 * t,
  -- `sw`
  s * x 4,
  -- `g`
  (x 5 * x 3 - x 5 / x 3) / x 6 + x 0 / (x 6 * x 4),
  -- `_dL_dsigma` (`:133-142`)
  -- `z`
  (obs - m) / s,
  -- `y`
  fn .arcsinh (x 8) * t - v,
  -- `r`
  fn .sinh (x 9),
  -- `c`
  fn .cosh (x 9),
  -- `w`
  fn .sqrt (1 + (x 8) ^ 2),
  -- `f1`
  x 8 * x 10 * t * x 11 / (x 12 * s),
  -- `f2`
  (-(x 8 * x 10 * t)) / (x 12 * s * x 11),
  -- `f3`
  (x 8) ^ 2 / ((x 12) ^ 2 * s),
  -- `f4`
  -(1 / s),
  -- `g`
  x 13 + x 14 + x 15 + x 16,
  -- `_dL_dnu` (`:208-213`)
  -- `z`
  (obs - m) / s,
  -- `y`
  fn .arcsinh (x 18) * t - v,
  -- `r`
  fn .sinh (x 19),
  -- `c`
  fn .cosh (x 19),
  -- `g`
  x 20 * x 21 - x 20 / x 21,
  -- `_dL_dtau` (`:236-242`)
  -- `z`
  (obs - m) / s,
  -- `u`
  fn .arcsinh (x 23),
  -- `y`
  t * x 24 - v,
  -- `r`
  fn .sinh (x 25),
  -- `c`
  fn .cosh (x 25),
  -- `g`
  (x 26 / x 27 - x 26 * x 27) * x 24 + 1 / t]

/-- `_grad_elementwise` (`/repo/pystatsm/misc/sinharcsinh_dist.py:258-265`). -/
def grad : Prog := ⟨gradBody, [[x 7, x 17, x 22, x 28]]⟩

/-- The assignments of the ten functions that `_hess_elementwise` calls, one after the other
(`/repo/pystatsm/misc/sinharcsinh_dist.py`, lines at each function). -/
def hessBody : List Expr := [
  -- `_d2L_dmu2` (`:54-68`)
  -- `z`
  (obs - m) / s,
  -- `y`
  fn .arcsinh (x 0) * t - v,
  -- `r`
  fn .sinh (x 1),
  -- `c`
  fn .cosh (x 1),
  -- `w`
  fn .sqrt (1 + (x 0) ^ 2),
  -- `t2`
  t ^ 2,
  -- `s2`
  s ^ 2,
  -- `w2`
  (x 4) ^ 2,
  -- `w3`
  x 7 * x 4,
  -- `w4`
  x 8 * x 4,
  -- `c2`
  (x 3) ^ 2,
  -- `r2`
  (x 2) ^ 2,
  -- `f1`
  t * x 2 * x 0 * (x 10 - 1) / (x 6 * x 8 * x 3),
  -- `f2`
  2 * (x 0) ^ 2 / (x 6 * x 9),
  -- `f3`
  (x 5 - x 5 * (x 11 + x 10) - 1) / (x 6 * x 7),
  -- `f4`
  (-(x 5 * x 11)) / (x 6 * x 7 * x 10),
  -- `H`
  x 12 + x 13 + x 14 + x 15,
  -- `_d2L_dmu_dsigma` (`:70-92`)
  -- `z`
  (obs - m) / s,
  -- `y`
  fn .arcsinh (x 17) * t - v,
  -- `r`
  fn .sinh (x 18),
  -- `c`
  fn .cosh (x 18),
  -- `w`
  fn .sqrt (1 + (x 17) ^ 2),
  -- `f11`
  (-(t * x 19 * x 20)) / (s ^ 2 * x 21),
  -- `f12`
  (-(t ^ 2 * (x 19) ^ 2 * x 17)) / (s ^ 2 * (x 21) ^ 2),
  -- `f13`
  (-(t ^ 2 * (x 20) ^ 2 * x 17)) / (s ^ 2 * (x 21) ^ 2),
  -- `f14`
  t * x 19 * x 20 * (x 17) ^ 2 / (s ^ 2 * (x 21) ^ 3),
  -- `f1`
  x 22 + x 23 + x 24 + x 25,
  -- `f21`
  t * x 19 / (x 20 * x 21 * s ^ 2),
  -- `f22`
  (-(t ^ 2 * (x 19) ^ 2 * x 17)) / ((x 20) ^ 2 * (x 21) ^ 2 * s ^ 2),
  -- `f23`
  t ^ 2 * x 17 / ((x 21) ^ 2 * s ^ 2),
  -- `f24`
  (-(t * (x 17) ^ 2 * x 19)) / (x 20 * (x 21) ^ 3 * s ^ 2),
  -- `f2`
  x 27 + x 28 + x 29 + x 30,
  -- `f31`
  2 * (x 17) ^ 3 / ((x 21) ^ 4 * s ^ 2),
  -- `f32`
  (-(2 * x 17)) / ((x 21) ^ 2 * s ^ 2),
  -- `f3`
  x 32 + x 33,
  -- `f`
  x 26 + x 31 + x 34,
  -- `_d2L_dmu_dnu` (`:94-110`)
  -- `z`
  (obs - m) / s,
  -- `y`
  fn .arcsinh (x 36) * t - v,
  -- `r`
  fn .sinh (x 37),
  -- `c`
  fn .cosh (x 37),
  -- `w`
  fn .sqrt (1 + (x 36) ^ 2),
  -- `f11`
  (-(t * (x 38) ^ 2)) / (s * x 40),
  -- `f12`
  (-(t * (x 39) ^ 2)) / (s * x 40),
  -- `f1`
  x 41 + x 42,
  -- `f21`
  (-(t * (x 38) ^ 2)) / ((x 39) ^ 2 * s * x 40),
  -- `f22`
  t / (s * x 40),
  -- `f2`
  x 44 + x 45,
  -- `f`
  x 43 + x 46,
  -- `_d2L_dmu_dtau` (`:112-131`)
  -- `z`
  (obs - m) / s,
  -- `u`
  fn .arcsinh (x 48),
  -- `y`
  x 49 * t - v,
  -- `r`
  fn .sinh (x 50),
  -- `c`
  fn .cosh (x 50),
  -- `w`
  fn .sqrt (1 + (x 48) ^ 2),
  -- `f11`
  x 49 * t * (x 51) ^ 2 / (s * x 53),
  -- `f12`
  x 49 * t * (x 52) ^ 2 / (s * x 53),
  -- `f13`
  x 52 * x 51 / (s * x 53),
  -- `f1`
  x 54 + x 55 + x 56,
  -- `f21`
  x 49 * t * (x 51) ^ 2 / (s * x 53 * (x 52) ^ 2),
  -- `f22`
  (-x 51) / (s * x 53 * x 52),
  -- `f23`
  (-(x 49 * t)) / (s * x 53),
  -- `f2`
  x 58 + x 59 + x 60,
  -- `f`
  x 57 + x 61,
  -- `_d2L_dsigma2` (`:144-168`)
  -- `z`
  (obs - m) / s,
  -- `y`
  fn .arcsinh (x 63) * t - v,
  -- `r`
  fn .sinh (x 64),
  -- `c`
  fn .cosh (x 64),
  -- `w`
  fn .sqrt (1 + (x 63) ^ 2),
  -- `f11`
  (-2) * t * x 63 * x 66 * x 65 / (x 67 * s ^ 2),
  -- `f12`
  (-(t * x 63 * x 65) ^ 2) / ((x 67) ^ 2 * s ^ 2),
  -- `f13`
  (-(t * x 63 * x 66) ^ 2) / ((x 67) ^ 2 * s ^ 2),
  -- `f14`
  t * x 66 * x 65 * (x 63) ^ 3 / ((x 67) ^ 3 * s ^ 2),
  -- `f1`
  x 68 + x 69 + x 70 + x 71,
  -- `f21`
  2 * t * x 63 * x 65 / (x 67 * x 66 * s ^ 2),
  -- `f22`
  (-(t * x 63 * x 65) ^ 2) / (x 67 * x 66 * s) ^ 2,
  -- `f23`
  (t * x 63 / (x 67 * s)) ^ 2,
  -- `f24`
  (-(t * x 65 * (x 63) ^ 3)) / ((x 67) ^ 3 * x 66 * s ^ 2),
  -- `f2`
  x 73 + x 74 + x 75 + x 76,
  -- `f31`
  2 * (x 63) ^ 4 / ((x 67) ^ 4 * s ^ 2),
  -- `f32`
  (-(3 * (x 63) ^ 2)) / ((x 67) ^ 2 * s ^ 2),
  -- `f3`
  x 78 + x 79,
  -- `f4`
  1 / s ^ 2,
  -- `f`
  x 72 + x 77 + x 80 + x 81,
  -- `_d2L_dsigma_dnu` (`:170-186`)
  -- `z`
  (obs - m) / s,
  -- `y`
  fn .arcsinh (x 83) * t - v,
  -- `r`
  fn .sinh (x 84),
  -- `c`
  fn .cosh (x 84),
  -- `w`
  fn .sqrt (1 + (x 83) ^ 2),
  -- `f11`
  (-(t * x 83 * (x 85) ^ 2)) / (s * x 87),
  -- `f12`
  (-(t * x 83 * (x 86) ^ 2)) / (s * x 87),
  -- `f1`
  x 88 + x 89,
  -- `f21`
  t * x 83 / (s * x 87),
  -- `f22`
  (-(t * (x 85) ^ 2 * x 83)) / (s * x 87 * (x 86) ^ 2),
  -- `f2`
  x 91 + x 92,
  -- `f`
  x 90 + x 93,
  -- `_d2L_dsigma_dtau` (`:188-205`)
  -- `z`
  (obs - m) / s,
  -- `u`
  fn .arcsinh (x 95),
  -- `y`
  x 96 * t - v,
  -- `r`
  fn .sinh (x 97),
  -- `c`
  fn .cosh (x 97),
  -- `w`
  fn .sqrt (1 + (x 95) ^ 2),
  -- `f11`
  x 95 * x 96 * t * (x 98) ^ 2 / (s * x 100),
  -- `f12`
  x 95 * x 96 * t * (x 99) ^ 2 / (s * x 100),
  -- `f13`
  x 95 * x 99 * x 98 / (s * x 100),
  -- `f1`
  x 101 + x 102 + x 103,
  -- `f21`
  x 95 * x 96 * t * (x 98) ^ 2 / (s * x 100 * (x 99) ^ 2),
  -- `f22`
  (-(x 95 * x 98)) / (s * x 100 * x 99),
  -- `f23`
  (-(x 95 * x 96 * t)) / (s * x 100),
  -- `f2`
  x 105 + x 106 + x 107,
  -- `f`
  x 104 + x 108,
  -- `_d2L_dnu2` (`:215-220`)
  -- `z`
  (obs - m) / s,
  -- `y`
  fn .arcsinh (x 110) * t - v,
  -- `r`
  fn .sinh (x 111),
  -- `c`
  fn .cosh (x 111),
  -- `g`
  1 - (x 112) ^ 2 / (x 113) ^ 2 - (x 112) ^ 2 - (x 113) ^ 2,
  -- `_d2L_dnu_dtau` (`:222-234`)
  -- `z`
  (obs - m) / s,
  -- `u`
  fn .arcsinh (x 115),
  -- `y`
  t * x 116 - v,
  -- `r`
  fn .sinh (x 117),
  -- `c`
  fn .cosh (x 117),
  -- `f1`
  x 116 * (x 118) ^ 2 / (x 119) ^ 2,
  -- `f2`
  x 116 * (x 118) ^ 2,
  -- `f3`
  x 116 * (x 119) ^ 2,
  -- `f4`
  -x 116,
  -- `f`
  x 120 + x 121 + x 122 + x 123,
  -- `_d2L_dtau2` (`:244-255`)
  -- `z`
  (obs - m) / s,
  -- `u`
  fn .arcsinh (x 125),
  -- `y`
  t * x 126 - v,
  -- `r`
  fn .sinh (x 127),
  -- `c`
  fn .cosh (x 127),
  -- `f1`
  (-((x 126) ^ 2 * (x 128) ^ 2)) / (x 129) ^ 2,
  -- `f2`
  -((x 126) ^ 2 * (x 128) ^ 2),
  -- `f3`
  -((x 126) ^ 2 * (x 129) ^ 2),
  -- `f4`
  (x 126) ^ 2 - 1 / t ^ 2,
  -- `f`
  x 130 + x 131 + x 132 + x 133]

abbrev e_m2 : Expr := x 16
abbrev e_ms : Expr := x 35
abbrev e_mv : Expr := x 47
abbrev e_mt : Expr := x 62
abbrev e_s2 : Expr := x 82
abbrev e_sv : Expr := x 94
abbrev e_st : Expr := x 109
abbrev e_v2 : Expr := x 114
abbrev e_vt : Expr := x 124
abbrev e_t2 : Expr := x 134

/-- `_hess_elementwise` (`/repo/pystatsm/misc/sinharcsinh_dist.py:268-286`): array 0 holds the second derivatives `m2, ms, …, t2`,
arrays 1 to 4 the rows of `H`.  (The code joins `r1`, …, `r4` as columns.) -/
def hess : Prog := ⟨hessBody, [
  [e_m2, e_ms, e_mv, e_mt, e_s2, e_sv, e_st, e_v2, e_vt, e_t2],
  [e_m2, e_ms, e_mv, e_mt],
  [e_ms, e_s2, e_sv, e_st],
  [e_mv, e_sv, e_v2, e_vt],
  [e_mt, e_st, e_vt, e_t2]]⟩

/-- `_grad` (`/repo/pystatsm/misc/sinharcsinh_dist.py:289-296`): entry `k`, summed over the observations. -/
noncomputable def gradSum (xs : List ℝ) (θ : ℕ → ℝ) (k : ℕ) : ℝ :=
  (xs.map fun y => ((grad.block 0 [y, θ 0, θ 1, θ 2, θ 3]).getD []).getD k 0).sum

/-- `_hess` (`/repo/pystatsm/misc/sinharcsinh_dist.py:298-315`): entry `i, j`, summed over the observations. -/
noncomputable def hessSum (xs : List ℝ) (θ : ℕ → ℝ) (i j : ℕ) : ℝ :=
  (xs.map fun y => ((hess.block (i + 1) [y, θ 0, θ 1, θ 2, θ 3]).getD []).getD j 0).sum

end Verif.Misc.Sad
