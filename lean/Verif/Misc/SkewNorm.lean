import Verif.Misc.Expr

/-!
# The skew normal distribution: derivatives of the log density
-/

namespace Verif.Misc.SkewNorm

open Expr

/-- Argument `obs`. -/
abbrev obs : Expr := inp 0
/-- Argument `m`. -/
abbrev m : Expr := inp 1
/-- Argument `s`. -/
abbrev s : Expr := inp 2
/-- Argument `v`. -/
abbrev v : Expr := inp 3

/-- The assignments of `_d1logpdf` (`/repo/pystatsm/misc/skewnorm_dist.py:42-56`). -/
def body1 : List Expr := [
  npow s 2,
  1 / 2 * x 0,
  npow s 1,
  fn .sqrt 2,
  v * x 2 * x 3,
  -m + obs,
  (x 5) ^ 2,
  fn .exp ((-v ^ 2) * x 1 * x 6) / (fn .sqrt pi * (fn .erf (1 / 2 * x 4 * x 5) + 1)),
  x 3 * x 5 * x 7,
  -- `m1`
  (-x 1) * (2 * m - 2 * obs) - x 4 * x 7,
  -- `s1`
  (-v) * x 0 * x 8 - x 2 + x 6 / s ^ 3,
  -- `v1`
  x 2 * x 8]

/-- `g`: the returned entries in order. -/
def g1 : List Expr := [
  x 9,
  x 10,
  x 11]

/-- The assignments of `_d2logpdf` (`/repo/pystatsm/misc/skewnorm_dist.py:58-90`). -/
def body2 : List Expr := [
  npow s 2,
  v ^ 2,
  fn .sqrt 2,
  npow s 1,
  m - obs,
  x 3 * x 4,
  v * x 5,
  fn .erf (1 / 2 * x 2 * x 6) - 1,
  x 0 * (x 4) ^ 2,
  x 1 * x 8,
  fn .exp (-x 9) / pi,
  2 * x 10 / (x 7) ^ 2,
  x 1 * x 11,
  v ^ 3,
  npow (x 7) 1,
  x 2 * fn .exp ((-1) / 2 * x 9) / fn .sqrt pi,
  1 * x 15,
  x 14 * x 16,
  x 13 * x 17,
  x 14 * x 8,
  x 16 * x 9,
  2 * x 14,
  x 10 * x 21,
  x 22 * x 6,
  -- `mm`
  (-x 0) * (x 12 + x 18 * x 5 + 1),
  -- `ms`
  x 0 * ((-v) * x 17 + x 12 * x 5 + x 13 * x 16 * x 19 + 2 * x 5),
  -- `mv`
  x 14 * x 3 * (x 16 - x 20 - x 23),
  -- `ss`
  x 0 * ((-x 11) * x 9 + x 15 * x 21 * x 6 - 3 * x 8 + 2 - x 18 * (x 4) ^ 3 / s ^ 3) - x 0,
  -- `sv`
  x 0 * x 14 * x 4 * (-x 16 + x 20 + x 23),
  -- `vv`
  (-x 19) * (x 16 * x 6 + x 22)]

/-- `g`: the returned entries in order. -/
def g2 : List Expr := [
  x 24,
  x 25,
  x 26,
  x 27,
  x 28,
  x 29]

/-- The assignments of `_d3logpdf` (`/repo/pystatsm/misc/skewnorm_dist.py:92-162`). -/
def body3 : List Expr := [
  v ^ 3,
  fn .sqrt 2,
  m - obs,
  x 2 / s,
  v * x 3,
  x 1 * x 4,
  fn .erf (1 / 2 * x 5) - 1,
  npow (x 6) 2,
  fn (.rpow (-3 / 2)) pi,
  v ^ 2,
  npow s 2,
  (x 2) ^ 2,
  x 10 * x 11,
  x 12 * x 9,
  fn .exp ((-3) / 2 * x 13),
  4 * x 1 * x 14 * x 8,
  x 15 * x 7,
  x 1 * fn .exp ((-1) / 2 * x 13) / fn .sqrt pi,
  x 13 * x 17,
  fn .exp (-x 13) / pi,
  6 * x 3,
  npow (x 6) 1,
  v * x 21,
  x 20 * x 22,
  -x 17 + x 19 * x 23,
  npow s 3,
  x 21 * x 25,
  x 26 * (x 16 + x 18 + x 24),
  4 * x 19,
  x 7 * x 9,
  v ^ 4,
  6 * x 19,
  x 30 * x 31 * x 7,
  x 0 * x 3,
  x 15 / (x 6) ^ 3,
  3 * x 17,
  v ^ 5,
  (x 2) ^ 3,
  x 17 * x 37,
  x 26 * x 38,
  x 35 * x 4,
  x 0 * x 25,
  x 38 * x 41,
  x 21 * x 28,
  4 * x 14 * x 5 * x 7 * x 8,
  x 13 * x 21 * x 31,
  x 10 * x 21,
  x 46 * (-x 40 + x 42 - x 43 + x 44 + x 45),
  2 * x 17,
  8 * x 19,
  npow s 4,
  (x 2) ^ 4,
  x 17 * x 50 * x 51,
  x 21 * x 36,
  x 0 * x 12,
  x 30 * x 52,
  x 0 * x 26 * x 31 * x 37,
  x 13 * x 16,
  -- `mmm`
  x 0 * x 27,
  -- `mms`
  x 25 * ((-x 12) * x 32 + x 21 * x 33 * x 35 + x 28 * x 29 - x 33 * x 34 - x 36 * x 39 + 2),
  -- `mmv`
  v * x 47,
  -- `mss`
  x 25 * ((-5) * x 17 * x 21 * x 54 - x 20 + x 22 * x 48 + x 25 * x 32 * x 37 - x 29 * x 3 * x 49 +
    x 34 * x 54 + x 52 * x 53),
  -- `msv`
  x 46 * (4 * x 18 + x 24 - x 55 - x 56 - x 57),
  -- `mvv`
  x 2 * x 47,
  -- `sss`
  x 25 * (7 * x 0 * x 39 + 12 * x 12 + 12 * x 13 * x 19 * x 7 - x 17 * x 23 - x 32 * x 50 * x 51 -
    x 34 * x 37 * x 41 - 4 - x 17 * (x 2) ^ 5 * x 53 / s ^ 5) + 2 / s ^ 3,
  -- `ssv`
  x 2 * x 26 * ((-5) * x 18 - x 21 * x 4 * x 49 + x 48 + x 55 + x 56 + x 57),
  -- `svv`
  x 11 * x 26 * (x 40 - x 42 + x 43 - x 44 - x 45),
  -- `vvv`
  x 27 * x 37]

/-- `g`: the returned entries in order. -/
def g3 : List Expr := [
  x 58,
  x 59,
  x 60,
  x 61,
  x 62,
  x 63,
  x 64,
  x 65,
  x 66,
  x 67]

/-- The assignments of `_d4logpdf` (`/repo/pystatsm/misc/skewnorm_dist.py:164-280`). -/
def body4 : List Expr := [
  v ^ 4,
  fn .sqrt 2,
  v ^ 2,
  npow s 2,
  m - obs,
  (x 4) ^ 2,
  x 3 * x 5,
  x 2 * x 6,
  x 1 * fn .exp ((-1) / 2 * x 7) / fn .sqrt pi,
  3 * x 8,
  x 4 / s,
  v * x 10,
  npow s 3,
  v ^ 3,
  (x 4) ^ 3,
  x 13 * x 14,
  x 12 * x 15,
  x 16 * x 8,
  x 1 * x 11,
  fn .erf (1 / 2 * x 18) - 1,
  npow (x 19) 3,
  24 * x 20,
  fn .exp ((-2) * x 7) / pi ^ 2,
  x 21 * x 22,
  npow (x 19) 1,
  fn .exp (-x 7) / pi,
  x 24 * x 25,
  8 * x 26,
  24 * x 10,
  v * x 28,
  npow (x 19) 2,
  fn (.rpow (-3 / 2)) pi,
  fn .exp ((-3) / 2 * x 7),
  x 1 * x 31 * x 32,
  x 30 * x 33,
  x 29 * x 34,
  x 26 * x 7,
  npow s 4,
  x 24 * x 37,
  x 38 * (x 11 * x 9 - x 17 - x 23 + x 27 - x 35 - 14 * x 36),
  (x 4) ^ 4,
  x 37 * x 40,
  x 0 * x 41,
  x 42 * x 8,
  6 * x 8,
  x 44 * x 7,
  12 * x 30,
  x 33 * x 46,
  x 20 * x 22 * x 29,
  x 11 * x 26,
  26 * x 49,
  14 * x 25,
  x 12 * x 24,
  x 15 * x 52,
  x 51 * x 53,
  24 * x 34,
  x 55 * x 7,
  x 38 * (x 43 - x 45 - x 47 + x 48 - x 50 + x 54 + x 56 + x 9),
  x 52 * (-x 43 + x 45 + x 47 - x 48 + x 50 - x 54 - x 56 - x 9),
  x 2 * x 25,
  x 0 * x 6,
  24 * x 22 / (x 19) ^ 4,
  v ^ 6,
  x 30 * x 51 * x 62,
  x 25 * x 30,
  x 20 * x 33,
  x 13 * x 65,
  x 13 * x 24 * x 8,
  x 12 * x 14,
  v ^ 5,
  x 21 * x 33,
  x 69 * x 70,
  (x 4) ^ 5 / s ^ 5,
  v ^ 7 * x 24,
  x 73 * x 8,
  x 69 * x 8,
  x 11 * x 8,
  x 72 * x 75,
  x 18 * x 30 * x 31 * x 32,
  x 23 * x 7,
  14 * x 26,
  x 42 * x 80,
  x 16 * x 55,
  x 52 * ((-8) * x 17 + x 27 - 38 * x 36 + 9 * x 76 + x 77 - 20 * x 78 + x 79 + x 81 + x 82),
  -x 77 - x 79 - x 81 - x 82,
  v * x 24,
  36 * x 30,
  x 0 * x 68,
  npow s 6,
  (x 4) ^ 6,
  x 8 * x 88 * x 89,
  x 62 * x 90,
  x 7 * x 8,
  x 16 * x 23,
  x 69 * x 72,
  x 80 * x 94,
  x 25 * x 53,
  x 42 * x 55,
  -- `mmmm`
  x 0 * x 39,
  -- `mmms`
  x 13 * x 57,
  -- `mmmv`
  x 2 * x 58,
  -- `mmss`
  x 37 * ((-12) * x 10 * x 67 + 9 * x 14 * x 52 * x 75 + x 28 * x 66 - x 41 * x 63 - x 46 * x 59 -
    x 60 * x 61 + 44 * x 60 * x 64 - x 68 * x 71 - x 72 * x 74 - 6),
  -- `mmsv`
  v * x 83,
  -- `mmvv`
  x 24 * x 3 * ((-x 11) * x 44 + 7 * x 17 - 4 * x 26 + 32 * x 36 + 16 * x 78 + x 84),
  -- `msss`
  x 37 * (x 10 * x 59 * x 86 + x 28 - 12 * x 38 * x 40 * x 75 + x 41 * x 71 - x 44 * x 85 - 36 * x
    6 * x 66 + 27 * x 6 * x 67 + x 61 * x 87 + x 63 * x 72 - 62 * x 64 * x 87 + x 73 * x 90),
  -- `mssv`
  x 52 * (28 * x 34 * x 7 + 10 * x 43 - 20 * x 49 + 2 * x 8 - x 91 - 17 * x 92 - x 93 - x 95 + 50 *
    x 96 - x 97),
  -- `msvv`
  x 4 * x 83,
  -- `mvvv`
  x 5 * x 58,
  -- `ssss`
  x 37 * (48 * x 16 * x 65 + 15 * x 24 * x 77 + x 28 * x 8 * x 85 - x 42 * x 61 + 80 * x 42 * x 64
    - 48 * x 53 * x 8 - 60 * x 6 - x 63 * x 88 * x 89 - 72 * x 64 * x 7 - x 70 * x 94 + 12 - (x 4)
    ^ 7 * x 74 / s ^ 7) - 6 / s ^ 4,
  -- `sssv`
  x 38 * x 4 * ((-x 33) * x 7 * x 86 - 12 * x 43 - x 44 + 36 * x 49 + x 91 + 27 * x 92 + x 93 + x
    95 - 62 * x 96 + x 97),
  -- `ssvv`
  x 38 * x 5 * (9 * x 17 - 12 * x 26 + x 35 + 44 * x 36 - 12 * x 76 + x 84),
  -- `svvv`
  x 14 * x 57,
  -- `vvvv`
  x 39 * x 40]

/-- `g`: the returned entries in order. -/
def g4 : List Expr := [
  x 98,
  x 99,
  x 100,
  x 101,
  x 102,
  x 103,
  x 104,
  x 105,
  x 106,
  x 107,
  x 108,
  x 109,
  x 110,
  x 111,
  x 112]

/-- `_d1logpdf`, …, `_d4logpdf`. -/
def prog : ℕ → Prog
  | 1 => ⟨body1, [g1]⟩
  | 2 => ⟨body2, [g2]⟩
  | 3 => ⟨body3, [g3]⟩
  | _ => ⟨body4, [g4]⟩

end Verif.Misc.SkewNorm
