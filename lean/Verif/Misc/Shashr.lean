import Verif.Misc.Expr

/-!
# The sinh-arcsinh distribution with logarithmic scale and tail parameters
-/

namespace Verif.Misc.Shashr

open Expr

/-- Argument `y`. -/
abbrev y : Expr := inp 0
/-- Argument `m`. -/
abbrev m : Expr := inp 1
/-- Argument `s`. -/
abbrev s : Expr := inp 2
/-- Argument `t`. -/
abbrev t : Expr := inp 3
/-- Argument `v`. -/
abbrev v : Expr := inp 4

/-- `CONST` (`/repo/pystatsm/misc/shashr_lpdf1.py:10`, the same in the other files). -/
def const : Expr := -(1 / 2) * fn .log pi - 1 / 2 * fn .log 2

/-- `lnp` (`/repo/pystatsm/misc/shashr_lpdf1.py:14-15`, the same in the other files). -/
def lnp : Expr :=
  t - 1 / 2 * fn .log (m ^ 2 - 2 * m * y + y ^ 2 + fn .exp (2 * s))
    + fn .log (fn .cosh (x 0)) - 1 / 2 * (fn .sinh (x 0)) ^ 2 + const

/-- The assignments `x0`, `x1`, … of `_logpdf1` (`/repo/pystatsm/misc/shashr_lpdf1.py:12-39`). -/
def body1 : List Expr := [
  v + fn .exp t * fn .arcsinh ((m - y) * fn .exp (-s)),
  2 * y,
  2 * s,
  fn .exp (x 2),
  1 / (m ^ 2 - m * x 1 + x 3 + y ^ 2),
  fn .exp t,
  fn .exp (-s),
  m - y,
  x 6 * x 7,
  x 5 * fn .arcsinh (x 8),
  v + x 9,
  fn .sinh (x 10),
  fn .cosh (x 10),
  x 11 * x 12,
  1 / fn .sqrt ((x 7) ^ 2 * fn .exp (-x 2) + 1),
  x 14 * x 5,
  1 / x 12,
  x 11 * x 16]

/-- `d1L` of `_logpdf1`. -/
def d1L1 : List Expr := [
  (-m) * x 4 + 1 / 2 * x 1 * x 4 + x 11 * x 14 * x 16 * x 5 * x 6 - x 13 * x 15 * x 6,
  x 11 * x 12 * x 14 * x 5 * x 6 * x 7 - x 15 * x 17 * x 8 - x 3 * x 4,
  (-x 13) * x 9 + x 17 * x 9 + 1,
  x 11 * x 16 - x 13]

/-- `_logpdf1` (`/repo/pystatsm/misc/shashr_lpdf1.py:12-39`): the log density and the arrays of its derivatives. -/
def logpdf1 : Prog := ⟨body1, [[lnp], d1L1]⟩

/-- The assignments `x0`, `x1`, … of `_logpdf2` (`/repo/pystatsm/misc/shashr_lpdf2.py:12-97`). -/
def body2 : List Expr := [
  v + fn .exp t * fn .arcsinh ((m - y) * fn .exp (-s)),
  2 * y,
  2 * s,
  fn .exp (x 2),
  m ^ 2 - m * x 1 + x 3 + y ^ 2,
  1 / x 4,
  2 * m - x 1,
  1 / 2 * x 6,
  fn .exp t,
  fn .exp (-s),
  m - y,
  x 10 * x 9,
  fn .arcsinh (x 11),
  x 12 * x 8,
  v + x 13,
  fn .sinh (x 14),
  fn .cosh (x 14),
  x 15 * x 16,
  fn .exp (-x 2),
  (x 10) ^ 2,
  x 18 * x 19,
  x 20 + 1,
  1 / fn .sqrt (x 21),
  x 22 * x 9,
  x 23 * x 8,
  1 / x 16,
  x 15 * x 25,
  x 17 * x 24 - x 24 * x 26,
  x 3 * x 5,
  x 11 * x 22,
  x 29 * x 8,
  x 17 * x 30,
  x 26 * x 30,
  x 13 * x 17,
  fn .exp (2 * t),
  1 / x 21,
  npow (x 4) 2,
  (x 15) ^ 2,
  x 34 * x 35,
  x 18 * x 38,
  x 37 * x 39,
  (x 16) ^ 2,
  x 39 * x 41,
  x 37 / x 41,
  fn .exp ((-3) * s),
  fn (.rpow (-3 / 2)) (x 21),
  x 44 * x 45 * x 8,
  x 10 * x 39,
  x 19 * x 46,
  x 12 * x 34,
  x 23 * x 49,
  x 20 * x 38,
  (x 10) ^ 3,
  x 31 - x 32,
  x 29 * x 49,
  (x 12) ^ 2,
  x 34 * x 55,
  x 26 * x 46,
  x 37 + x 41 + x 43 - 1]

/-- `d1L` of `_logpdf2`. -/
def d1L2 : List Expr := [
  -x 27 - x 5 * x 7,
  -x 28 + x 31 - x 32,
  x 13 * x 26 - x 33 + 1,
  x 15 * x 25 - x 17]

/-- `d2L` of `_logpdf2`. -/
def d2L2 : List Expr := [
  1 / 2 * x 15 * x 16 * x 44 * x 45 * x 6 * x 8 + x 18 * x 34 * x 35 + x 36 * x 6 * x 7 - x 39 * x
    43 - x 40 - x 42 - x 5 - x 57 * x 7,
  x 10 * x 40 + x 10 * x 42 - x 17 * x 48 + x 26 * x 48 + x 27 + x 3 * x 36 * x 6 + x 43 * x 47 - x
    47,
  x 12 * x 22 * x 34 * x 9 - x 27 - x 37 * x 50 - x 41 * x 50 - x 43 * x 50,
  x 22 * x 8 * x 9 - x 24 * x 37 - x 24 * x 41 - x 24 * x 43,
  x 15 * x 16 * x 44 * x 45 * x 52 * x 8 + x 18 * x 19 * x 34 * x 35 - 2 * x 28 + 2 * x 36 * fn
    .exp (4 * s) - x 37 * x 51 - x 41 * x 51 - x 43 * x 51 - x 52 * x 57 - x 53,
  x 37 * x 54 + x 41 * x 54 + x 43 * x 54 + x 53 - x 54,
  x 30 * x 58,
  x 12 * x 15 * x 25 * x 8 - x 33 + x 34 * x 55 - x 37 * x 56 - x 41 * x 56 - x 43 * x 56,
  x 12 * x 8 - x 13 * x 37 - x 13 * x 41 - x 13 * x 43,
  -x 58]

/-- `_logpdf2` (`/repo/pystatsm/misc/shashr_lpdf2.py:12-97`): the log density and the arrays of its derivatives. -/
def logpdf2 : Prog := ⟨body2, [[lnp], d1L2, d2L2]⟩

/-- The assignments `x0`, `x1`, … of `_logpdf3` (`/repo/pystatsm/misc/shashr_lpdf3.py:11-215`). -/
def body3 : List Expr := [
  v + fn .exp t * fn .arcsinh ((m - y) * fn .exp (-s)),
  2 * y,
  2 * s,
  fn .exp (x 2),
  m ^ 2 - m * x 1 + x 3 + y ^ 2,
  1 / x 4,
  2 * m - x 1,
  1 / 2 * x 6,
  fn .exp t,
  fn .exp (-s),
  m - y,
  x 10 * x 9,
  fn .arcsinh (x 11),
  x 12 * x 8,
  v + x 13,
  fn .sinh (x 14),
  fn .cosh (x 14),
  x 15 * x 16,
  fn .exp (-x 2),
  (x 10) ^ 2,
  x 18 * x 19,
  x 20 + 1,
  1 / fn .sqrt (x 21),
  x 22 * x 9,
  x 23 * x 8,
  1 / x 16,
  x 15 * x 25,
  x 17 * x 24 - x 24 * x 26,
  x 3 * x 5,
  x 11 * x 22,
  x 29 * x 8,
  x 17 * x 30,
  x 26 * x 30,
  x 13 * x 17,
  -x 6,
  npow (x 4) 2,
  x 35 * x 6,
  fn .exp (2 * t),
  1 / x 21,
  (x 16) ^ 2,
  x 37 * x 38,
  x 18 * x 40,
  x 39 * x 41,
  (x 15) ^ 2,
  x 41 * x 43,
  1 / x 39,
  x 43 * x 45,
  fn (.rpow (-3 / 2)) (x 21),
  fn .exp ((-3) * s),
  x 47 * x 48,
  x 49 * x 8,
  x 26 * x 50,
  (-1) / 2 * x 15 * x 16 * x 47 * x 48 * x 6 * x 8 + x 51 * x 7,
  x 10 * x 41,
  x 10 * x 42,
  x 10 * x 44,
  x 19 * x 8,
  x 49 * x 56,
  x 26 * x 57,
  (-x 17) * x 57 + x 58,
  x 12 * x 37,
  x 23 * x 60,
  x 39 * x 61,
  x 43 * x 61,
  x 27 + x 46 * x 61 - x 61 + x 62 + x 63,
  x 24 * x 39 + x 24 * x 43 + x 24 * x 46 - x 24,
  4 * s,
  fn .exp (x 66),
  x 20 * x 40,
  x 39 * x 68,
  x 43 * x 68,
  x 31 - x 32,
  (x 10) ^ 3,
  x 50 * x 72,
  x 26 * x 73,
  (-x 15) * x 16 * x 47 * x 48 * x 72 * x 8 + x 74,
  x 29 * x 60,
  x 39 * x 76,
  x 43 * x 76,
  x 46 * x 76 + x 71 - x 76 + x 77 + x 78,
  x 30 * x 39 + x 30 * x 43 + x 30 * x 46 - x 30,
  (x 12) ^ 2,
  x 37 * x 81,
  x 39 * x 82,
  x 43 * x 82,
  (-x 12) * x 15 * x 25 * x 8 + x 33,
  (-x 12) * x 8 + x 13 * x 39 + x 13 * x 43 + x 13 * x 46,
  2 * x 35,
  3 / 2 * x 6,
  npow (x 21) 2,
  fn .exp (-x 66),
  x 37 * x 89 * x 90,
  npow (x 4) 3,
  4 * x 17,
  fn .exp (3 * t),
  x 49 * x 94,
  x 93 * x 95,
  2 * x 26,
  x 95 * x 97,
  (x 15) ^ 3,
  npow (x 16) 3,
  fn (.rpow (-5 / 2)) (x 21),
  fn .exp ((-5) * s),
  x 101 * x 102,
  x 103 * x 8,
  x 104 * x 17,
  (x 6) ^ 2,
  2 * x 19 * x 91,
  x 6 * x 92,
  x 10 * x 7 * x 91,
  2 * x 100 * x 99,
  x 110 * x 95,
  x 103 * x 56 * x 88,
  2 * x 41,
  x 113 * x 46 - x 113 + 2 * x 42 + 2 * x 44,
  x 49 * x 60,
  x 12 * x 38,
  x 116 * x 18,
  x 117 * x 94,
  x 118 * x 97,
  x 93 * x 94,
  x 117 * x 120,
  x 50 * x 7,
  3 * x 91,
  (x 10) ^ 4,
  2 * x 53,
  x 115 * x 19,
  x 23 * x 81,
  3 * x 68,
  x 123 * x 124,
  3 * (x 10) ^ 5,
  x 116 * x 20,
  3 * x 76,
  x 29 * x 81,
  x 133 * x 94,
  (x 12) ^ 3,
  x 135 * x 94,
  x 15 * x 25,
  x 46 * x 53,
  -x 65,
  x 46 * x 68,
  x 46 * x 82,
  3 / 4 * x 106,
  x 47 * x 48,
  x 143 * x 8,
  2 * x 100 * x 99,
  3 / 2 * x 89 * x 90,
  x 146 * x 37 * x 43 * x 6,
  x 94 * x 97,
  x 144 * x 72,
  x 149 * x 43,
  x 93 + x 97]

/-- `d1L` of `_logpdf3`. -/
def d1L3 : List Expr := [
  -x 27 - x 5 * x 7,
  -x 28 + x 31 - x 32,
  x 13 * x 26 - x 33 + 1,
  x 137 - x 17]

/-- `d2L` of `_logpdf3`. -/
def d2L3 : List Expr := [
  x 18 * x 37 * x 38 - 1 / 2 * x 34 * x 36 - x 41 * x 46 - x 42 - x 44 - x 5 - x 52,
  x 138 + x 27 + x 3 * x 36 - x 53 + x 54 + x 55 + x 59,
  -x 64,
  x 139,
  -x 140 + x 18 * x 19 * x 37 * x 38 - 2 * x 28 + 2 * x 35 * x 67 - x 69 - x 70 - x 71 - x 75,
  x 79,
  x 80,
  -x 141 + x 37 * x 81 - x 83 - x 84 - x 85,
  -x 86,
  -x 39 - x 43 - x 46 + 1]

/-- `d3L` of `_logpdf3`. -/
def d3L3 : List Expr := [
  x 101 * x 102 * x 137 * x 142 * x 8 - x 105 * x 142 + x 143 * x 145 * x 94 + x 144 * x 15 * x 16
    + x 146 * x 37 * x 39 * x 6 + x 147 * x 45 + x 147 + 4 * x 34 * x 7 * x 92 * (m - y) - x 34 * x
    87 + x 35 * x 6 - x 51 - x 88 * x 91 - x 96 - x 98,
  (-x 10) * x 111 + x 10 * x 96 + x 10 * x 98 - x 107 * x 39 - x 107 * x 43 - x 107 * x 46 + x 107
    + 2 * x 108 * x 3 * x 34 - x 109 * x 39 - x 109 * x 43 - x 109 * x 46 + x 109 + x 112 * x 17 -
    x 112 * x 26 + x 114 - x 17 * x 50 * x 88 + x 3 * x 87 + x 51 * x 88,
  2 * x 100 * x 12 * x 18 * x 38 * x 94 * x 99 - x 114 - x 115 * x 7 - x 119 + 1 / 2 * x 12 * x 37
    * x 39 * x 47 * x 48 * x 6 + 1 / 2 * x 12 * x 37 * x 43 * x 45 * x 47 * x 48 * x 6 + 1 / 2 * x
    12 * x 37 * x 43 * x 47 * x 48 * x 6 - x 121 - x 52,
  x 110 * x 41 + x 122 * x 39 + x 122 * x 43 + x 122 * x 46 - x 122 - x 41 * x 93 - x 41 * x 97,
  3 * x 10 * x 18 * x 37 * x 38 + 2 * x 100 * x 19 * x 47 * x 48 * x 94 * x 99 + 3 * x 101 * x 102
    * x 124 * x 15 * x 25 * x 8 - 3 * x 105 * x 124 - 4 * x 108 * x 67 - x 123 * x 72 - 3 * x 138 +
    4 * x 15 * x 16 * x 19 * x 47 * x 48 * x 8 - x 19 * x 96 - x 19 * x 98 - x 27 + 2 * x 3 * x 35
    * x 6 + 3 * x 37 * x 39 * x 72 * x 89 * x 90 + 3 * x 37 * x 43 * x 45 * x 72 * x 89 * x 90 + 3
    * x 37 * x 43 * x 72 * x 89 * x 90 - 3 * x 54 - 3 * x 55 - 4 * x 58,
  (-x 10) * x 110 * x 118 + x 10 * x 119 + x 10 * x 121 + x 125 * x 46 - x 125 - x 126 * x 39 - x
    126 * x 43 - x 126 * x 46 + x 126 + 2 * x 54 + 2 * x 55 + x 59 + x 64,
  (-x 110) * x 53 - x 139 - x 39 * x 57 - x 43 * x 57 - x 46 * x 57 + x 53 * x 93 + x 53 * x 97 + x
    57,
  2 * x 100 * x 22 * x 81 * x 9 * x 94 * x 99 + 3 * x 12 * x 22 * x 37 * x 9 - x 120 * x 127 - x
    127 * x 148 - x 27 - 3 * x 46 * x 61 - 3 * x 62 - 3 * x 63,
  2 * x 100 * x 12 * x 22 * x 37 * x 9 * x 99 - x 61 * x 93 - x 61 * x 97 - x 65,
  2 * x 100 * x 22 * x 8 * x 9 * x 99 - x 24 * x 93 - x 24 * x 97,
  (-x 104) * x 130 * x 26 + x 105 * x 130 - x 111 * x 72 + x 128 * x 46 - x 128 - x 129 * x 39 - x
    129 * x 43 - x 129 * x 46 + x 129 - 4 * x 28 + 12 * x 35 * x 67 + 3 * x 69 + 3 * x 70 + x 71 +
    x 72 * x 96 + x 72 * x 98 - x 73 * x 93 + 4 * x 74 - 8 * x 92 * fn .exp (6 * s),
  2 * x 100 * x 12 * x 18 * x 19 * x 38 * x 94 * x 99 - x 115 * x 72 + x 12 * x 37 * x 39 * x 47 *
    x 48 * x 72 + x 12 * x 37 * x 43 * x 45 * x 47 * x 48 * x 72 + x 12 * x 37 * x 43 * x 47 * x 48
    * x 72 - x 120 * x 131 - x 131 * x 148 - 2 * x 140 + 2 * x 18 * x 19 * x 37 * x 38 - 2 * x 69 -
    2 * x 70 - x 75 - x 79,
  x 145 * x 18 * x 19 * x 37 * x 38 + x 149 * x 39 + x 150 * x 45 + x 150 - x 68 * x 93 - x 68 * x
    97 - x 73 - x 80,
  (-x 110) * x 134 + x 120 * x 133 + x 132 * x 46 - x 132 + x 134 * x 97 + x 71 + 3 * x 77 + 3 * x
    78,
  (-x 110) * x 76 + x 76 * x 93 + x 76 * x 97 + x 80,
  x 30 * (-x 110 + x 151),
  2 * x 100 * x 135 * x 94 * x 99 - x 136 * x 93 - x 136 * x 97 - 3 * x 141 + 3 * x 37 * x 81 - 3 *
    x 83 - 3 * x 84 - x 85,
  2 * x 100 * x 37 * x 81 * x 99 - x 82 * x 93 - x 82 * x 97 - x 86,
  2 * x 100 * x 12 * x 8 * x 99 - x 13 * x 93 - x 13 * x 97,
  2 * x 100 * x 99 - x 151]

/-- `_logpdf3` (`/repo/pystatsm/misc/shashr_lpdf3.py:11-215`): the log density and the arrays of its derivatives. -/
def logpdf3 : Prog := ⟨body3, [[lnp], d1L3, d2L3, d3L3]⟩

/-- The assignments `x0`, `x1`, … of `_logpdf4` (`/repo/pystatsm/misc/shashr_lpdf4.py:12-458`). -/
def body4 : List Expr := [
  v + fn .exp t * fn .arcsinh ((m - y) * fn .exp (-s)),
  2 * y,
  2 * s,
  fn .exp (x 2),
  m ^ 2 - m * x 1 + x 3 + y ^ 2,
  1 / x 4,
  2 * m - x 1,
  1 / 2 * x 6,
  fn .exp t,
  fn .exp (-s),
  m - y,
  x 10 * x 9,
  fn .arcsinh (x 11),
  x 12 * x 8,
  v + x 13,
  fn .sinh (x 14),
  fn .cosh (x 14),
  x 15 * x 16,
  fn .exp (-x 2),
  (x 10) ^ 2,
  x 18 * x 19,
  x 20 + 1,
  1 / fn .sqrt (x 21),
  x 22 * x 9,
  x 23 * x 8,
  1 / x 16,
  x 15 * x 25,
  x 17 * x 24 - x 24 * x 26,
  x 3 * x 5,
  x 11 * x 22,
  x 29 * x 8,
  x 17 * x 30,
  x 26 * x 30,
  x 13 * x 17,
  -x 6,
  npow (x 4) 2,
  x 35 * x 6,
  fn .exp (2 * t),
  1 / x 21,
  (x 16) ^ 2,
  x 37 * x 38,
  x 18 * x 40,
  x 39 * x 41,
  (x 15) ^ 2,
  x 41 * x 43,
  1 / x 39,
  x 43 * x 45,
  fn (.rpow (-3 / 2)) (x 21),
  fn .exp ((-3) * s),
  x 47 * x 48,
  x 49 * x 8,
  x 26 * x 50,
  (-1) / 2 * x 15 * x 16 * x 47 * x 48 * x 6 * x 8 + x 51 * x 7,
  x 3 * x 36,
  x 10 * x 41,
  x 10 * x 42,
  x 10 * x 44,
  x 19 * x 50,
  x 26 * x 57,
  x 17 * x 57,
  x 58 - x 59,
  x 27 + x 60,
  x 12 * x 37,
  x 23 * x 62,
  x 39 * x 63,
  x 43 * x 63,
  x 27 + x 46 * x 63 - x 63 + x 64 + x 65,
  x 24 * x 39 + x 24 * x 43 + x 24 * x 46 - x 24,
  4 * s,
  fn .exp (x 68),
  x 20 * x 40,
  x 39 * x 70,
  x 43 * x 70,
  x 31 - x 32,
  (x 10) ^ 3,
  x 50 * x 74,
  x 26 * x 75,
  (-x 15) * x 16 * x 47 * x 48 * x 74 * x 8 + x 76,
  x 29 * x 62,
  x 39 * x 78,
  x 43 * x 78,
  x 46 * x 78 + x 73 - x 78 + x 79 + x 80,
  x 30 * x 39 + x 30 * x 43 + x 30 * x 46 - x 30,
  (x 12) ^ 2,
  x 37 * x 83,
  x 39 * x 84,
  x 43 * x 84,
  (-x 12) * x 15 * x 25 * x 8 + x 33,
  (-x 12) * x 8 + x 13 * x 39 + x 13 * x 43 + x 13 * x 46,
  2 * x 35,
  npow (x 4) 3,
  (-4) * m + 4 * y,
  x 34 * x 91,
  x 90 * x 92,
  npow (x 21) 2,
  fn .exp (-x 68),
  x 94 * x 95,
  x 37 * x 96,
  x 6 * x 97,
  fn .exp (3 * t),
  (x 15) ^ 3,
  npow (x 16) 3,
  2 * x 26,
  x 49 * x 99,
  x 102 * x 103,
  4 * x 17,
  x 103 * x 105,
  fn .exp ((-5) * s),
  (x 6) ^ 2,
  fn (.rpow (-5 / 2)) (x 21),
  3 / 4 * x 108,
  x 107 * x 109,
  x 111 * x 8,
  x 110 * x 112,
  (-3) / 4 * x 107 * x 108 * x 109 * x 15 * x 25 * x 8 + x 113 * x 17 - x 15 * x 16 * x 47 * x 48 *
    x 8 + x 51,
  x 19 * x 97,
  2 * x 115,
  x 6 * x 90,
  x 10 * x 97,
  x 118 * x 7,
  x 100 * x 101,
  2 * x 120,
  x 103 * x 121,
  x 118 * x 39,
  x 118 * x 43,
  2 * x 41,
  x 125 * x 46 - x 125 + 2 * x 42 + 2 * x 44,
  x 17 * x 50,
  3 / 2 * x 6,
  x 112 * x 128,
  x 129 * x 19,
  (-x 127) * x 128 + x 128 * x 51 + x 130 * x 17 - x 130 * x 26,
  x 49 * x 62,
  x 18 * x 38,
  x 12 * x 133,
  x 134 * x 99,
  x 102 * x 135,
  x 105 * x 135,
  x 50 * x 7,
  x 43 * x 50,
  x 39 * x 50,
  x 117 * x 69,
  3 * x 97,
  x 104 * x 19,
  x 106 * x 19,
  (-x 105) * x 57,
  (x 10) ^ 4,
  3 * x 112,
  x 146 * x 147,
  4 * x 57,
  (-3) * x 107 * x 109 * x 146 * x 15 * x 25 * x 8 + x 145 + x 148 * x 17 + x 149 * x 26,
  2 * x 54,
  x 132 * x 19,
  x 152 * x 39,
  x 152 * x 43,
  (-x 39) * x 57 - x 43 * x 57 - x 46 * x 57 + x 57,
  3 * x 63,
  x 23 * x 83,
  x 157 * x 99,
  x 102 * x 158 + x 105 * x 158 - x 121 * x 158 + x 156 * x 46 - x 156 + 3 * x 64 + 3 * x 65,
  x 102 * x 63 + x 105 * x 63 - x 121 * x 63 + x 67,
  x 102 * x 24 + x 105 * x 24 - x 121 * x 24,
  6 * s,
  fn .exp (x 162),
  8 * x 90,
  3 * x 70,
  x 142 * x 146,
  x 122 * x 74,
  (-x 105) * x 75,
  (x 10) ^ 5,
  x 147 * x 169,
  4 * x 75,
  x 168 + x 17 * x 170 - x 170 * x 26 + x 171 * x 26,
  2 * x 70,
  x 132 * x 74,
  x 20 * x 38,
  x 12 * x 175,
  x 176 * x 99,
  (-x 39) * x 47 * x 48 * x 74 * x 8 - x 43 * x 45 * x 47 * x 48 * x 74 * x 8 - x 43 * x 47 * x 48
    * x 74 * x 8 + x 75,
  3 * x 78,
  x 29 * x 83,
  x 180 * x 99,
  x 102 * x 181 + x 105 * x 181 - x 121 * x 181 + x 179 * x 46 - x 179 + x 73 + 3 * x 79 + 3 * x
    80,
  x 102 * x 78 + x 105 * x 78 - x 121 * x 78 + x 82,
  x 102 * x 30 + x 105 * x 30 - x 121 * x 30,
  (x 12) ^ 3,
  x 185 * x 99,
  (-2) * x 100 * x 101 * x 12 * x 8 + x 102 * x 13 + x 105 * x 13,
  4 * x 97,
  fn .exp (4 * t),
  2 * x 189,
  x 190 * x 96,
  fn .exp (-x 162),
  npow (x 21) 3,
  4 * x 43,
  x 189 * x 96,
  x 194 * x 195,
  4 * x 39,
  x 195 * x 197,
  npow (x 4) 4,
  15 / 4 * x 108,
  x 192 * x 193 * x 37,
  x 200 * x 201,
  6 * (x 15) ^ 4 / (x 16) ^ 4,
  x 195 * x 203,
  x 112 * x 17,
  8 * m - 8 * y,
  fn .exp ((-7) * s),
  (x 6) ^ 3,
  fn (.rpow (-7 / 2)) (x 21),
  x 207 * x 209 * x 8,
  x 210 * x 26,
  x 120 * x 6,
  x 111 * x 99,
  6 * x 213,
  6 * x 98,
  x 201 * x 6,
  6 * x 19,
  x 216 * x 217,
  x 199 * x 6,
  x 10 * x 110 * x 201,
  12 * x 17,
  8 * x 46,
  x 195 * x 222,
  x 213 * x 217,
  x 147 * x 19,
  x 112 * x 26,
  x 10 * x 17 * x 6,
  x 26 * x 6,
  x 10 * x 213,
  3 * x 212,
  x 17 * x 210,
  x 19 * x 200,
  6 * x 103,
  x 120 * x 233,
  x 233 * x 26,
  x 103 * x 221,
  -x 234 + x 235 + x 236,
  x 12 * x 49,
  x 190 * x 238,
  3 * x 98,
  x 189 * x 238,
  x 197 * x 241,
  x 194 * x 241,
  x 203 * x 241,
  x 111 * x 62,
  x 110 * x 245,
  x 12 * x 96,
  x 247 * x 99,
  2 * x 99,
  x 249 * x 49,
  x 103 * x 194,
  x 103 * x 197,
  x 103 * x 203,
  x 146 * x 201,
  8 * x 254,
  x 118 * x 6,
  10 * x 120,
  x 10 * x 103,
  10 * x 26,
  20 * x 17,
  7 / 2 * x 216 * x 74,
  4 * x 41,
  x 194 * x 41 + x 197 * x 41,
  x 262 * x 46 - x 262 + x 263,
  x 188 * x 19,
  4 * x 135,
  8 * x 17,
  x 128 * x 19 * x 245,
  x 19 * x 248,
  x 222 * x 241,
  4 * x 269,
  x 10 * x 248,
  (-x 128) * x 132 * x 39 - x 128 * x 132 * x 43 - x 128 * x 132 * x 46 + x 128 * x 132 + x 264,
  x 103 * x 222,
  (-x 120) * x 262 + x 26 * x 262 + x 267 * x 41,
  x 133 * x 83,
  x 190 * x 276,
  x 189 * x 276,
  x 197 * x 278,
  x 194 * x 278,
  x 203 * x 278,
  x 135 * x 259,
  x 135 * x 260,
  x 134 * x 249,
  x 135 * x 197,
  x 135 * x 194,
  x 135 * x 203,
  15 * x 201,
  x 169 * x 288,
  7 * x 54,
  x 74 * x 97,
  22 * x 291,
  27 * x 146,
  24 * x 17,
  x 146 * x 213,
  (x 10) ^ 6,
  15 * x 296,
  12 * x 295,
  x 103 * x 19,
  12 * x 120,
  12 * x 26,
  6 * x 291,
  3 * x 245,
  x 146 * x 303,
  6 * x 54,
  x 10 * x 135,
  6 * x 248,
  4 * x 54,
  3 * x 152,
  x 194 * x 54 + x 197 * x 54,
  x 185 * x 23,
  x 189 * x 311,
  x 146 * x 97,
  x 288 * x 296,
  (x 10) ^ 7,
  x 103 * x 74,
  6 * x 70,
  6 * x 313,
  x 169 * x 303,
  4 * x 174,
  6 * x 177,
  x 146 * x 307,
  x 175 * x 83,
  x 189 * x 323,
  4 * x 70,
  x 194 * x 70 + x 197 * x 70,
  7 * x 78,
  x 185 * x 29,
  x 189 * x 328,
  6 * x 78,
  (x 12) ^ 4,
  x 189 * x 331,
  x 15 * x 25,
  x 46 * x 54,
  x 46 * x 70,
  x 46 * x 84,
  x 3 * x 34,
  x 10 * x 135,
  3 / 4 * x 206,
  15 / 8 * x 208,
  2 * x 6 * x 90,
  x 94 * x 95,
  x 43 * x 45,
  x 107 * x 109,
  x 344 * x 99,
  x 15 * x 16,
  x 333 * x 344 * x 8,
  x 19 * x 213,
  x 128 * x 50,
  6 * x 26,
  x 194 + x 197 + x 203 + 2]

/-- `d1L` of `_logpdf4`. -/
def d1L4 : List Expr := [
  -x 27 - x 5 * x 7,
  -x 28 + x 31 - x 32,
  x 13 * x 26 - x 33 + 1,
  -x 17 + x 333]

/-- `d2L` of `_logpdf4`. -/
def d2L4 : List Expr := [
  x 18 * x 37 * x 38 - 1 / 2 * x 34 * x 36 - x 41 * x 46 - x 42 - x 44 - x 5 - x 52,
  x 334 + x 53 - x 54 + x 55 + x 56 + x 61,
  -x 66,
  -x 67,
  x 18 * x 19 * x 37 * x 38 - 2 * x 28 - x 335 + 2 * x 35 * x 69 - x 71 - x 72 - x 73 - x 77,
  x 81,
  x 82,
  -x 336 + x 37 * x 83 - x 85 - x 86 - x 87,
  -x 88,
  -x 39 - x 43 - x 46 + 1]

/-- `d3L` of `_logpdf4`. -/
def d3L4 : List Expr := [
  2 * x 100 * x 101 * x 47 * x 48 * x 99 - x 104 - x 106 - x 114 - x 34 * x 89 + x 35 * x 6 + 3 / 2
    * x 37 * x 39 * x 6 * x 94 * x 95 + 3 / 2 * x 37 * x 43 * x 45 * x 6 * x 94 * x 95 + 3 / 2 * x
    37 * x 43 * x 6 * x 94 * x 95 - x 7 * x 93 - 3 / 2 * x 98,
  x 10 * x 104 + x 10 * x 106 - x 10 * x 122 - x 116 * x 39 - x 116 * x 43 - x 116 * x 46 + x 116 +
    2 * x 117 * x 337 - x 119 * x 46 + x 119 - x 123 * x 7 - x 124 * x 7 + x 126 + x 131 + x 3 * x
    89,
  2 * x 100 * x 101 * x 12 * x 18 * x 38 * x 99 + 1 / 2 * x 12 * x 37 * x 39 * x 47 * x 48 * x 6 +
    1 / 2 * x 12 * x 37 * x 43 * x 45 * x 47 * x 48 * x 6 + 1 / 2 * x 12 * x 37 * x 43 * x 47 * x
    48 * x 6 - x 126 - x 132 * x 7 - x 136 - x 137 - x 52,
  (-x 102) * x 41 - x 105 * x 41 + x 121 * x 41 + x 138 * x 46 - x 138 + x 139 * x 7 + x 140 * x 7,
  3 * x 10 * x 18 * x 37 * x 38 + 2 * x 100 * x 101 * x 19 * x 47 * x 48 * x 99 - 4 * x 141 - x 142
    * x 74 - x 143 - x 144 - x 150 - x 27 + 2 * x 3 * x 35 * x 6 - 3 * x 334 + 3 * x 37 * x 39 * x
    74 * x 94 * x 95 + 3 * x 37 * x 43 * x 45 * x 74 * x 94 * x 95 + 3 * x 37 * x 43 * x 74 * x 94
    * x 95 - 3 * x 55 - 3 * x 56,
  x 10 * x 136 + x 10 * x 137 - x 121 * x 338 + x 151 * x 46 - x 151 - x 152 * x 46 + x 152 - x 153
    - x 154 + 2 * x 55 + 2 * x 56 + x 60 + x 66,
  x 102 * x 54 + x 105 * x 54 - x 121 * x 54 + x 155 + x 67,
  -x 159 - x 27,
  -x 160,
  -x 161,
  x 104 * x 74 + x 106 * x 74 - x 163 * x 164 + x 165 * x 46 - x 165 - x 166 * x 39 - x 166 * x 43
    - x 166 * x 46 + x 166 - x 167 + x 172 - 4 * x 28 + 12 * x 35 * x 69 + 3 * x 71 + 3 * x 72 + x
    73,
  2 * x 100 * x 101 * x 12 * x 18 * x 19 * x 38 * x 99 - x 102 * x 177 - x 105 * x 177 + x 12 * x
    37 * x 39 * x 47 * x 48 * x 74 + x 12 * x 37 * x 43 * x 45 * x 47 * x 48 * x 74 + x 12 * x 37 *
    x 43 * x 47 * x 48 * x 74 - x 173 * x 46 + x 173 - x 174 - 2 * x 71 - 2 * x 72 - x 77 - x 81,
  2 * x 100 * x 101 * x 18 * x 19 * x 37 * x 38 - x 102 * x 70 - x 105 * x 70 - x 178 - x 82,
  x 182,
  x 183,
  x 184,
  2 * x 100 * x 101 * x 185 * x 99 - x 102 * x 186 - x 105 * x 186 - 3 * x 336 + 3 * x 37 * x 83 -
    3 * x 85 - 3 * x 86 - x 87,
  2 * x 100 * x 101 * x 37 * x 83 - x 102 * x 84 - x 105 * x 84 - x 88,
  -x 187,
  2 * x 100 * x 101 - x 102 - x 105]

/-- `d4L` of `_logpdf4`. -/
def d4L4 : List Expr := [
  15 / 4 * x 108 * x 192 * x 193 * x 37 - x 129 * x 17 - x 188 + 8 * x 189 * x 342 * x 343 - x 191
    - x 196 - x 198 + 6 * x 199 * x 7 * x 92 * (m - y) - x 202 * x 39 - x 202 * x 43 - x 202 * x 46
    - x 204 - x 205 * x 339 + x 207 * x 209 * x 340 * x 346 * x 8 - x 211 * x 340 - x 212 * x 214 +
    6 * x 333 * x 345 * x 6 + x 339 * x 347 + x 34 * x 341 + x 341 * x 91 + 4 * x 342 * x 343 * x
    37 + 4 * x 342 * x 37 * x 39 + 4 * x 342 * x 37 * x 43 + 12 * x 345 * x 346 * x 6 + 3 / 2 * x
    347 * x 6 + 6 * x 35 - 3 * x 93,
  x 10 * x 191 + x 10 * x 196 + x 10 * x 198 + x 10 * x 204 - x 10 * x 223 - 4 * x 117 * x 3 - x
    118 * x 46 + x 118 + x 120 * x 224 - x 123 - x 124 - 3 * x 127 + x 164 * x 337 + x 17 * x 225 +
    x 200 * x 205 - x 200 * x 226 + x 211 * x 232 - x 214 * x 227 - x 215 * x 39 - x 215 * x 43 - x
    215 * x 46 + x 215 + x 218 * x 39 + x 218 * x 43 + x 218 * x 46 - x 218 + 3 * x 219 * x 3 * x
    92 + x 220 * x 39 + x 220 * x 43 + x 220 * x 46 - x 220 - x 221 * x 348 - x 224 * x 26 - x 225
    * x 26 - 3 * x 228 * x 229 + x 229 * x 230 - x 231 * x 232 + x 237 + 3 * x 51,
  3 / 4 * x 107 * x 108 * x 109 * x 12 * x 37 - x 114 + 6 * x 12 * x 15 * x 16 * x 6 * x 94 * x 95
    * x 99 + 3 * x 12 * x 15 * x 25 * x 6 * x 94 * x 95 * x 99 + 8 * x 12 * x 189 * x 43 * x 45 * x
    47 * x 48 + x 12 * x 37 * x 39 * x 47 * x 48 + x 12 * x 37 * x 43 * x 45 * x 47 * x 48 + x 12 *
    x 37 * x 43 * x 47 * x 48 - x 132 - x 230 * x 248 - x 237 - x 239 - x 240 - x 242 - x 243 - x
    244 - x 246 * x 39 - x 246 * x 43 - x 246 * x 46 + 3 * x 37 * x 39 * x 6 * x 94 * x 95 + 3 * x
    37 * x 43 * x 45 * x 6 * x 94 * x 95 + 3 * x 37 * x 43 * x 6 * x 94 * x 95,
  3 / 4 * x 107 * x 108 * x 109 * x 8 - x 113 * x 39 - x 113 * x 43 - x 113 * x 46 - x 120 * x 240
    + 6 * x 15 * x 16 * x 37 * x 6 * x 94 * x 95 + 3 * x 15 * x 25 * x 37 * x 6 * x 94 * x 95 - x
    250 - x 251 - x 252 - x 253 + x 39 * x 47 * x 48 * x 8 + x 43 * x 45 * x 47 * x 48 * x 8 + 8 *
    x 43 * x 45 * x 47 * x 48 * x 99 + x 43 * x 47 * x 48 * x 8 - x 50,
  10 * x 10 * x 100 * x 101 * x 47 * x 48 * x 99 + 7 / 2 * x 10 * x 37 * x 39 * x 6 * x 94 * x 95 +
    7 / 2 * x 10 * x 37 * x 43 * x 45 * x 6 * x 94 * x 95 + 7 / 2 * x 10 * x 37 * x 43 * x 6 * x 94
    * x 95 + 2 * x 107 * x 109 * x 15 * x 16 * x 19 * x 6 * x 99 + 20 * x 107 * x 109 * x 15 * x 16
    * x 74 * x 99 + 12 * x 107 * x 109 * x 15 * x 19 * x 25 * x 6 * x 8 + x 107 * x 109 * x 15 * x
    19 * x 25 * x 6 * x 99 + 10 * x 107 * x 109 * x 15 * x 25 * x 74 * x 99 - x 112 * x 19 * x 221
    * x 6 - 12 * x 115 + 15 / 2 * x 146 * x 15 * x 16 * x 207 * x 209 * x 6 * x 8 + 8 * x 146 * x
    192 * x 193 * x 37 - 15 / 2 * x 146 * x 210 * x 228 + 9 / 2 * x 15 * x 16 * x 47 * x 48 * x 6 *
    x 8 - x 164 * x 69 + 8 * x 189 * x 19 * x 43 * x 45 * x 94 * x 95 - x 19 * x 191 - x 19 * x 196
    - x 19 * x 198 - x 19 * x 204 + 12 * x 19 * x 37 * x 39 * x 94 * x 95 + 12 * x 19 * x 37 * x 43
    * x 45 * x 94 * x 95 + 12 * x 19 * x 37 * x 43 * x 94 * x 95 + 7 / 2 * x 192 * x 193 * x 37 * x
    6 * x 74 - x 212 * x 348 - x 213 * x 257 * x 74 - 12 * x 219 * x 34 * x 69 - x 222 * x 254 - x
    255 * x 39 - x 255 * x 43 - 7 / 2 * x 256 - x 258 * x 259 - x 258 * x 260 - x 261 * x 39 - x
    261 * x 43 - x 261 * x 46 - x 264 + 4 * x 3 * x 34 * x 6 * x 90 + 4 * x 3 * x 35 - 9 / 2 * x 51
    * x 6,
  (-x 10) * x 234 + x 10 * x 235 + x 10 * x 236 + x 10 * x 239 + x 10 * x 242 + x 10 * x 243 + x 10
    * x 244 - x 10 * x 270 - x 115 * x 194 - x 115 * x 197 - x 120 * x 266 + x 120 * x 271 - x 123
    * x 6 - x 124 * x 6 + x 131 + x 135 * x 267 + x 212 * x 272 - x 227 * x 247 * x 249 - x 228 * x
    272 - x 256 * x 46 + x 256 + x 26 * x 266 - x 26 * x 271 - x 265 * x 46 + x 265 - x 267 * x 269
    + x 268 * x 39 + x 268 * x 43 + x 268 * x 46 - x 268 + x 273,
  x 10 * x 250 + x 10 * x 251 + x 10 * x 252 + x 10 * x 253 - x 10 * x 274 - x 115 * x 267 + x 120
    * x 256 + x 120 * x 265 - x 128 * x 139 - x 128 * x 140 + x 130 * x 39 + x 130 * x 43 + x 130 *
    x 46 - x 130 - 2 * x 17 * x 256 - x 256 * x 26 - x 26 * x 265 + x 275 - x 349 * x 46 + x 349,
  10 * x 100 * x 101 * x 12 * x 18 * x 38 * x 99 - x 103 * x 212 * x 83 + 2 * x 15 * x 16 * x 47 *
    x 48 * x 6 * x 83 * x 99 + x 15 * x 25 * x 47 * x 48 * x 6 * x 83 * x 99 + 8 * x 18 * x 189 * x
    38 * x 43 * x 45 * x 83 - x 273 - x 277 - x 279 - x 280 - x 281 - x 282 - x 283 - x 52,
  2 * x 12 * x 15 * x 16 * x 37 * x 47 * x 48 * x 6 + x 12 * x 15 * x 25 * x 37 * x 47 * x 48 * x 6
    + 8 * x 12 * x 18 * x 38 * x 43 * x 45 * x 99 - x 132 * x 212 - x 138 - x 275 - x 284 - x 285 -
    x 286 - x 287 + 1 / 2 * x 39 * x 47 * x 48 * x 6 * x 8 + 1 / 2 * x 43 * x 45 * x 47 * x 48 * x
    6 * x 8 + 1 / 2 * x 43 * x 47 * x 48 * x 6 * x 8,
  -x 125 + 2 * x 15 * x 16 * x 47 * x 48 * x 6 * x 8 + x 15 * x 25 * x 47 * x 48 * x 6 * x 8 + 8 *
    x 18 * x 37 * x 38 * x 43 * x 45 - x 203 * x 41 - x 212 * x 50 - x 263,
  x 120 * x 298 - 24 * x 141 + 24 * x 163 * x 219 + x 191 * x 74 + x 196 * x 74 + x 198 * x 74 + x
    204 * x 74 + x 205 * x 293 + x 211 * x 297 - x 223 * x 74 - x 226 * x 293 - x 231 * x 297 - x
    26 * x 298 + x 27 + x 289 * x 39 + x 289 * x 43 + x 289 * x 46 - x 289 + x 290 * x 46 - x 290 -
    x 292 * x 39 - x 292 * x 43 - x 292 * x 46 + x 292 - x 294 * x 295 + x 294 * x 299 - x 299 * x
    300 + x 299 * x 301 + 4 * x 53 + 7 * x 55 + 7 * x 56 + 13 * x 58 - 13 * x 59,
  6 * x 10 * x 100 * x 101 * x 12 * x 18 * x 38 * x 99 + 6 * x 10 * x 18 * x 37 * x 38 + 6 * x 100
    * x 101 * x 19 * x 47 * x 48 * x 99 - x 103 * x 217 * x 26 + 3 * x 107 * x 109 * x 12 * x 146 *
    x 37 + 12 * x 12 * x 15 * x 16 * x 74 * x 94 * x 95 * x 99 + 6 * x 12 * x 15 * x 25 * x 74 * x
    94 * x 95 * x 99 + 8 * x 12 * x 189 * x 19 * x 43 * x 45 * x 47 * x 48 + 4 * x 12 * x 19 * x 37
    * x 39 * x 47 * x 48 + 4 * x 12 * x 19 * x 37 * x 43 * x 45 * x 47 * x 48 + 4 * x 12 * x 19 * x
    37 * x 43 * x 47 * x 48 - x 120 * x 307 * x 74 - x 150 - 4 * x 152 - x 19 * x 236 - x 19 * x
    239 - x 19 * x 242 - x 19 * x 243 - x 19 * x 244 - x 221 * x 306 - x 302 - x 304 * x 39 - x 304
    * x 43 - x 304 * x 46 - x 305 * x 46 - x 306 * x 350 + 6 * x 37 * x 39 * x 74 * x 94 * x 95 + 6
    * x 37 * x 43 * x 45 * x 74 * x 94 * x 95 + 6 * x 37 * x 43 * x 74 * x 94 * x 95 - 6 * x 55 - 6
    * x 56 - x 66,
  6 * x 10 * x 100 * x 101 * x 18 * x 37 * x 38 + 3 * x 107 * x 109 * x 146 * x 8 - x 120 * x 302 -
    x 148 * x 39 - x 148 * x 43 - x 148 * x 46 - x 149 + 12 * x 15 * x 16 * x 37 * x 74 * x 94 * x
    95 + 6 * x 15 * x 25 * x 37 * x 74 * x 94 * x 95 - x 19 * x 250 - x 19 * x 251 - x 19 * x 252 -
    x 19 * x 253 + 4 * x 19 * x 39 * x 47 * x 48 * x 8 + 4 * x 19 * x 43 * x 45 * x 47 * x 48 * x 8
    + 8 * x 19 * x 43 * x 45 * x 47 * x 48 * x 99 + 4 * x 19 * x 43 * x 47 * x 48 * x 8 - x 221 * x
    54 - x 26 * x 305 - x 67,
  (-x 10) * x 222 * x 278 + x 10 * x 277 + x 10 * x 279 + x 10 * x 280 + x 10 * x 281 + x 10 * x
    282 + x 10 * x 283 + x 122 * x 19 * x 83 - x 143 * x 83 - x 144 * x 83 - 3 * x 153 - 3 * x 154
    + x 159 - x 257 * x 338 + x 308 * x 46 - x 308 - x 309 * x 46 + x 309 + x 310 + x 61,
  x 10 * x 284 + x 10 * x 285 + x 10 * x 286 + x 10 * x 287 - x 102 * x 152 - x 105 * x 152 - x 120
    * x 308 + x 121 * x 152 + x 155 + x 160 - x 222 * x 338 + x 26 * x 308 + x 267 * x 54,
  (-x 102) * x 57 + x 121 * x 57 + x 145 + x 151 + x 161 + x 203 * x 54 - x 222 * x 54 + x 310,
  12 * x 100 * x 101 * x 22 * x 83 * x 9 * x 99 + 7 * x 12 * x 22 * x 37 * x 9 - x 158 * x 294 - x
    158 * x 301 + 8 * x 185 * x 189 * x 22 * x 43 * x 45 * x 9 - x 190 * x 311 - x 194 * x 312 - x
    197 * x 312 - x 203 * x 312 - x 27 - 7 * x 46 * x 63 - 7 * x 64 - 7 * x 65,
  6 * x 100 * x 101 * x 12 * x 22 * x 37 * x 9 - x 157 * x 249 - x 158 * x 194 - x 158 * x 197 - x
    158 * x 203 + 8 * x 22 * x 43 * x 45 * x 83 * x 9 * x 99 - x 221 * x 63 - x 350 * x 63 - x 67,
  8 * x 12 * x 22 * x 37 * x 43 * x 45 * x 9 - x 161 - x 194 * x 63 - x 197 * x 63 - x 203 * x 63 -
    2 * x 63,
  (-x 194) * x 24 - x 197 * x 24 - x 203 * x 24 + 8 * x 22 * x 43 * x 45 * x 8 * x 9 - 2 * x 24,
  12 * x 100 * x 101 * x 47 * x 48 * x 74 * x 99 + 24 * x 107 * x 109 * x 15 * x 16 * x 169 * x 99
    + 27 * x 107 * x 109 * x 15 * x 169 * x 25 * x 8 + 12 * x 107 * x 109 * x 15 * x 169 * x 25 * x
    99 + 8 * x 146 * x 189 * x 43 * x 45 * x 94 * x 95 - x 146 * x 191 - x 146 * x 196 - x 146 * x
    198 - x 146 * x 204 + 22 * x 146 * x 37 * x 39 * x 94 * x 95 + 22 * x 146 * x 37 * x 43 * x 45
    * x 94 * x 95 + 22 * x 146 * x 37 * x 43 * x 94 * x 95 + 15 * x 15 * x 16 * x 207 * x 209 * x
    315 * x 8 + 13 * x 15 * x 16 * x 47 * x 48 * x 74 * x 8 - 96 * x 163 * x 90 - 27 * x 169 * x
    205 - x 169 * x 213 * x 300 + 7 * x 18 * x 19 * x 37 * x 38 + 15 * x 192 * x 193 * x 296 * x 37
    + 48 * x 199 * fn .exp (8 * s) - 15 * x 211 * x 315 - 8 * x 28 - x 294 * x 316 - x 301 * x 316
    - 22 * x 313 - x 314 * x 39 - x 314 * x 43 - x 314 * x 46 - 7 * x 335 + 56 * x 35 * x 69 - 7 *
    x 71 - 7 * x 72 - x 73 - 13 * x 76,
  (-x 120) * x 321 + x 120 * x 322 - x 146 * x 221 * x 248 + x 172 - x 174 * x 194 - x 174 * x 197
    + x 177 * x 221 - x 234 * x 74 + x 235 * x 74 + x 236 * x 74 + x 239 * x 74 + x 242 * x 74 + x
    243 * x 74 + x 244 * x 74 + x 26 * x 321 - x 26 * x 322 - x 270 * x 74 + x 317 * x 46 - x 317 -
    x 318 * x 39 - x 318 * x 43 - x 318 * x 46 + x 318 + x 319 * x 39 + x 319 * x 43 + x 319 * x 46
    - x 319 - x 320 * x 46 + x 320 + 6 * x 71 + 6 * x 72 + x 81,
  (-x 120) * x 317 + x 120 * x 318 + x 170 * x 39 + x 170 * x 43 + x 170 * x 46 - x 170 - x 171 * x
    46 + x 171 - x 194 * x 75 - x 197 * x 75 - x 221 * x 313 + x 221 * x 70 + x 250 * x 74 + x 251
    * x 74 + x 252 * x 74 + x 253 * x 74 + x 26 * x 317 - x 26 * x 318 - x 274 * x 74 + x 82,
  10 * x 100 * x 101 * x 12 * x 18 * x 19 * x 38 * x 99 + 3 * x 12 * x 37 * x 39 * x 47 * x 48 * x
    74 + 3 * x 12 * x 37 * x 43 * x 45 * x 47 * x 48 * x 74 + 3 * x 12 * x 37 * x 43 * x 47 * x 48
    * x 74 + 4 * x 15 * x 16 * x 47 * x 48 * x 74 * x 83 * x 99 + 2 * x 15 * x 25 * x 47 * x 48 * x
    74 * x 83 * x 99 - x 167 * x 83 - 3 * x 174 - x 177 * x 259 - x 177 * x 260 + 8 * x 18 * x 189
    * x 19 * x 38 * x 43 * x 45 * x 83 + 4 * x 18 * x 19 * x 37 * x 38 - x 182 - x 190 * x 323 - x
    194 * x 324 - x 197 * x 324 - x 203 * x 324 - x 325 * x 46 - x 326 - x 77,
  4 * x 100 * x 101 * x 18 * x 19 * x 37 * x 38 + 4 * x 12 * x 15 * x 16 * x 37 * x 47 * x 48 * x
    74 + 2 * x 12 * x 15 * x 25 * x 37 * x 47 * x 48 * x 74 + 8 * x 12 * x 18 * x 19 * x 38 * x 43
    * x 45 * x 99 - x 121 * x 174 - x 176 * x 249 - x 177 * x 194 - x 177 * x 197 - x 177 * x 203 -
    x 178 - x 183 - x 26 * x 325 - x 267 * x 70,
  (-x 121) * x 75 + 2 * x 15 * x 25 * x 47 * x 48 * x 74 * x 8 - x 168 - x 173 + 8 * x 18 * x 19 *
    x 37 * x 38 * x 43 * x 45 - x 184 - x 203 * x 70 - x 326,
  x 181 * x 294 - x 181 * x 300 + x 181 * x 301 + x 190 * x 328 + x 194 * x 329 + x 197 * x 329 + x
    203 * x 329 - x 222 * x 329 + x 327 * x 46 - x 327 + x 73 + 7 * x 79 + 7 * x 80,
  (-x 120) * x 330 + x 180 * x 249 + x 181 * x 194 + x 181 * x 197 + x 181 * x 203 - x 181 * x 222
    + x 221 * x 78 + x 26 * x 330 + x 82,
  x 184 + x 194 * x 78 + x 197 * x 78 + x 203 * x 78 - x 222 * x 78 + 2 * x 78,
  x 30 * (-x 222 + x 351),
  12 * x 100 * x 101 * x 185 * x 99 - 12 * x 186 * x 26 - x 186 * x 294 + 8 * x 189 * x 331 * x 43
    * x 45 - x 190 * x 331 - x 194 * x 332 - x 197 * x 332 - x 203 * x 332 - 7 * x 336 + 7 * x 37 *
    x 83 - 7 * x 85 - 7 * x 86 - x 87,
  6 * x 100 * x 101 * x 37 * x 83 - x 185 * x 249 + 8 * x 185 * x 43 * x 45 * x 99 - x 186 * x 194
    - x 186 * x 197 - x 186 * x 203 - x 221 * x 84 - x 350 * x 84 - x 88,
  -x 187 - x 194 * x 84 - x 197 * x 84 - x 203 * x 84 + 8 * x 37 * x 43 * x 45 * x 83 - 2 * x 84,
  8 * x 12 * x 43 * x 45 * x 8 - x 13 * x 194 - x 13 * x 197 - x 13 * x 203 - 2 * x 13,
  -x 351 + 8 * x 43 * x 45]

/-- `_logpdf4` (`/repo/pystatsm/misc/shashr_lpdf4.py:12-458`): the log density and the arrays of its derivatives. -/
def logpdf4 : Prog := ⟨body4, [[lnp], d1L4, d2L4, d3L4, d4L4]⟩

end Verif.Misc.Shashr
