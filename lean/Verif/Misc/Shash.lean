import Verif.Misc.Expr

/-!
# The log density of the sinh-arcsinh distribution and its derivatives
-/

namespace Verif.Misc.Shash

open Expr

/-- Argument `y`. -/
abbrev y : Expr := inp 0
/-- Argument `m`. -/
abbrev m : Expr := inp 1
/-- Argument `s`. -/
abbrev s : Expr := inp 2
/-- Argument `t`. -/
abbrev t : Expr := inp 3
/-- Argument `v`. -/
abbrev v : Expr := inp 4

/-- `CONST` (`/repo/pystatsm/misc/shash_lpdf1.py:11`, the same in the other files). -/
def const : Expr := -(1 / 2) * fn .log pi - 1 / 2 * fn .log 2

/-- `lnp` (`/repo/pystatsm/misc/shash_lpdf1.py:15-16`, the same in the other files and in
`/repo/pystatsm/misc/shash1.py:118-120`). -/
def lnp : Expr :=
  fn .log t - 1 / 2 * fn .log (m ^ 2 - 2 * m * y + s ^ 2 + y ^ 2)
    + fn .log (fn .cosh (x 0)) - 1 / 2 * (fn .sinh (x 0)) ^ 2 + const

/-- The assignments `x0`, `x1`, … of `_logpdf1` (`/repo/pystatsm/misc/shash_lpdf1.py:13-38`). -/
def body1 : List Expr := [
  t * fn .arcsinh ((m - y) / s) + v,
  2 * y,
  s ^ 2,
  1 / (m ^ 2 - m * x 1 + x 2 + y ^ 2),
  1 / s,
  m - y,
  fn .arcsinh (x 4 * x 5),
  t * x 6 + v,
  fn .sinh (x 7),
  fn .cosh (x 7),
  x 8 * x 9,
  1 / x 2,
  1 / fn .sqrt (x 11 * (x 5) ^ 2 + 1),
  t * x 12,
  1 / x 9,
  x 14 * x 8]

/-- `d1L` of `_logpdf1`. -/
def d1L1 : List Expr := [
  (-m) * x 3 + t * x 12 * x 14 * x 4 * x 8 + 1 / 2 * x 1 * x 3 - x 10 * x 13 * x 4,
  (-s) * x 3 + t * x 11 * x 12 * x 5 * x 8 * x 9 - x 11 * x 13 * x 15 * x 5,
  ((-t) * x 6 * (x 10 - x 15) + 1) / t,
  -x 10 + x 14 * x 8]

/-- `_logpdf1` (`/repo/pystatsm/misc/shash_lpdf1.py:13-38`): the log density and the arrays of its derivatives. -/
def logpdf1 : Prog := ⟨body1, [[lnp], d1L1]⟩

/-- The assignments `x0`, `x1`, … of `_logpdf2` (`/repo/pystatsm/misc/shash_lpdf2.py:11-96`). -/
def body2 : List Expr := [
  t * fn .arcsinh ((m - y) / s) + v,
  s ^ 2,
  2 * y,
  m ^ 2 - m * x 2 + x 1 + y ^ 2,
  1 / x 3,
  2 * m - x 2,
  1 / 2 * x 5,
  1 / s,
  m - y,
  fn .arcsinh (x 7 * x 8),
  t * x 9,
  v + x 10,
  fn .sinh (x 11),
  fn .cosh (x 11),
  x 12 * x 13,
  1 / x 1,
  (x 8) ^ 2,
  x 15 * x 16 + 1,
  1 / fn .sqrt (x 17),
  x 18 * x 7,
  t * x 19,
  1 / x 13,
  x 12 * x 21,
  t * x 18,
  x 15 * x 23,
  x 24 * x 8,
  t ^ 2,
  1 / x 17,
  npow (x 3) 2,
  (x 12) ^ 2,
  x 26 * x 27,
  x 15 * x 30,
  (x 13) ^ 2,
  1 / x 32,
  x 29 * x 33,
  npow s 3,
  fn (.rpow (-3 / 2)) (x 17),
  t * x 36,
  x 22 * x 37,
  x 35 * x 8,
  x 30 * x 39,
  npow s 4,
  x 16 * x 41,
  x 37 * x 42,
  x 10 * x 19,
  x 30 * x 42,
  npow s 5,
  (x 8) ^ 3,
  x 15 * x 18 * x 8,
  x 10 * x 48,
  (x 9) ^ 2,
  x 29 * x 50,
  x 29 * x 9,
  x 29 + x 32 + x 34 - 1]

/-- `d1L` of `_logpdf2`. -/
def d1L2 : List Expr := [
  t * x 12 * x 18 * x 21 * x 7 - x 14 * x 20 - x 4 * x 6,
  (-s) * x 4 + t * x 12 * x 13 * x 15 * x 18 * x 8 - x 22 * x 25,
  ((-t) * x 9 * (x 14 - x 22) + 1) / t,
  x 12 * x 21 - x 14]

/-- `d2L` of `_logpdf2`. -/
def d2L2 : List Expr := [
  1 / 2 * t * x 12 * x 13 * x 35 * x 36 * x 5 + x 15 * x 26 * x 27 + x 28 * x 5 * x 6 - x 29 * x 31
    - x 31 * x 32 - x 31 * x 34 - x 35 * x 38 * x 6 - x 4,
  s * x 28 * x 5 + x 14 * x 24 - x 14 * x 43 - x 22 * x 24 + x 22 * x 43 + x 29 * x 40 + x 32 * x
    40 + x 34 * x 40 - x 40,
  t * x 18 * x 7 * x 9 + x 12 * x 18 * x 21 * x 7 - x 14 * x 19 - x 29 * x 44 - x 32 * x 44 - x 34
    * x 44,
  t * x 18 * x 7 - x 20 * x 29 - x 20 * x 32 - x 20 * x 34,
  t * x 12 * x 13 * x 36 * x 46 * x 47 + 2 * t * x 12 * x 18 * x 21 * x 35 * x 8 + 2 * x 1 * x 28 -
    2 * x 14 * x 23 * x 39 + x 16 * x 26 * x 27 * x 41 - x 29 * x 45 - x 32 * x 45 - x 34 * x 45 -
    x 38 * x 46 * x 47 - x 4,
  x 14 * x 48 - x 22 * x 48 + x 29 * x 49 + x 32 * x 49 + x 34 * x 49 - x 49,
  x 25 * x 53,
  (-x 32) * x 50 - x 33 * x 51 + x 50 - x 51 - 1 / x 26,
  (-x 32) * x 9 - x 33 * x 52 - x 52 + x 9,
  -x 53]

/-- `_logpdf2` (`/repo/pystatsm/misc/shash_lpdf2.py:11-96`): the log density and the arrays of its derivatives. -/
def logpdf2 : Prog := ⟨body2, [[lnp], d1L2, d2L2]⟩

/-- The assignments `x0`, `x1`, … of `_logpdf3` (`/repo/pystatsm/misc/shash_lpdf3.py:11-212`). -/
def body3 : List Expr := [
  t * fn .arcsinh ((m - y) / s) + v,
  s ^ 2,
  2 * y,
  m ^ 2 - m * x 2 + x 1 + y ^ 2,
  1 / x 3,
  2 * m - x 2,
  1 / 2 * x 5,
  1 / s,
  m - y,
  fn .arcsinh (x 7 * x 8),
  t * x 9,
  v + x 10,
  fn .sinh (x 11),
  fn .cosh (x 11),
  x 12 * x 13,
  1 / x 1,
  (x 8) ^ 2,
  x 15 * x 16 + 1,
  1 / fn .sqrt (x 17),
  x 18 * x 7,
  t * x 19,
  1 / x 13,
  x 12 * x 21,
  x 15 * x 18,
  t * x 23,
  x 24 * x 8,
  x 14 * x 9,
  x 22 * x 9,
  t ^ 2,
  1 / x 17,
  -x 5,
  npow (x 3) 2,
  x 31 * x 5,
  (x 12) ^ 2,
  x 28 * x 29,
  x 15 * x 34,
  (x 13) ^ 2,
  1 / x 36,
  x 33 * x 37,
  s ^ 3,
  1 / x 39,
  fn (.rpow (-3 / 2)) (x 17),
  t * x 41,
  x 40 * x 42,
  x 22 * x 43,
  x 34 * x 40,
  x 45 * x 8,
  npow s 4,
  x 16 * x 47,
  x 42 * x 48,
  x 19 * x 33,
  x 19 * x 36,
  x 10 * x 19,
  x 34 * x 48,
  x 40 * x 8,
  2 * t,
  x 18 * x 55,
  x 54 * x 56,
  npow s 5,
  (x 8) ^ 3,
  x 58 * x 59,
  x 42 * x 60,
  x 23 * x 8,
  x 10 * x 62,
  x 33 * x 62,
  x 36 * x 62,
  (x 9) ^ 2,
  x 33 * x 66,
  x 33 * x 9,
  x 36 * x 9,
  x 37 * x 68,
  2 * x 31,
  (-x 31) * x 5,
  npow (x 17) 2,
  x 28 * x 73,
  3 / 2 * x 5,
  x 47 * x 75,
  npow (x 3) 3,
  4 * x 14,
  t ^ 3,
  x 40 * x 41,
  x 79 * x 80,
  2 * x 22,
  (x 12) ^ 3,
  npow (x 13) 3,
  fn (.rpow (-5 / 2)) (x 17),
  t * x 85,
  x 14 * x 86,
  (x 5) ^ 2,
  2 * x 45,
  x 16 * x 58,
  2 * x 74 * x 90,
  x 5 * x 77,
  x 58 * x 6 * x 74 * x 8,
  x 42 * x 76,
  x 47 * x 8,
  x 41 * x 79,
  x 95 * x 96,
  2 * x 83 * x 84,
  npow s 6,
  x 16 * x 75 * x 99,
  x 22 * x 86,
  x 29 * x 55,
  x 102 * x 15,
  x 6 * x 80,
  4 * x 26,
  2 * x 27,
  x 43 * x 6,
  3 * x 74,
  x 59 * x 99,
  4 * x 34 * x 95,
  npow s 7,
  (x 8) ^ 4,
  x 111 * x 112,
  x 22 * x 42,
  x 90 * x 96,
  x 102 * x 54,
  x 10 * x 23,
  x 41 * x 48,
  x 10 * x 118,
  2 * x 19,
  x 66 * x 78,
  x 66 * x 82,
  x 108 * x 113,
  6 * x 34 * x 90,
  x 14 * x 18,
  6 * t * x 95,
  3 * (x 8) ^ 5 / s ^ 8,
  7 * x 109,
  x 109 * x 96,
  x 41 * x 60,
  x 102 * x 48,
  2 * x 54,
  x 10 * x 132 * x 18,
  2 * x 62,
  (x 9) ^ 3,
  x 12 * x 21,
  x 33 + x 36 + x 38 - 1,
  3 / 4 * x 58 * x 88,
  3 / 2 * x 28 * x 47 * x 73,
  x 139 * x 33 * x 5,
  x 46 * x 98,
  x 78 + x 82,
  x 142 - x 98]

/-- `d1L` of `_logpdf3`. -/
def d1L3 : List Expr := [
  t * x 12 * x 18 * x 21 * x 7 - x 14 * x 20 - x 4 * x 6,
  (-s) * x 4 + t * x 12 * x 13 * x 15 * x 18 * x 8 - x 22 * x 25,
  -x 26 + x 27 + 1 / t,
  x 136 - x 14]

/-- `d2L` of `_logpdf3`. -/
def d2L3 : List Expr := [
  1 / 2 * t * x 12 * x 13 * x 40 * x 41 * x 5 + x 15 * x 28 * x 29 - 1 / 2 * x 30 * x 32 - x 33 * x
    35 - x 35 * x 36 - x 35 * x 38 - x 4 - x 44 * x 6,
  s * x 32 + x 14 * x 24 - x 14 * x 49 - x 22 * x 24 + x 22 * x 49 + x 33 * x 46 + x 36 * x 46 + x
    38 * x 46 - x 46,
  t * x 18 * x 7 * x 9 - x 10 * x 50 - x 10 * x 51 + x 12 * x 18 * x 21 * x 7 - x 14 * x 19 - x 38
    * x 52,
  t * x 18 * x 7 - x 20 * x 33 - x 20 * x 36 - x 20 * x 38,
  t * x 12 * x 13 * x 41 * x 58 * x 59 + 2 * t * x 12 * x 18 * x 21 * x 40 * x 8 + 2 * x 1 * x 31 -
    x 14 * x 57 + x 16 * x 28 * x 29 * x 47 - x 22 * x 61 - x 33 * x 53 - x 36 * x 53 - x 38 * x 53
    - x 4,
  x 10 * x 64 + x 10 * x 65 + x 14 * x 62 - x 22 * x 62 + x 38 * x 63 - x 63,
  x 137 * x 25,
  (-x 36) * x 66 - x 37 * x 67 + x 66 - x 67 - 1 / x 28,
  -x 68 - x 69 - x 70 + x 9,
  -x 137]

/-- `d3L` of `_logpdf3`. -/
def d3L3 : List Expr := [
  t * x 12 * x 13 * x 40 * x 41 + t * x 136 * x 138 * x 85 - x 138 * x 87 + x 139 * x 36 * x 5 + x
    140 * x 37 + x 140 + 4 * x 30 * x 6 * x 77 * (m - y) - x 30 * x 71 + 2 * x 40 * x 41 * x 79 * x
    83 * x 84 - x 44 - x 72 - x 74 * x 76 - x 78 * x 81 - x 81 * x 82,
  2 * s * x 30 * x 92 + s * x 71 - x 100 * x 101 + x 100 * x 87 - x 14 * x 94 + x 22 * x 94 + x 33
    * x 89 - x 33 * x 91 - x 33 * x 93 + x 36 * x 89 - x 36 * x 91 - x 36 * x 93 + x 38 * x 89 - x
    38 * x 91 - x 38 * x 93 + x 78 * x 97 + x 82 * x 97 - x 89 + x 91 + x 93 - x 97 * x 98,
  2 * t * x 15 * x 29 + 1 / 2 * t * x 33 * x 37 * x 40 * x 41 * x 5 * x 9 + 1 / 2 * t * x 33 * x 40
    * x 41 * x 5 * x 9 + 1 / 2 * t * x 36 * x 40 * x 41 * x 5 * x 9 - x 10 * x 104 - x 103 * x 33 -
    x 103 * x 36 - x 103 * x 38 - x 104 * x 22 - x 105 * x 35 - x 106 * x 35 + 1 / 2 * x 12 * x 13
    * x 40 * x 41 * x 5 + 2 * x 15 * x 28 * x 29 * x 83 * x 84 * x 9,
  x 107 * x 33 + x 107 * x 36 + x 107 * x 38 - x 107 - x 35 * x 78 - x 35 * x 82 + x 35 * x 98,
  3 * t * x 111 * x 112 * x 12 * x 21 * x 85 + 5 * t * x 12 * x 13 * x 16 * x 41 * x 58 + 2 * t * x
    12 * x 18 * x 21 * x 40 - 4 * x 1 * x 92 - x 108 * x 109 - x 110 * x 33 - x 110 * x 36 - x 110
    * x 38 - 3 * x 113 * x 87 - 5 * x 114 * x 90 - x 115 * x 78 - x 115 * x 82 - x 14 * x 40 * x 56
    + 2 * x 16 * x 41 * x 58 * x 79 * x 83 * x 84 + 4 * x 28 * x 29 * x 47 * x 8 + 3 * x 28 * x 33
    * x 37 * x 59 * x 73 * x 99 + 3 * x 28 * x 33 * x 59 * x 73 * x 99 + 3 * x 28 * x 36 * x 59 * x
    73 * x 99 - x 72,
  x 105 * x 46 + x 106 * x 46 + x 116 * x 33 + x 116 * x 36 + x 116 * x 38 - x 116 + x 117 * x 33 +
    x 117 * x 36 + x 117 * x 38 - x 117 - x 118 * x 14 + x 118 * x 22 - x 119 * x 33 - x 119 * x 36
    - x 119 * x 38 + x 119 + x 14 * x 23 - x 141 * x 9 - x 22 * x 23,
  -x 141 + x 24 * x 33 + x 24 * x 36 + x 24 * x 38 - x 24 - x 33 * x 49 - x 36 * x 49 - x 38 * x 49
    + x 46 * x 78 + x 46 * x 82 + x 49,
  2 * t * x 18 * x 66 * x 7 * x 83 * x 84 - x 120 * x 68 - x 120 * x 69 - x 120 * x 70 - x 121 * x
    20 - x 122 * x 20 + 2 * x 18 * x 7 * x 9,
  2 * t * x 18 * x 7 * x 83 * x 84 * x 9 + x 18 * x 7 - x 19 * x 38 - x 50 - x 51 - x 52 * x 78 - x
    52 * x 82,
  2 * t * x 18 * x 7 * x 83 * x 84 - x 20 * x 78 - x 20 * x 82,
  6 * s * x 31 - x 101 * x 127 + x 114 * x 128 - x 123 * x 33 - x 123 * x 36 - x 123 * x 38 + x 123
    + x 124 * x 33 + x 124 * x 36 + x 124 * x 38 - x 124 + x 125 * x 126 - x 126 * x 18 * x 22 + x
    127 * x 87 - x 128 * x 14 * x 42 + x 129 * x 78 + x 129 * x 82 - x 129 * x 98 - 8 * x 39 * x 77,
  2 * t * x 16 * x 29 * x 47 + 2 * t * x 18 * x 40 * x 8 * x 9 + t * x 33 * x 37 * x 41 * x 58 * x
    59 * x 9 + t * x 33 * x 41 * x 58 * x 59 * x 9 + t * x 36 * x 41 * x 58 * x 59 * x 9 - x 10 * x
    130 - x 105 * x 53 - x 106 * x 53 + x 12 * x 13 * x 41 * x 58 * x 59 + 2 * x 12 * x 18 * x 21 *
    x 40 * x 8 - x 125 * x 132 - x 130 * x 22 - x 131 * x 33 - x 131 * x 36 - x 131 * x 38 - x 133
    * x 33 - x 133 * x 36 - x 133 * x 38 + 2 * x 16 * x 28 * x 29 * x 47 * x 83 * x 84 * x 9,
  2 * t * x 18 * x 40 * x 8 + t * x 33 * x 37 * x 41 * x 58 * x 59 + t * x 33 * x 41 * x 58 * x 59
    + t * x 36 * x 41 * x 58 * x 59 + 2 * x 16 * x 28 * x 29 * x 47 * x 83 * x 84 - x 33 * x 57 - x
    36 * x 57 - x 38 * x 57 - x 53 * x 78 - x 53 * x 82 - x 61,
  x 121 * x 25 + x 122 * x 25 + x 134 * x 68 + x 134 * x 69 + x 134 * x 70 - x 134 * x 9 - x 25 * x
    66 * x 98,
  x 38 * x 62 - x 62 + x 63 * x 78 + x 63 * x 82 - x 63 * x 98 + x 64 + x 65,
  x 143 * x 25,
  (-x 135) * x 143 + 2 / x 79,
  -x 121 - x 122 + 2 * x 66 * x 83 * x 84,
  -x 105 - x 106 + 2 * x 83 * x 84 * x 9,
  -x 142 + 2 * x 83 * x 84]

/-- `_logpdf3` (`/repo/pystatsm/misc/shash_lpdf3.py:11-212`): the log density and the arrays of its derivatives. -/
def logpdf3 : Prog := ⟨body3, [[lnp], d1L3, d2L3, d3L3]⟩

/-- The assignments `x0`, `x1`, … of `_logpdf4` (`/repo/pystatsm/misc/shash_lpdf4.py:12-479`). -/
def body4 : List Expr := [
  t * fn .arcsinh ((m - y) / s) + v,
  s ^ 2,
  2 * y,
  m ^ 2 - m * x 2 + x 1 + y ^ 2,
  1 / x 3,
  2 * m - x 2,
  1 / 2 * x 5,
  1 / s,
  m - y,
  fn .arcsinh (x 7 * x 8),
  t * x 9,
  v + x 10,
  fn .sinh (x 11),
  fn .cosh (x 11),
  x 12 * x 13,
  1 / x 1,
  (x 8) ^ 2,
  x 15 * x 16 + 1,
  1 / fn .sqrt (x 17),
  x 18 * x 7,
  t * x 19,
  1 / x 13,
  x 12 * x 21,
  x 15 * x 18,
  t * x 23,
  x 24 * x 8,
  x 14 * x 9,
  x 22 * x 9,
  t ^ 2,
  1 / x 17,
  -x 5,
  npow (x 3) 2,
  x 31 * x 5,
  (x 12) ^ 2,
  x 15 * x 29,
  x 28 * x 34,
  (x 13) ^ 2,
  1 / x 36,
  x 33 * x 37,
  s ^ 3,
  1 / x 39,
  fn (.rpow (-3 / 2)) (x 17),
  t * x 41,
  x 40 * x 42,
  x 22 * x 43,
  x 28 * x 29,
  x 40 * x 8,
  x 45 * x 46,
  s ^ 4,
  1 / x 48,
  x 16 * x 49,
  x 42 * x 50,
  x 19 * x 33,
  x 19 * x 36,
  x 14 * x 19,
  x 10 * x 19,
  x 45 * x 50,
  t * x 18,
  2 * x 46,
  x 57 * x 58,
  npow s 5,
  (x 8) ^ 3,
  x 60 * x 61,
  x 42 * x 62,
  x 23 * x 8,
  x 10 * x 64,
  x 33 * x 64,
  x 36 * x 64,
  x 14 * x 64,
  x 22 * x 64,
  (x 9) ^ 2,
  x 33 * x 70,
  x 36 * x 70,
  x 37 * x 71,
  x 33 * x 9,
  x 36 * x 9,
  x 37 * x 74,
  2 * x 31,
  (-x 31) * x 5,
  npow (x 17) 2,
  x 49 * x 79,
  x 28 * x 80,
  3 / 2 * x 5,
  npow (x 3) 3,
  (-4) * m + 4 * y,
  x 30 * x 83 * x 84,
  4 * x 14,
  t ^ 3,
  x 40 * x 41,
  x 87 * x 88,
  2 * x 22,
  (x 12) ^ 3,
  npow (x 13) 3,
  (x 5) ^ 2,
  3 / 4 * x 93,
  fn (.rpow (-5 / 2)) (x 17),
  t * x 95,
  x 60 * x 96,
  x 94 * x 97,
  2 * x 40,
  x 45 * x 99,
  x 28 * x 79,
  x 16 * x 60,
  2 * x 102,
  x 101 * x 103,
  2 * x 5,
  x 60 * x 8,
  x 101 * x 106,
  x 107 * x 6,
  x 107 * x 33,
  x 107 * x 36,
  x 42 * x 49,
  x 111 * x 82,
  x 41 * x 87,
  x 49 * x 8,
  x 113 * x 114,
  x 91 * x 92,
  2 * x 116,
  npow s 6,
  x 118 * x 16,
  x 119 * x 82,
  x 120 * x 96,
  2 * x 34,
  t * x 122,
  x 10 * x 88,
  x 22 * x 88,
  4 * x 26,
  2 * x 9,
  x 127 * x 22,
  x 43 * x 6,
  x 1 * x 83,
  4 * x 5,
  3 * x 101,
  x 118 * x 61,
  4 * x 33,
  x 45 * x 49,
  x 135 * x 8,
  4 * x 36,
  x 57 * x 99,
  npow s 7,
  (x 8) ^ 4,
  x 139 * x 140,
  3 * x 96,
  x 141 * x 142,
  5 * x 102,
  x 144 * x 42,
  x 102 * x 113,
  t * x 29,
  x 147 * x 58,
  x 10 * x 23,
  x 41 * x 50,
  x 10 * x 150,
  x 23 * x 33,
  x 23 * x 36,
  x 150 * x 33,
  x 150 * x 36,
  2 * x 19,
  x 70 * x 86,
  2 * x 70,
  x 158 * x 22,
  8 * x 83,
  x 132 * x 141,
  6 * x 102,
  x 162 * x 45,
  6 * x 57,
  x 114 * x 164,
  npow s 8,
  (x 8) ^ 5,
  x 166 * x 167,
  x 142 * x 168,
  7 * x 133,
  x 170 * x 42,
  x 113 * x 133,
  x 41 * x 62,
  x 10 * x 173,
  x 147 * x 50,
  2 * x 175,
  x 18 * x 58,
  x 177 * x 33,
  x 177 * x 36,
  2 * x 64,
  x 116 * x 158,
  (x 9) ^ 3,
  2 * x 182,
  (-6) * x 31,
  t ^ 4,
  x 185 * x 80,
  (-2) * x 30 * x 5 * x 83,
  npow (x 17) 3,
  npow (x 3) 4,
  x 189 * x 30,
  x 188 * x 28,
  15 / 4 * x 93,
  x 118 * x 192,
  x 191 * x 193,
  6 * (x 12) ^ 4 / (x 13) ^ 4,
  x 14 * x 97,
  8 * m - 8 * y,
  (x 5) ^ 3,
  fn (.rpow (-7 / 2)) (x 17),
  t * x 199,
  x 200 * x 22,
  6 * x 5,
  x 202 * x 60,
  x 116 * x 95,
  s * x 30,
  s * x 83,
  x 106 * x 79,
  2 * x 185,
  x 101 * x 203,
  x 139 * x 191,
  x 210 * x 8 * x 94,
  x 16 * x 202 * x 210,
  x 189 * x 5,
  x 185 * x 207,
  3 * x 111,
  x 113 * x 49,
  12 * x 14,
  6 * x 22,
  6 * x 116,
  x 119 * x 142,
  x 193 * x 96,
  x 87 * x 95,
  x 119 * x 222,
  8 * x 38,
  x 118 * x 8,
  x 14 * x 95,
  x 226 * x 87,
  x 14 * x 200,
  x 16 * x 166 * x 192,
  x 22 * x 95,
  x 230 * x 87,
  3 * x 225,
  x 116 * x 5,
  x 222 * x 233,
  t * x 5,
  4 * x 74,
  4 * x 75,
  x 60 * x 94,
  x 10 * x 238 * x 95,
  x 195 * x 9,
  3 * x 233 * x 81,
  x 208 * x 79,
  12 * x 5,
  6 * x 135,
  x 140 * x 166,
  x 191 * x 245,
  8 * x 246,
  x 185 * x 79,
  x 119 * x 248,
  7 / 2 * x 166 * x 191 * x 5 * x 61,
  x 106 * x 113,
  24 * x 14,
  x 204 * x 87,
  x 139 * x 61,
  npow s 9,
  x 139 * x 16,
  4 * x 40,
  x 147 * x 257,
  t * x 79,
  4 * x 102,
  x 259 * x 260,
  x 207 * x 235,
  x 147 * x 40,
  x 41 * x 82,
  x 264 * x 49,
  x 10 * x 265,
  x 102 * x 259,
  x 10 * x 95,
  x 120 * x 268,
  x 14 * x 49,
  x 114 * x 41,
  x 271 * x 28,
  x 219 * x 28,
  x 40 * x 45,
  8 * x 26,
  x 257 * x 45,
  x 116 * x 276,
  x 101 * x 102,
  x 101 * x 260,
  8 * x 76,
  x 116 * x 279,
  x 107 * x 14,
  x 107 * x 233,
  2 * x 113,
  8 * x 14,
  4 * x 71,
  4 * x 72,
  x 10 * x 34,
  16 * x 14,
  x 195 * x 70,
  x 233 * x 43,
  t * x 34,
  18 * x 106 * x 45,
  15 * x 191,
  x 167 * x 255,
  x 294 * x 295,
  31 * x 101 * x 254,
  x 248 * x 254,
  npow s 10,
  (x 8) ^ 6,
  x 299 * x 300,
  15 * x 301,
  36 * x 245,
  x 14 * x 96,
  27 * x 119,
  x 22 * x 42,
  36 * x 119,
  x 113 * x 14,
  12 * x 245,
  18 * x 119,
  x 113 * x 22,
  6 * x 259,
  x 144 * x 41,
  x 114 * x 147,
  8 * x 314,
  x 18 * x 99,
  x 10 * x 316,
  3 * x 141,
  x 10 * x 318 * x 95,
  12 * x 102,
  x 28 * x 41,
  8 * x 136,
  x 101 * x 133 * x 219,
  2 * x 29,
  x 324 * x 46,
  2 * x 23,
  2 * x 150,
  x 10 * x 29,
  x 328 * x 46,
  8 * x 329,
  8 * x 73,
  x 147 * x 46,
  4 * x 22,
  x 134 * x 182,
  x 137 * x 182,
  12 * x 70,
  6 * x 70,
  x 182 * x 195,
  4 * x 27,
  x 294 * x 301,
  x 245 * x 248,
  x 307 * x 45,
  npow s 11,
  (x 8) ^ 7,
  48 * x 254,
  x 141 * x 312,
  x 147 * x 320,
  x 114 * x 18,
  6 * x 348,
  x 10 * x 349,
  3 * x 168,
  x 268 * x 351,
  x 170 * x 41,
  x 10 * x 353,
  x 133 * x 321,
  x 101 * x 141,
  x 102 * x 45,
  x 320 * x 45,
  x 219 * x 356,
  x 116 * x 358,
  x 324 * x 50,
  x 18 * x 46,
  x 328 * x 50,
  x 46 * x 57,
  x 285 * x 364,
  x 333 * x 364,
  x 10 * x 362,
  (x 9) ^ 4,
  x 33 + x 36 + x 38 - 1,
  x 43 * x 6,
  x 127 * x 47,
  x 177 * x 38,
  x 86 + x 90,
  x 107 * x 5,
  8 * x 22,
  4 * x 116,
  x 134 + x 137 + x 195 + 2,
  8 * x 33 * x 37 - x 377]

/-- `d1L` of `_logpdf4`. -/
def d1L4 : List Expr := [
  t * x 12 * x 18 * x 21 * x 7 - x 14 * x 20 - x 4 * x 6,
  (-s) * x 4 + t * x 12 * x 13 * x 15 * x 18 * x 8 - x 22 * x 25,
  -x 26 + x 27 + 1 / t,
  x 12 * x 21 - x 14]

/-- `d2L` of `_logpdf4`. -/
def d2L4 : List Expr := [
  1 / 2 * t * x 12 * x 13 * x 40 * x 41 * x 5 + x 15 * x 28 * x 29 - 1 / 2 * x 30 * x 32 - x 33 * x
    35 - x 35 * x 36 - x 35 * x 38 - x 4 - x 44 * x 6,
  s * x 32 + x 14 * x 24 - x 14 * x 51 - x 22 * x 24 + x 22 * x 51 + x 33 * x 47 + x 36 * x 47 + x
    38 * x 47 - x 47,
  t * x 18 * x 7 * x 9 - x 10 * x 52 - x 10 * x 53 + x 12 * x 18 * x 21 * x 7 - x 38 * x 55 - x 54,
  t * x 18 * x 7 - x 20 * x 33 - x 20 * x 36 - x 20 * x 38,
  t * x 12 * x 13 * x 41 * x 60 * x 61 + 2 * t * x 12 * x 18 * x 21 * x 40 * x 8 + 2 * x 1 * x 31 -
    x 14 * x 59 + x 16 * x 28 * x 29 * x 49 - x 22 * x 63 - x 33 * x 56 - x 36 * x 56 - x 38 * x 56
    - x 4,
  x 10 * x 66 + x 10 * x 67 + x 38 * x 65 - x 65 + x 68 - x 69,
  x 25 * x 369,
  x 70 - x 71 - x 72 - x 73 - 1 / x 28,
  -x 74 - x 75 - x 76 + x 9,
  -x 369]

/-- `d3L` of `_logpdf4`. -/
def d3L4 : List Expr := [
  t * x 12 * x 13 * x 40 * x 41 + 3 / 4 * t * x 12 * x 21 * x 60 * x 93 * x 95 - x 14 * x 98 + 3 /
    2 * x 28 * x 33 * x 37 * x 49 * x 5 * x 79 + 3 / 2 * x 28 * x 33 * x 49 * x 5 * x 79 + 3 / 2 *
    x 28 * x 36 * x 49 * x 5 * x 79 - x 30 * x 77 + 2 * x 40 * x 41 * x 87 * x 91 * x 92 - x 44 - x
    6 * x 85 - x 78 - x 81 * x 82 - x 86 * x 89 - x 89 * x 90,
  s * x 105 * x 30 * x 83 + s * x 77 + x 100 * x 33 + x 100 * x 36 + x 100 * x 38 - x 100 - x 104 *
    x 33 - x 104 * x 36 - x 104 * x 38 + x 104 - x 108 * x 38 + x 108 - x 109 * x 6 - x 110 * x 6 -
    x 112 * x 14 + x 112 * x 22 - x 115 * x 117 + x 115 * x 86 + x 115 * x 90 + x 121 * x 14 - x
    121 * x 22,
  2 * t * x 15 * x 29 + 1 / 2 * t * x 33 * x 37 * x 40 * x 41 * x 5 * x 9 + 1 / 2 * t * x 33 * x 40
    * x 41 * x 5 * x 9 + 1 / 2 * t * x 36 * x 40 * x 41 * x 5 * x 9 + 1 / 2 * x 12 * x 13 * x 40 *
    x 41 * x 5 - x 123 * x 33 - x 123 * x 36 - x 123 * x 38 - x 124 * x 6 - x 125 * x 6 - x 126 * x
    35 - x 128 * x 35 + 2 * x 15 * x 28 * x 29 * x 9 * x 91 * x 92,
  x 117 * x 35 + x 129 * x 38 - x 129 + x 33 * x 370 - x 35 * x 86 - x 35 * x 90 + x 36 * x 370,
  5 * t * x 12 * x 13 * x 16 * x 41 * x 60 + 3 * t * x 12 * x 139 * x 140 * x 21 * x 95 + 2 * t * x
    12 * x 18 * x 21 * x 40 + 3 * x 118 * x 28 * x 33 * x 37 * x 61 * x 79 + 3 * x 118 * x 28 * x
    33 * x 61 * x 79 + 3 * x 118 * x 28 * x 36 * x 61 * x 79 - x 130 * x 131 - x 132 * x 133 - x
    134 * x 136 - x 136 * x 137 - 4 * x 136 * x 38 - x 138 * x 14 - x 14 * x 143 - x 145 * x 22 - x
    146 * x 86 - x 146 * x 90 + 2 * x 16 * x 41 * x 60 * x 87 * x 91 * x 92 + 4 * x 28 * x 29 * x
    49 * x 8 - x 78,
  x 10 * x 152 + x 10 * x 153 - x 10 * x 154 - x 10 * x 155 - x 116 * x 371 + x 126 * x 47 + x 128
    * x 47 - x 14 * x 150 + x 14 * x 23 + x 148 * x 33 + x 148 * x 36 + x 148 * x 38 - x 148 + x
    149 * x 38 - x 149 + x 150 * x 22 - x 151 * x 38 + x 151 - x 22 * x 23,
  (-x 117) * x 47 + x 24 * x 33 + x 24 * x 36 + x 24 * x 38 - x 24 - x 33 * x 51 - x 36 * x 51 - x
    38 * x 51 + x 47 * x 86 + x 47 * x 90 + x 51,
  2 * t * x 18 * x 7 * x 70 * x 91 * x 92 - x 156 * x 74 - x 156 * x 75 - x 156 * x 76 - x 157 * x
    20 - x 159 * x 20 + 2 * x 18 * x 7 * x 9,
  2 * t * x 18 * x 7 * x 9 * x 91 * x 92 + x 18 * x 7 - x 19 * x 38 - x 52 - x 53 - x 55 * x 86 - x
    55 * x 90,
  2 * t * x 18 * x 7 * x 91 * x 92 - x 20 * x 86 - x 20 * x 90,
  6 * s * x 31 - x 117 * x 172 + x 14 * x 165 + x 14 * x 169 - x 14 * x 171 - x 160 * x 39 - x 161
    * x 33 - x 161 * x 36 - x 161 * x 38 + x 161 + x 163 * x 33 + x 163 * x 36 + x 163 * x 38 - x
    163 - x 165 * x 22 - x 169 * x 22 + x 171 * x 22 + x 172 * x 86 + x 172 * x 90,
  2 * t * x 16 * x 29 * x 49 + 2 * t * x 18 * x 40 * x 8 * x 9 + t * x 33 * x 37 * x 41 * x 60 * x
    61 * x 9 + t * x 33 * x 41 * x 60 * x 61 * x 9 + t * x 36 * x 41 * x 60 * x 61 * x 9 - x 10 * x
    178 - x 10 * x 179 - x 10 * x 372 + x 12 * x 13 * x 41 * x 60 * x 61 + 2 * x 12 * x 18 * x 21 *
    x 40 * x 8 - x 126 * x 56 - x 128 * x 56 - x 14 * x 177 + 2 * x 16 * x 28 * x 29 * x 49 * x 9 *
    x 91 * x 92 - x 173 * x 22 - x 174 - x 176 * x 33 - x 176 * x 36 - x 176 * x 38,
  2 * t * x 18 * x 40 * x 8 + t * x 33 * x 37 * x 41 * x 60 * x 61 + t * x 33 * x 41 * x 60 * x 61
    + t * x 36 * x 41 * x 60 * x 61 + 2 * x 16 * x 28 * x 29 * x 49 * x 91 * x 92 - x 33 * x 59 - x
    36 * x 59 - x 38 * x 59 - x 56 * x 86 - x 56 * x 90 - x 63,
  (-x 127) * x 64 + x 157 * x 25 + x 159 * x 25 + x 180 * x 74 + x 180 * x 75 + x 180 * x 76 - x
    181 * x 25,
  (-x 117) * x 65 + x 38 * x 64 - x 64 + x 65 * x 86 + x 65 * x 90 + x 66 + x 67,
  x 25 * (-x 117 + x 373),
  x 116 * x 183 - x 182 * x 86 - x 183 * x 22 + 2 / x 87,
  -x 157 - x 159 + 2 * x 70 * x 91 * x 92,
  -x 126 - x 128 + 2 * x 9 * x 91 * x 92,
  -x 373 + 2 * x 91 * x 92]

/-- `d4L` of `_logpdf4`. -/
def d4L4 : List Expr := [
  15 / 8 * t * x 12 * x 13 * x 139 * x 198 * x 199 + 3 / 4 * t * x 12 * x 197 * x 21 * x 60 * x 95
    + 3 / 2 * t * x 12 * x 21 * x 5 * x 60 * x 95 + 15 / 4 * x 118 * x 188 * x 28 * x 93 + 12 * x
    12 * x 13 * x 5 * x 60 * x 87 * x 95 + 6 * x 12 * x 21 * x 5 * x 60 * x 87 * x 95 - x 134 * x
    186 - x 137 * x 186 - 15 / 8 * x 139 * x 198 * x 201 - x 184 + 8 * x 185 * x 33 * x 37 * x 49 *
    x 79 - x 186 * x 195 - 2 * x 186 - x 187 + 6 * x 190 * x 6 * x 84 * (m - y) - x 194 * x 33 - x
    194 * x 36 - x 194 * x 38 - 3 / 4 * x 196 * x 197 - x 196 * x 82 - x 203 * x 204 * x 87 + 4 * x
    28 * x 33 * x 37 * x 49 * x 79 + 4 * x 28 * x 33 * x 49 * x 79 + 4 * x 28 * x 36 * x 49 * x 79
    + 2 * x 5 * x 83 * x 84 - 4 * x 81 - 3 * x 85,
  (-x 107) * x 38 + x 107 - x 109 - x 110 - x 131 * x 206 + x 134 * x 214 + x 137 * x 214 - x 14 *
    x 215 + x 14 * x 220 + x 14 * x 221 + x 160 * x 205 + x 195 * x 214 + x 201 * x 229 - x 202 * x
    225 * x 227 + 3 * x 205 * x 213 * x 84 + x 207 * x 208 - x 209 * x 33 - x 209 * x 36 - x 209 *
    x 38 + x 209 + x 211 * x 33 + x 211 * x 36 + x 211 * x 38 - x 211 + x 212 * x 33 + x 212 * x 36
    + x 212 * x 38 - x 212 - x 214 * x 224 + x 215 * x 22 + x 216 * x 217 + x 216 * x 218 - x 216 *
    x 219 - x 217 * x 223 - x 218 * x 223 + x 219 * x 223 - x 22 * x 220 - x 22 * x 221 - x 228 * x
    229 - x 231 * x 232 * x 5 + x 232 * x 234,
  t * x 33 * x 37 * x 40 * x 41 * x 9 + 3 * t * x 33 * x 37 * x 49 * x 5 * x 79 + t * x 33 * x 40 *
    x 41 * x 9 + 3 * t * x 33 * x 49 * x 5 * x 79 + t * x 36 * x 40 * x 41 * x 9 + 3 * t * x 36 * x
    49 * x 5 * x 79 + 3 / 4 * t * x 60 * x 9 * x 93 * x 95 + 6 * x 12 * x 13 * x 28 * x 49 * x 5 *
    x 79 * x 9 + x 12 * x 13 * x 40 * x 41 + 3 * x 12 * x 21 * x 28 * x 49 * x 5 * x 79 * x 9 + 3 /
    4 * x 12 * x 21 * x 60 * x 93 * x 95 - x 124 - 6 * x 125 * x 28 - x 125 - x 127 * x 89 - 12 * x
    14 * x 28 * x 88 - x 226 * x 238 - 3 * x 235 * x 80 - x 236 * x 89 - x 237 * x 89 - x 239 * x
    33 - x 239 * x 36 - x 239 * x 38 - x 240 * x 89 - x 241 * x 9 + 6 * x 28 * x 40 * x 41 * x 91 *
    x 92 + 8 * x 33 * x 37 * x 40 * x 41 * x 87 * x 9,
  t * x 33 * x 37 * x 40 * x 41 + t * x 33 * x 40 * x 41 + t * x 36 * x 40 * x 41 + 3 / 4 * t * x
    60 * x 93 * x 95 - x 113 * x 99 + 6 * x 12 * x 13 * x 28 * x 49 * x 5 * x 79 + 3 * x 12 * x 21
    * x 28 * x 49 * x 5 * x 79 - x 134 * x 89 - x 137 * x 89 - x 195 * x 89 - x 241 + 8 * x 33 * x
    37 * x 40 * x 41 * x 87 - x 33 * x 98 - x 36 * x 98 - x 38 * x 98 - x 43,
  15 / 2 * t * x 12 * x 13 * x 140 * x 199 * x 255 * x 5 + 6 * t * x 12 * x 13 * x 41 * x 5 * x 60
    + 27 / 2 * t * x 12 * x 139 * x 16 * x 21 * x 5 * x 95 - x 1 * x 160 - x 1 * x 190 * x 243 - 14
    * x 101 * x 119 - x 101 * x 131 * x 225 + 8 * x 118 * x 16 * x 185 * x 33 * x 37 * x 79 + 14 *
    x 118 * x 16 * x 28 * x 33 * x 37 * x 79 + 14 * x 118 * x 16 * x 28 * x 33 * x 79 + 14 * x 118
    * x 16 * x 28 * x 36 * x 79 + 4 * x 118 * x 28 * x 33 * x 37 * x 5 * x 79 * x 8 + 4 * x 118 * x
    28 * x 33 * x 5 * x 79 * x 8 + 4 * x 118 * x 28 * x 36 * x 5 * x 79 * x 8 - x 119 * x 242 + 2 *
    x 12 * x 13 * x 139 * x 16 * x 5 * x 87 * x 95 + 20 * x 12 * x 13 * x 139 * x 61 * x 87 * x 95
    + x 12 * x 139 * x 16 * x 21 * x 5 * x 87 * x 95 + 10 * x 12 * x 139 * x 21 * x 61 * x 87 * x
    95 - x 134 * x 249 - x 137 * x 249 + 8 * x 140 * x 166 * x 188 * x 28 - 15 / 2 * x 140 * x 199
    * x 22 * x 235 * x 255 + 7 / 2 * x 166 * x 188 * x 28 * x 5 * x 61 - x 187 - x 195 * x 249 - x
    203 * x 22 * x 42 - 12 * x 22 * x 251 - x 224 * x 246 - 27 / 2 * x 226 * x 235 * x 256 - x 234
    * x 256 - x 244 * x 33 - x 244 * x 36 - x 244 * x 38 - x 247 * x 33 - x 247 * x 36 - x 250 * x
    33 - x 250 * x 36 - x 250 * x 38 - x 251 * x 252 - 10 * x 253 * x 254 + 6 * x 28 * x 29 * x 49
    + 2 * x 31 + 12 * x 41 * x 60 * x 8 * x 87 * x 91 * x 92,
  x 115 * x 127 + x 115 * x 236 + x 115 * x 237 + x 115 * x 240 - x 115 * x 280 + x 120 * x 226 - x
    120 * x 230 - x 127 * x 282 * x 5 + x 134 * x 263 - x 134 * x 267 + x 137 * x 263 - x 137 * x
    267 + x 217 * x 272 + x 218 * x 272 + x 22 * x 265 + x 258 * x 38 - x 258 - x 261 * x 38 + x
    261 - x 262 * x 33 - x 262 * x 36 - x 262 * x 38 + x 262 - x 264 * x 270 - x 266 * x 33 - x 266
    * x 36 - x 266 * x 38 + x 266 + x 269 * x 33 + x 269 * x 36 + x 269 * x 38 - x 269 + x 27 * x
    276 - x 27 * x 279 - x 27 * x 374 - x 271 * x 273 + x 274 * x 275 - x 275 * x 278 - x 277 * x 9
    + x 281 * x 9 + x 283 * x 9,
  (-x 105) * x 282 - x 112 * x 33 - x 112 * x 36 - x 112 * x 38 + x 112 + x 114 * x 284 + x 115 * x
    134 + x 115 * x 137 + x 115 * x 195 - x 115 * x 224 + x 121 * x 33 + x 121 * x 36 + x 121 * x
    38 - x 121 + x 22 * x 276 - x 22 * x 279 - x 22 * x 374 + x 274 * x 285 - x 277 - x 278 * x 285
    + x 281 + x 283,
  2 * t * x 12 * x 13 * x 40 * x 41 * x 5 * x 70 + t * x 12 * x 21 * x 40 * x 41 * x 5 * x 70 + 8 *
    t * x 15 * x 29 * x 9 * x 91 * x 92 - x 122 * x 33 - x 122 * x 36 - x 122 * x 38 + 8 * x 15 * x
    28 * x 29 * x 33 * x 37 * x 70 + 2 * x 15 * x 29 - x 158 * x 35 - x 286 * x 35 - x 287 * x 35 -
    x 288 * x 289 - x 288 * x 375 - x 290 * x 35 - x 291 * x 70 + x 33 * x 37 * x 40 * x 41 * x 5 *
    x 9 + x 33 * x 40 * x 41 * x 5 * x 9 + x 36 * x 40 * x 41 * x 5 * x 9 - x 5 * x 88 * x 9,
  2 * t * x 12 * x 13 * x 40 * x 41 * x 5 * x 9 + t * x 12 * x 21 * x 40 * x 41 * x 5 * x 9 + 4 * t
    * x 15 * x 29 * x 91 * x 92 - x 124 * x 233 - x 127 * x 35 + 8 * x 15 * x 28 * x 29 * x 33 * x
    37 * x 9 - 4 * x 22 * x 292 - x 236 * x 35 - x 237 * x 35 - x 240 * x 35 - x 285 * x 292 + 1 /
    2 * x 33 * x 37 * x 40 * x 41 * x 5 + 1 / 2 * x 33 * x 40 * x 41 * x 5 + 1 / 2 * x 36 * x 40 *
    x 41 * x 5 - x 6 * x 88,
  2 * t * x 12 * x 13 * x 40 * x 41 * x 5 + t * x 12 * x 21 * x 40 * x 41 * x 5 - x 134 * x 35 - x
    137 * x 35 + 8 * x 15 * x 28 * x 29 * x 33 * x 37 - x 195 * x 35 - x 291 - 2 * x 35,
  (-x 113) * x 116 * x 310 + x 134 * x 298 + x 137 * x 298 - x 14 * x 305 * x 42 - x 164 * x 22 * x
    49 + x 164 * x 270 + x 195 * x 298 + x 201 * x 302 - x 206 * x 243 + 24 * x 213 * x 39 - x 22 *
    x 303 * x 96 - x 224 * x 298 - 24 * x 227 * x 245 - x 228 * x 302 - x 231 * x 309 + x 242 * x
    254 + x 253 * x 309 + x 293 * x 33 + x 293 * x 36 + x 293 * x 38 - x 293 + x 296 * x 33 + x 296
    * x 36 + x 296 * x 38 - x 296 - x 297 * x 33 - x 297 * x 36 - x 297 * x 38 + x 297 + x 303 * x
    304 + x 305 * x 306 + x 307 * x 308 + x 310 * x 311,
  6 * t * x 118 * x 33 * x 37 * x 61 * x 79 + 6 * t * x 118 * x 33 * x 61 * x 79 + 6 * t * x 118 *
    x 36 * x 61 * x 79 + 3 * t * x 139 * x 140 * x 9 * x 95 + 5 * t * x 16 * x 33 * x 37 * x 41 * x
    60 * x 9 + 5 * t * x 16 * x 33 * x 41 * x 60 * x 9 + 5 * t * x 16 * x 36 * x 41 * x 60 * x 9 +
    2 * t * x 18 * x 40 * x 9 + 8 * t * x 29 * x 49 * x 8 - x 10 * x 313 + 12 * x 118 * x 12 * x 13
    * x 28 * x 61 * x 79 * x 9 + 6 * x 118 * x 12 * x 21 * x 28 * x 61 * x 79 * x 9 + 5 * x 12 * x
    13 * x 16 * x 41 * x 60 + 3 * x 12 * x 139 * x 140 * x 21 * x 95 + 2 * x 12 * x 18 * x 21 * x
    40 - x 127 * x 146 - x 133 * x 312 - 16 * x 136 * x 26 - x 14 * x 316 - x 14 * x 320 * x 321 -
    x 146 * x 236 - x 146 * x 237 - x 146 * x 240 + 6 * x 16 * x 28 * x 41 * x 60 * x 91 * x 92 + 8
    * x 16 * x 33 * x 37 * x 41 * x 60 * x 87 * x 9 - x 162 * x 22 * x 321 - x 22 * x 313 - x 224 *
    x 314 - x 226 * x 318 - x 27 * x 322 + 8 * x 28 * x 29 * x 49 * x 8 * x 9 * x 91 * x 92 - x 315
    * x 33 - x 315 * x 36 - x 317 * x 33 - x 317 * x 36 - x 317 * x 38 - x 319 * x 33 - x 319 * x
    36 - x 319 * x 38 - x 323 * x 9,
  3 * t * x 139 * x 140 * x 95 + 5 * t * x 16 * x 33 * x 37 * x 41 * x 60 + 5 * t * x 16 * x 33 * x
    41 * x 60 + 5 * t * x 16 * x 36 * x 41 * x 60 + 2 * t * x 18 * x 40 - x 103 * x 113 + 12 * x
    118 * x 12 * x 13 * x 28 * x 61 * x 79 + 6 * x 118 * x 12 * x 21 * x 28 * x 61 * x 79 - x 134 *
    x 146 - x 136 * x 289 - x 137 * x 146 - x 138 * x 33 - x 138 * x 36 - x 138 * x 38 - x 143 * x
    33 - x 143 * x 36 - x 143 * x 38 - x 145 - x 146 * x 195 + 8 * x 16 * x 33 * x 37 * x 41 * x 60
    * x 87 - x 22 * x 322 + 8 * x 28 * x 29 * x 49 * x 8 * x 91 * x 92 - x 323,
  (-x 116) * x 330 + x 127 * x 150 - x 127 * x 23 + x 157 * x 24 - x 157 * x 51 + x 158 * x 47 + x
    159 * x 24 - x 159 * x 51 - x 181 * x 24 + x 181 * x 51 + x 22 * x 330 + x 286 * x 47 + x 287 *
    x 47 + x 289 * x 329 + x 290 * x 47 + x 325 * x 33 + x 325 * x 36 + x 325 * x 38 - x 325 + x
    326 * x 74 + x 326 * x 75 + x 326 * x 76 - x 327 * x 74 - x 327 * x 75 - x 327 * x 76 - x 331 *
    x 47,
  (-x 117) * x 149 + x 117 * x 151 + x 149 * x 86 + x 149 * x 90 - x 150 * x 38 + x 150 - x 151 * x
    86 - x 151 * x 90 + x 152 + x 153 - x 154 - x 155 + x 23 * x 38 - x 23 + x 236 * x 47 + x 237 *
    x 47 + x 240 * x 47 - x 280 * x 47 + x 285 * x 332 + x 332 * x 333 - x 332 * x 376 + x 371,
  (-x 117) * x 24 + x 117 * x 51 + x 134 * x 47 + x 137 * x 47 + x 195 * x 47 - x 224 * x 47 + x 24
    * x 86 + x 24 * x 90 + 2 * x 47 - x 51 * x 86 - x 51 * x 90,
  8 * t * x 18 * x 182 * x 33 * x 37 * x 7 + 6 * x 18 * x 7 * x 70 * x 91 * x 92 - x 183 * x 20 - x
    19 * x 22 * x 337 - x 20 * x 334 - x 20 * x 335 - x 20 * x 338 - x 336 * x 54,
  8 * t * x 18 * x 33 * x 37 * x 7 * x 70 - x 158 * x 20 + 4 * x 18 * x 7 * x 9 * x 91 * x 92 - x
    19 * x 275 - x 19 * x 339 - x 20 * x 286 - x 20 * x 287 - x 20 * x 290,
  8 * t * x 18 * x 33 * x 37 * x 7 * x 9 - x 134 * x 55 - x 137 * x 55 + 2 * x 18 * x 7 * x 91 * x
    92 - x 19 * x 86 - x 19 * x 90 - x 195 * x 55 - 2 * x 55,
  8 * t * x 18 * x 33 * x 37 * x 7 - x 134 * x 20 - x 137 * x 20 - x 195 * x 20 - 2 * x 20,
  48 * t * x 12 * x 13 * x 139 * x 41 * x 61 + 15 * t * x 12 * x 13 * x 199 * x 343 * x 344 + 45 *
    t * x 12 * x 167 * x 21 * x 255 * x 95 + 24 * t * x 12 * x 18 * x 21 * x 60 * x 8 - 40 * x 101
    * x 245 - x 106 * x 252 * x 57 + 36 * x 118 * x 16 * x 28 * x 29 + 24 * x 12 * x 13 * x 167 * x
    255 * x 87 * x 95 + 12 * x 12 * x 167 * x 21 * x 255 * x 87 * x 95 - 48 * x 130 - x 134 * x 341
    - x 137 * x 341 + 24 * x 139 * x 41 * x 61 * x 87 * x 91 * x 92 + 8 * x 140 * x 166 * x 185 * x
    33 * x 37 * x 79 + 40 * x 140 * x 166 * x 28 * x 33 * x 37 * x 79 + 40 * x 140 * x 166 * x 28 *
    x 33 * x 79 + 40 * x 140 * x 166 * x 28 * x 36 * x 79 - x 184 + 15 * x 188 * x 28 * x 299 * x
    300 + 48 * x 189 * x 48 - x 195 * x 341 - 15 * x 201 * x 343 * x 344 - x 242 * x 245 - 12 * x
    253 * x 295 - 24 * x 254 * x 311 - 45 * x 295 * x 304 - x 306 * x 345 - x 308 * x 345 - x 33 *
    x 340 - x 33 * x 342 - x 340 * x 36 - x 340 * x 38 - x 342 * x 36 - x 342 * x 38,
  x 127 * x 172 - x 133 * x 273 * x 41 + x 14 * x 349 - x 14 * x 353 + x 172 * x 236 + x 172 * x
    237 + x 172 * x 240 - x 172 * x 280 + x 217 * x 355 - x 218 * x 348 + x 218 * x 355 + x 22 * x
    353 + x 226 * x 351 - x 230 * x 351 - 12 * x 26 * x 356 + 24 * x 26 * x 357 - 6 * x 27 * x 356
    + x 27 * x 358 - x 33 * x 346 + x 33 * x 347 + x 33 * x 350 + x 33 * x 352 - x 33 * x 354 - x
    346 * x 36 - x 346 * x 38 + x 346 + x 347 * x 36 + x 347 * x 38 - x 347 + x 350 * x 36 + x 350
    * x 38 - x 350 + x 352 * x 36 + x 352 * x 38 - x 352 - x 354 * x 36 - x 354 * x 38 + x 354 + x
    359 * x 9 - x 360 * x 9,
  x 133 * x 284 + x 134 * x 172 + x 137 * x 172 + x 165 * x 33 + x 165 * x 36 + x 165 * x 38 - x
    165 + x 169 * x 33 + x 169 * x 36 + x 169 * x 38 - x 169 - x 171 * x 33 - x 171 * x 36 - x 171
    * x 38 + x 171 + x 172 * x 195 - x 172 * x 224 - x 217 * x 356 - x 218 * x 356 + x 22 * x 358 +
    x 252 * x 357 + x 359 - x 360,
  4 * t * x 12 * x 13 * x 41 * x 60 * x 61 * x 70 + 2 * t * x 12 * x 21 * x 41 * x 60 * x 61 * x 70
    + 8 * t * x 16 * x 29 * x 49 * x 9 * x 91 * x 92 + 4 * t * x 18 * x 40 * x 70 * x 8 * x 91 * x
    92 - x 127 * x 173 - x 158 * x 56 + 8 * x 16 * x 28 * x 29 * x 33 * x 37 * x 49 * x 70 + 2 * x
    16 * x 29 * x 49 + 4 * x 18 * x 40 * x 8 * x 9 - x 181 * x 63 - x 236 * x 362 - x 237 * x 362 -
    x 286 * x 56 - x 287 * x 56 - x 289 * x 363 - x 290 * x 56 - x 33 * x 361 + 2 * x 33 * x 37 * x
    41 * x 60 * x 61 * x 9 + 2 * x 33 * x 41 * x 60 * x 61 * x 9 - x 36 * x 361 + 2 * x 36 * x 41 *
    x 60 * x 61 * x 9 - x 361 * x 38 - 4 * x 362 * x 76 - x 363 * x 375 - x 365 * x 70 - x 366 * x
    70,
  4 * t * x 12 * x 13 * x 41 * x 60 * x 61 * x 9 + 2 * t * x 12 * x 21 * x 41 * x 60 * x 61 * x 9 +
    4 * t * x 16 * x 29 * x 49 * x 91 * x 92 + 4 * t * x 18 * x 40 * x 8 * x 9 * x 91 * x 92 - x
    117 * x 174 - x 127 * x 56 + 8 * x 16 * x 28 * x 29 * x 33 * x 37 * x 49 * x 9 - x 173 - x 175
    * x 285 - x 175 * x 333 - x 178 - x 179 + 2 * x 18 * x 40 * x 8 - x 236 * x 56 - x 237 * x 56 -
    x 240 * x 56 - x 285 * x 367 + x 33 * x 37 * x 41 * x 60 * x 61 + x 33 * x 41 * x 60 * x 61 - x
    333 * x 367 + x 36 * x 41 * x 60 * x 61 - x 372,
  4 * t * x 12 * x 13 * x 41 * x 60 * x 61 + 2 * t * x 12 * x 21 * x 41 * x 60 * x 61 + 4 * t * x
    18 * x 40 * x 8 * x 91 * x 92 - x 117 * x 63 - x 134 * x 56 - x 137 * x 56 + 8 * x 16 * x 28 *
    x 29 * x 33 * x 37 * x 49 - x 195 * x 56 - x 365 - x 366 - 2 * x 56,
  (-x 182) * x 224 * x 25 + x 183 * x 25 - x 219 * x 64 * x 70 + x 25 * x 334 + x 25 * x 335 + x 25
    * x 338 + x 336 * x 68 + x 337 * x 69,
  x 158 * x 25 + x 25 * x 286 + x 25 * x 287 + x 25 * x 290 - x 25 * x 331 + x 275 * x 64 + x 339 *
    x 64 - x 376 * x 64 * x 9,
  (-x 117) * x 64 + x 134 * x 65 + x 137 * x 65 + x 195 * x 65 - x 224 * x 65 + x 64 * x 86 + x 64
    * x 90 + 2 * x 65,
  x 25 * (-x 224 + x 377),
  x 368 * x 378 - 6 / x 185,
  8 * x 182 * x 33 * x 37 - x 183 - x 334 - x 335 - x 338,
  -x 158 - x 286 - x 287 - x 290 + 8 * x 33 * x 37 * x 70,
  -x 127 - x 236 - x 237 - x 240 + 8 * x 33 * x 37 * x 9,
  x 378]

/-- `_logpdf4` (`/repo/pystatsm/misc/shash_lpdf4.py:12-479`): the log density and the arrays of its derivatives. -/
def logpdf4 : Prog := ⟨body4, [[lnp], d1L4, d2L4, d3L4, d4L4]⟩

end Verif.Misc.Shash
