import Verif.Misc.Expr

/-!
# The sinh-arcsinh distribution of `sash.py`: derivatives of the log density
-/

namespace Verif.Misc.Sash

open Expr

/-- Argument `obs`. -/
abbrev obs : Expr := inp 0
/-- Argument `m`. -/
abbrev m : Expr := inp 1
/-- Argument `s`. -/
abbrev s : Expr := inp 2
/-- Argument `v`. -/
abbrev v : Expr := inp 3
/-- Argument `t`. -/
abbrev t : Expr := inp 4

/-- The assignments of `_d1logpdf` (`/repo/pystatsm/misc/sash.py:52-74`). -/
def body1 : List Expr := [
  -- `si1`
  1 / s,
  -- `si2`
  x 0 / s,
  -- `r`
  obs - m,
  -- `r2`
  (x 2) ^ 2,
  -- `rs`
  x 1 * x 3,
  -- `z`
  npow (x 4 + 1) 1,
  -- `u`
  fn .arcsinh (x 2 * x 0),
  -- `y`
  t * x 6 - v,
  fn .sinh (x 7),
  fn .cosh (x 7),
  x 8 * x 9,
  t / fn .sqrt (x 4 + 1),
  x 11 * x 0,
  x 8 / x 9,
  x 1 * x 2 * x 11,
  -- `m`
  (-1) / 2 * x 1 * x 5 * (2 * m - 2 * obs) + x 10 * x 12 - x 12 * x 13,
  -- `s`
  x 10 * x 14 - x 13 * x 14 - x 0 + x 3 * x 5 / s ^ 3,
  -- `v`
  x 10 - x 13,
  -- `t`
  (-x 10) * x 6 + x 13 * x 6 + npow t 1]

/-- `D1`: the returned entries in order. -/
def D1 : List Expr := [
  x 15,
  x 16,
  x 17,
  x 18]

/-- The assignments of `_d2logpdf` (`/repo/pystatsm/misc/sash.py:76-129`). -/
def body2 : List Expr := [
  npow s 2,
  m - obs,
  x 0 * (x 1) ^ 2,
  x 2 + 1,
  npow (x 3) 1,
  t ^ 2,
  x 2 + 1,
  x 5 / x 6,
  2 / (x 3) ^ 2,
  npow s 1,
  x 1 * x 9,
  fn .arcsinh (x 10),
  t * x 11,
  v + x 12,
  fn .sinh (x 13),
  (x 14) ^ 2,
  x 15 * x 7,
  fn .cosh (x 13),
  (x 17) ^ 2,
  x 18 * x 7,
  x 15 / x 18,
  x 20 * x 7,
  x 14 * x 17,
  t / fn (.rpow (3 / 2)) (x 6),
  x 10 * x 23,
  x 14 / x 17,
  2 * x 10,
  (x 1) ^ 3 / s ^ 3,
  1 / fn .sqrt (x 6),
  t * x 28,
  x 22 * x 29,
  x 25 * x 29,
  x 2 * x 23,
  -x 15 - x 18 - x 20 + 1,
  x 28 * x 9,
  x 12 * x 15,
  x 12 * x 18,
  x 12 * x 20,
  x 23 * x 27,
  x 0 * x 1,
  (x 11) ^ 2,
  -- `mm`
  x 0 * (-x 16 - x 19 + x 2 * x 8 - x 21 + x 22 * x 24 - x 24 * x 25 - x 4 + x 7),
  -- `ms`
  x 0 * (x 10 * x 16 + x 10 * x 19 + x 10 * x 21 - x 10 * x 7 - x 22 * x 32 + x 25 * x 32 + x 26 *
    x 4 - x 27 * x 8 + x 30 - x 31),
  -- `mv`
  t * x 33 * x 34,
  -- `mt`
  x 34 * (x 12 - x 22 + x 25 - x 35 - x 36 - x 37),
  -- `ss`
  x 0 * ((-x 16) * x 2 - x 19 * x 2 - x 2 * x 21 - 3 * x 2 * x 4 + x 2 * x 7 + x 22 * x 38 - x 25 *
    x 38 - x 26 * x 30 + x 26 * x 31 + 1 + (x 1) ^ 4 * x 8 / s ^ 4),
  -- `sv`
  x 29 * x 39 * (x 15 + x 18 + x 20 - 1),
  -- `st`
  x 28 * x 39 * (-x 12 + x 22 - x 25 + x 35 + x 36 + x 37),
  -- `vv`
  x 33,
  -- `vt`
  x 11 * x 33,
  -- `tt`
  (-x 15) * x 40 - x 18 * x 40 - x 20 * x 40 + x 40 - 1 / x 5]

/-- `D2`: the returned entries in order. -/
def D2 : List Expr := [
  x 41,
  x 42,
  x 43,
  x 44,
  x 45,
  x 46,
  x 47,
  x 48,
  x 49,
  x 50]

/-- The assignments of `_d3logpdf` (`/repo/pystatsm/misc/sash.py:131-289`). -/
def body3 : List Expr := [
  npow s 3,
  npow s 2,
  m - obs,
  x 1 * (x 2) ^ 2,
  x 3 + 1,
  npow (x 4) 2,
  npow s 1,
  x 2 * x 6,
  6 * x 7,
  8 / (x 4) ^ 3,
  x 0 * (x 2) ^ 3,
  t ^ 2,
  x 11 * x 7,
  x 3 + 1,
  3 / (x 13) ^ 2,
  x 12 * x 14,
  fn .arcsinh (x 7),
  t * x 16,
  v + x 17,
  fn .sinh (x 18),
  (x 19) ^ 2,
  fn .cosh (x 18),
  (x 21) ^ 2,
  fn (.rpow (-3 / 2)) (x 13),
  t * x 23,
  x 19 * x 21,
  x 24 * x 25,
  npow (x 21) 1,
  x 19 * x 27,
  x 24 * x 28,
  t ^ 3,
  x 23 * x 30,
  4 * x 25,
  x 31 * x 32,
  2 * x 19,
  x 27 * x 34,
  x 31 * x 35,
  npow (x 21) 3,
  (x 19) ^ 3 * x 37,
  2 * x 38,
  x 31 * x 39,
  3 * t,
  x 41 / fn (.rpow (5 / 2)) (x 13),
  x 3 * x 42,
  npow (x 22) 1,
  x 20 * x 44,
  npow (x 4) 1,
  npow (x 13) 1,
  2 * x 47,
  x 11 * x 48,
  (x 2) ^ 4 / s ^ 4,
  x 11 * x 14,
  x 3 * x 51,
  x 23 * x 7,
  x 25 * x 53,
  x 10 * x 42,
  x 28 * x 53,
  x 30 * x 53,
  x 20 * x 53,
  x 22 * x 53,
  x 32 * x 47,
  t * x 60,
  t * x 48,
  x 28 * x 62,
  x 38 * x 62,
  x 45 * x 53,
  t * x 1,
  x 20 * x 62,
  x 22 * x 62,
  x 45 * x 62,
  x 16 * x 60,
  x 16 * x 49,
  x 28 * x 71,
  x 38 * x 71,
  (x 2) ^ 5 / s ^ 5,
  4 * x 12 * x 47,
  x 10 * x 51,
  2 * x 21,
  1 / fn .sqrt (x 13),
  x 19 * x 78,
  x 77 * x 79,
  2 * x 78,
  x 28 * x 81,
  x 42 * x 50,
  x 23 * x 3,
  x 25 * x 84,
  5 * t,
  x 28 * x 84,
  x 30 * x 84,
  x 20 * x 78,
  x 22 * x 78,
  x 20 * x 84,
  x 22 * x 84,
  x 44 * x 89,
  x 61 * x 7,
  x 63 * x 7,
  x 64 * x 7,
  x 45 * x 84,
  x 62 * x 7,
  x 17 * x 84,
  x 67 * x 7,
  x 68 * x 7,
  x 21 * x 79,
  x 27 * x 79,
  x 17 * x 91,
  x 17 * x 92,
  x 69 * x 7,
  x 12 * x 70,
  x 7 * x 72,
  x 17 * x 97,
  x 7 * x 73,
  x 20 * x 37,
  x 111 - x 27 - x 77,
  x 6 * x 81,
  x 17 * x 32,
  x 17 * x 35,
  x 17 * x 38,
  2 * x 116,
  -x 20 - x 22 - x 45 + 1,
  x 17 * x 28,
  x 19 * x 77,
  x 120 * x 17,
  x 50 * x 51,
  6 * x 11 * x 3 * x 47,
  t * x 8,
  x 42 * x 74,
  7 * x 10,
  2 * x 89,
  2 * x 90,
  2 * x 93,
  x 0 * x 2,
  x 20 + x 22 + x 45 - 1,
  x 1 * x 2,
  x 112 * x 34,
  (x 16) ^ 3,
  -- `mmm`
  x 0 * ((-x 10) * x 9 + x 15 * x 20 + x 15 * x 22 + x 15 * x 45 - x 15 - x 25 * x 43 + x 26 + x 28
    * x 43 - x 29 - x 33 - x 36 + x 40 + x 5 * x 8),
  -- `mms`
  x 0 * (x 20 * x 49 - x 20 * x 52 + x 22 * x 49 - x 22 * x 52 + x 25 * x 55 - x 28 * x 55 - 10 * x
    3 * x 5 + x 32 * x 57 + x 35 * x 57 - x 39 * x 57 - x 41 * x 54 + x 41 * x 56 + x 45 * x 49 - x
    45 * x 52 + 2 * x 46 - x 49 + x 50 * x 9 + x 52),
  -- `mmv`
  x 66 * (-x 53 + x 58 + x 59 - x 61 - x 63 + x 64 + x 65),
  -- `mmt`
  x 1 * ((-x 11) * x 70 - x 17 * x 53 + x 17 * x 58 + x 17 * x 59 + x 17 * x 65 + x 54 - x 56 + x
    62 - x 67 - x 68 - x 69 - x 72 + x 73),
  -- `mss`
  x 0 * ((-t) * x 80 + t * x 82 + 14 * x 10 * x 5 - x 20 * x 75 + x 20 * x 76 - x 22 * x 75 + x 22
    * x 76 - x 25 * x 83 + x 28 * x 83 - x 32 * x 88 - x 35 * x 88 + x 39 * x 88 - x 45 * x 75 + x
    45 * x 76 - x 46 * x 8 - x 74 * x 9 + x 75 - x 76 + x 85 * x 86 - x 86 * x 87),
  -- `msv`
  x 66 * (-x 78 + x 84 + x 89 + x 90 - x 91 - x 92 + x 93 + x 94 + x 95 - x 96 - x 97),
  -- `mst`
  x 1 * (x 100 + x 101 + x 102 - x 103 - x 104 - x 105 + x 106 + x 107 + x 108 - x 109 - x 110 - x
    17 * x 78 + x 17 * x 89 + x 17 * x 90 + x 17 * x 93 - x 85 + x 87 - x 98 + x 99),
  -- `mvv`
  t * x 112 * x 113 * x 19,
  -- `mvt`
  x 6 * x 78 * (-x 114 - x 115 + x 117 + x 118),
  -- `mtt`
  x 113 * x 16 * (x 116 + x 118 - x 119 - x 121),
  -- `sss`
  x 0 * (x 10 * x 33 + x 10 * x 36 - x 10 * x 40 + x 102 * x 124 - x 103 * x 124 - x 122 * x 20 - x
    122 * x 22 - x 122 * x 45 + x 122 + x 123 * x 20 + x 123 * x 22 + x 123 * x 45 - x 123 + x 125
    * x 25 - x 125 * x 28 - x 126 * x 26 + x 126 * x 29 + 12 * x 3 * x 46 - 18 * x 5 * x 50 - 2 +
    (x 2) ^ 6 * x 9 / s ^ 6),
  -- `ssv`
  t * x 130 * (-x 127 - x 128 - x 129 + x 81 - x 84 + x 91 + x 92 - x 94 - x 95 + x 96 + x 97),
  -- `sst`
  x 130 * (-x 100 - x 101 + x 104 + x 105 - x 106 - x 107 - x 108 + x 109 + x 110 - x 127 * x 17 -
    x 128 * x 17 - x 129 * x 17 + x 17 * x 81 - x 80 + x 82 + x 85 - x 87 + x 98 - x 99),
  -- `svv`
  x 19 * x 2 * x 66 * x 81 * (-x 111 + x 27 + x 77),
  -- `svt`
  x 132 * x 78 * (x 114 + x 115 - x 117 + x 131),
  -- `stt`
  x 132 * x 16 * x 81 * (-x 116 + x 119 + x 121 + x 131),
  -- `vvv`
  x 133,
  -- `vvt`
  x 133 * x 16,
  -- `vtt`
  x 133 * (x 16) ^ 2,
  -- `ttt`
  (-2) * x 120 * x 134 - 2 * x 134 * x 28 + 2 * x 134 * x 38 + 2 / x 30]

/-- `D3`: the returned entries in order. -/
def D3 : List Expr := [
  x 135,
  x 136,
  x 137,
  x 138,
  x 139,
  x 140,
  x 141,
  x 142,
  x 143,
  x 144,
  x 145,
  x 146,
  x 147,
  x 148,
  x 149,
  x 150,
  x 151,
  x 152,
  x 153,
  x 154]

/-- The assignments of `_d4logpdf` (`/repo/pystatsm/misc/sash.py:292-671`). -/
def body4 : List Expr := [
  npow s 4,
  npow s 2,
  m - obs,
  x 1 * (x 2) ^ 2,
  x 3 + 1,
  npow (x 4) 2,
  t ^ 2,
  x 3 + 1,
  npow (x 7) 2,
  4 * x 8,
  x 6 * x 9,
  t ^ 4,
  x 11 * x 8,
  2 * x 12,
  48 / (x 4) ^ 4,
  x 0 * (x 2) ^ 4,
  npow (x 4) 3,
  x 3 * x 6,
  15 / (x 7) ^ 3,
  x 17 * x 18,
  npow s 1,
  x 2 * x 20,
  fn .arcsinh (x 21),
  t * x 22,
  v + x 23,
  fn .sinh (x 24),
  (x 25) ^ 2,
  fn .cosh (x 24),
  (x 27) ^ 2,
  x 11 * x 9,
  x 26 * x 29,
  x 28 * x 29,
  npow (x 28) 1,
  x 26 * x 32,
  8 * x 33,
  x 12 * x 34,
  (x 25) ^ 4 / (x 27) ^ 4,
  6 * x 36,
  x 12 * x 37,
  x 25 * x 27,
  t * x 39,
  fn (.rpow (-5 / 2)) (x 7),
  x 21 * x 41,
  9 * x 42,
  15 / fn (.rpow (7 / 2)) (x 7),
  (x 2) ^ 3,
  npow s 3,
  t * x 46,
  x 45 * x 47,
  x 39 * x 48,
  x 25 / x 27,
  t * x 50,
  t ^ 3,
  24 * x 21,
  x 52 * x 53,
  x 39 * x 41,
  x 48 * x 50,
  12 * x 52,
  x 42 * x 57,
  (x 25) ^ 3 / (x 27) ^ 3,
  (x 2) ^ 5 / s ^ 5,
  x 45 * x 46,
  x 21 * x 8,
  x 6 * x 62,
  13 * x 63,
  x 18 * x 6,
  x 61 * x 65,
  fn (.rpow (-3 / 2)) (x 7),
  x 39 * x 67,
  3 * t,
  x 50 * x 67,
  12 * x 68,
  6 * x 52,
  x 59 * x 67,
  x 15 * x 44,
  x 3 * x 41,
  18 * x 75,
  24 * x 52,
  x 55 * x 77,
  x 57 * x 75,
  2 * x 67,
  x 6 * x 80,
  3 * x 41,
  x 3 * x 82,
  x 26 * x 67,
  x 28 * x 67,
  4 * x 6,
  x 84 * x 86,
  x 85 * x 86,
  x 26 * x 83,
  x 28 * x 83,
  x 32 * x 84,
  8 * x 91,
  x 6 * x 92,
  6 * x 6,
  x 36 * x 94,
  12 * x 40,
  6 * t,
  x 62 * x 97,
  x 33 * x 83,
  x 23 * x 67,
  x 22 * x 52,
  x 101 * x 80,
  x 23 * x 84,
  x 23 * x 85,
  4 * x 101,
  x 6 * x 71,
  x 70 * x 94,
  3 * x 50,
  x 108 * x 41,
  x 23 * x 91,
  x 101 * x 92,
  x 101 * x 37,
  12 * x 39,
  x 113 * x 22,
  x 22 * x 94,
  x 115 * x 62,
  npow (x 4) 1,
  npow (x 7) 1,
  x 118 * x 6,
  6 * x 119,
  (x 2) ^ 6 / s ^ 6,
  x 15 * x 65,
  x 17 * x 8,
  22 * x 123,
  x 118 * x 26,
  x 118 * x 28,
  x 125 * x 32,
  x 44 * x 60,
  27 * x 41,
  x 21 * x 70,
  x 41 * x 57,
  x 131 * x 50,
  x 21 * x 67,
  x 133 * x 59,
  x 59 * x 61,
  x 61 * x 82,
  x 21 * x 84,
  x 21 * x 85,
  x 136 * x 26,
  x 136 * x 28,
  t * x 118,
  8 * x 39,
  x 141 * x 142,
  4 * x 141,
  x 144 * x 50,
  x 144 * x 59,
  x 3 * x 8,
  x 21 * x 91,
  x 147 * x 97,
  x 136 * x 33,
  3 * x 21,
  x 144 * x 33,
  x 119 * x 22,
  4 * x 153,
  x 115 * x 147,
  2 * x 26,
  x 141 * x 156,
  2 * x 28,
  x 141 * x 158,
  3 * x 36,
  x 39 * x 80,
  x 161 * x 21,
  2 * x 1,
  t * x 163,
  2 * x 153,
  x 22 * x 86,
  x 127 * x 6,
  8 * x 22,
  x 120 * x 22 * x 36,
  4 * x 23,
  x 23 * x 80,
  x 21 * x 50,
  x 21 * x 59,
  (x 22) ^ 2,
  x 119 * x 174,
  2 * x 174 * x 6,
  x 118 * x 23,
  4 * x 177,
  x 174 * x 86,
  t * x 174,
  (x 2) ^ 7 / s ^ 7,
  18 * x 21,
  x 60 * x 65,
  x 6 * x 8,
  x 184 * x 61,
  31 * x 185,
  x 125 * x 21,
  18 * x 6,
  x 126 * x 21,
  1 / fn .sqrt (x 7),
  6 * x 190,
  x 191 * x 39,
  x 191 * x 50,
  x 121 * x 44,
  36 * x 15,
  x 40 * x 41,
  27 * t,
  x 3 * x 68,
  x 41 * x 51,
  x 3 * x 70,
  36 * x 3,
  x 52 * x 68,
  18 * x 52,
  x 131 * x 59,
  x 3 * x 67,
  x 205 * x 59,
  x 15 * x 82,
  x 207 * x 28,
  x 207 * x 26,
  x 3 * x 81,
  x 3 * x 85,
  x 3 * x 84,
  x 3 * x 88,
  x 3 * x 87,
  x 207 * x 33,
  x 3 * x 91,
  x 141 * x 21,
  16 * x 39,
  8 * x 217,
  x 48 * x 8,
  6 * x 220,
  x 221 * x 59,
  x 205 * x 95,
  x 221 * x 50,
  x 17 * x 92,
  x 113 * x 220,
  2 * x 190,
  x 227 * x 28,
  x 227 * x 26,
  x 229 * x 32,
  x 227 - x 228 - x 229 - x 230,
  x 227 * x 23,
  x 207 * x 23,
  5 * x 3,
  x 102 * x 3,
  x 221 * x 26,
  x 221 * x 28,
  x 227 * x 39,
  x 227 * x 50,
  x 209 * x 23,
  x 208 * x 23,
  x 207 * x 39,
  x 105 * x 212,
  x 105 * x 211,
  x 109 * x 15,
  x 17 * x 71,
  x 221 * x 33,
  x 107 * x 3,
  x 206 * x 94,
  x 114 * x 185,
  8 * x 153,
  x 215 * x 23,
  x 115 * x 8,
  x 253 * x 50 * x 61,
  x 135 * x 253,
  x 111 * x 3,
  x 112 * x 205,
  x 157 * x 21,
  x 159 * x 21,
  x 190 * x 50,
  x 190 * x 59,
  x 161 * x 3,
  x 152 * x 21,
  x 160 * x 217,
  x 190 * x 26,
  x 190 * x 28,
  x 165 * x 21,
  x 265 * x 32,
  x 166 * x 187,
  x 166 * x 189,
  x 142 * x 217,
  4 * x 39,
  x 190 * x 272,
  x 145 * x 21,
  x 146 * x 21,
  x 170 * x 198,
  x 171 * x 3,
  x 277 * x 50,
  x 277 * x 59,
  x 127 * x 21,
  x 168 * x 280 * x 6,
  x 169 * x 21,
  x 118 * x 21,
  x 205 * x 22,
  x 175 * x 21,
  x 212 * x 22,
  x 211 * x 22,
  x 176 * x 187,
  x 176 * x 189,
  x 142 * x 23,
  x 283 * x 290,
  x 170 * x 283,
  x 292 * x 50,
  x 180 * x 262,
  x 292 * x 59,
  x 216 * x 22,
  x 180 * x 200,
  x 180 * x 206,
  x 179 * x 280,
  x 160 * x 285,
  4 * x 33,
  -x 156 - x 158 - x 160 + x 301 - 1,
  x 20 * x 227,
  2 * x 39,
  x 158 * x 23,
  x 156 * x 23,
  x 160 * x 23,
  x 23 * x 301,
  -x 23 - x 305 - x 306 - x 307 + x 308,
  2 * x 50,
  2 * x 59,
  x 22 * x 227,
  6 * x 39,
  3 * x 59,
  x 121 * x 65,
  40 * x 15 * x 184,
  36 * x 17,
  x 181 * x 44,
  45 * x 60,
  48 * x 48,
  x 61 * x 77,
  6 * x 265,
  6 * x 266,
  6 * x 268,
  x 39 * x 53,
  12 * x 217,
  x 0 * x 2,
  7 * x 3,
  12 * x 153,
  x 227 * x 59,
  x 2 * x 46,
  x 1 * x 2,
  x 227 * x 332,
  x 23 + x 305 + x 306 + x 307 - x 308,
  2 * x 302,
  (x 22) ^ 4,
  -- `mmmm`
  x 0 * (x 10 * x 26 + x 10 * x 28 + x 10 * x 33 - x 10 - x 13 + x 14 * x 15 - 48 * x 16 * x 3 - x
    19 * x 26 - x 19 * x 28 - x 19 * x 33 + x 19 - x 30 - x 31 + x 35 - x 38 - x 40 * x 43 + x 43 *
    x 51 + x 44 * x 49 - x 44 * x 56 + 6 * x 5 + x 50 * x 58 + x 54 * x 55 - x 58 * x 59),
  -- `mmms`
  x 0 * (x 13 * x 21 - x 14 * x 60 + 72 * x 16 * x 61 + x 21 * x 30 + x 21 * x 31 - x 21 * x 35 + x
    21 * x 38 - x 26 * x 64 + x 26 * x 66 - x 28 * x 64 + x 28 * x 66 - x 3 * x 78 - x 33 * x 64 +
    x 33 * x 66 - x 40 * x 74 + x 40 * x 76 - x 5 * x 53 - x 50 * x 79 + x 51 * x 74 - x 51 * x 76
    + x 52 * x 71 + x 59 * x 79 + x 64 - x 66 - x 68 * x 69 + x 69 * x 70 + x 70 * x 72 - x 72 * x
    73),
  -- `mmmv`
  x 47 * (x 50 * x 98 - x 59 * x 98 + x 62 * x 96 - x 67 * x 95 - x 67 - x 81 + x 83 + x 84 + x 85
    - x 87 - x 88 - x 89 - x 90 + x 91 + x 93 - x 99),
  -- `mmmt`
  x 46 * (-x 100 - x 102 + x 103 + x 104 - x 105 * x 84 - x 105 * x 85 - x 106 - x 107 + x 109 * x
    3 + x 110 + x 111 - x 112 * x 67 + x 114 * x 63 + x 116 * x 50 - x 116 * x 59 + x 23 * x 83 - x
    23 * x 89 - x 23 * x 90 - x 23 * x 99 + x 26 * x 98 + x 28 * x 98 + x 33 * x 98 - x 39 * x 83 +
    x 68 - x 70 + x 73 * x 94 - x 98),
  -- `mmss`
  x 0 * ((-12) * t * x 130 + t * x 21 * x 71 - 6 * x 117 + x 120 + x 121 * x 14 - x 122 * x 26 - x
    122 * x 28 - x 122 * x 33 + x 122 + x 124 * x 26 + x 124 * x 28 + x 124 * x 33 - x 124 - x 125
    * x 94 - x 126 * x 94 - x 127 * x 94 + x 128 * x 40 - x 128 * x 51 - x 129 * x 49 + x 129 * x
    56 - x 13 * x 3 - x 130 * x 57 - x 131 * x 135 + x 132 * x 61 + x 134 * x 57 - 96 * x 15 * x 16
    - x 3 * x 30 - x 3 * x 31 + x 3 * x 35 - x 3 * x 38 + 54 * x 3 * x 5 - x 54 * x 68 + x 61 * x
    78),
  -- `mmsv`
  x 47 * (x 133 * x 95 + 3 * x 133 - x 136 - 3 * x 137 - 3 * x 138 + x 139 + x 140 + x 143 + x 145
    - x 146 - x 147 * x 96 - 3 * x 148 - x 149 * x 50 + x 149 * x 59 + x 150 + x 21 * x 81 + x 21 *
    x 87 + x 21 * x 88 - x 21 * x 93),
  -- `mmst`
  x 46 * (x 100 * x 151 + x 102 * x 21 - x 103 * x 151 - x 104 * x 151 + x 105 * x 137 + x 105 * x
    138 + x 106 * x 21 + x 107 * x 21 - x 109 * x 61 - x 110 * x 151 - x 111 * x 21 + x 112 * x 133
    - x 114 * x 123 + 3 * x 130 - x 134 * x 94 - x 136 * x 23 + x 136 * x 39 + x 139 * x 23 + x 140
    * x 23 + x 142 * x 153 + x 144 * x 26 + x 144 * x 28 - x 144 - x 149 * x 26 - x 149 * x 28 - x
    149 * x 33 + x 149 + x 150 * x 23 - x 151 * x 68 + x 152 + x 154 * x 50 - x 154 * x 59 - x 155
    * x 50 + x 155 * x 59),
  -- `mmvv`
  x 164 * (x 130 - x 134 - x 141 * x 160 - x 141 + x 152 - x 157 - x 159 + x 162),
  -- `mmvt`
  x 1 * ((-x 125) * x 166 - x 126 * x 166 - x 133 + x 137 + x 138 - x 143 - x 145 + x 146 + x 148 -
    x 165 + x 167 * x 168 - x 169 + x 170 * x 21 * x 68 + x 171 * x 172 - x 171 * x 173),
  -- `mmtt`
  x 163 * (x 118 - x 125 * x 176 - x 125 - x 126 * x 176 - x 126 + x 127 * x 179 - x 127 + x 130 *
    x 180 - x 133 * x 22 - x 134 * x 180 + x 137 * x 22 + x 138 * x 22 - x 142 * x 177 + x 148 * x
    22 - x 160 * x 175 + x 162 * x 180 - x 175 - x 178 * x 50 + x 178 * x 59),
  -- `msss`
  x 0 * (t * x 192 - t * x 193 + x 117 * x 53 - x 119 * x 182 + x 13 * x 61 - x 132 * x 15 - x 14 *
    x 181 + x 15 * x 204 - x 15 * x 78 + 120 * x 16 * x 60 + x 167 * x 182 + x 183 * x 26 + x 183 *
    x 28 + x 183 * x 33 - x 183 - x 186 * x 26 - x 186 * x 28 - x 186 * x 33 + x 186 + x 187 * x
    188 + x 188 * x 189 - x 194 * x 40 + x 194 * x 51 + x 195 * x 196 - x 195 * x 199 - x 197 * x
    198 + x 197 * x 200 + x 200 * x 203 + x 201 * x 202 - x 203 * x 206 + x 30 * x 61 + x 31 * x 61
    - x 35 * x 61 + x 38 * x 61 - 96 * x 5 * x 61),
  -- `mssv`
  x 47 * ((-5) * x 205 + x 207 - x 208 - x 209 - x 210 + 5 * x 211 + 5 * x 212 - x 213 - x 214 - x
    215 + 5 * x 216 - x 217 * x 218 - x 219 * x 50 + x 219 * x 59 - x 222 - x 223 + x 224 + x 225 +
    x 226 + x 231),
  -- `msst`
  x 46 * ((-x 100) * x 234 + x 103 * x 234 + x 104 * x 234 + x 110 * x 234 - x 153 * x 21 * x 218 -
    x 172 * x 251 + x 173 * x 251 - 5 * x 200 - x 217 * x 34 - x 219 * x 26 - x 219 * x 28 + x 219
    - x 221 - x 228 * x 23 - x 229 * x 23 - x 23 * x 230 + x 232 + x 233 + x 234 * x 68 - x 235 + x
    236 + x 237 - x 238 + x 239 - x 240 - x 241 - x 242 - x 243 - x 244 + x 245 - x 246 + x 247 - x
    248 + x 249 + x 250 - x 252 + x 254 - x 255 + x 256 - x 257),
  -- `msvv`
  x 164 * (-x 200 + x 206 + x 217 + x 238 + x 258 + x 259 + x 260 - x 261 - x 262 - x 263 + x 264),
  -- `msvt`
  x 1 * (-x 190 + x 205 - x 211 - x 212 - x 216 + x 23 * x 273 + x 232 * x 50 - x 232 * x 59 + x
    265 + x 266 + x 267 + x 268 + x 269 + x 270 + x 271 + x 274 - x 275 - x 276 - x 278 + x 279 - x
    281 + x 282),
  -- `mstt`
  x 163 * (x 180 * x 238 + x 180 * x 260 - x 180 * x 261 + x 187 + x 189 - x 190 * x 22 + x 22 * x
    265 + x 22 * x 266 + x 22 * x 268 + x 280 - x 283 + x 284 + x 285 - x 286 - x 287 + x 288 + x
    289 + x 291 + x 293 - x 294 - x 295 - x 296 - x 297 + x 298 - x 299 + x 300),
  -- `mvvv`
  t * x 302 * x 303,
  -- `mvvt`
  x 303 * (-x 304 + x 309 - x 50 + x 59),
  -- `mvtt`
  x 20 * x 312 * (-x 272 + x 309 - x 310 + x 311),
  -- `mttt`
  x 174 * x 303 * (-x 108 + x 309 - x 313 + x 314),
  -- `ssss`
  x 0 * (t * x 260 * x 53 - 60 * x 117 * x 3 + x 119 * x 201 - 144 * x 121 * x 16 - x 125 * x 317 -
    x 126 * x 317 - x 127 * x 317 - x 13 * x 15 + x 132 * x 60 - x 15 * x 30 - x 15 * x 31 + x 15 *
    x 35 - x 15 * x 38 + 150 * x 15 * x 5 - x 190 * x 40 * x 53 - x 196 * x 319 + x 199 * x 319 -
    48 * x 202 * x 61 - x 204 * x 60 - x 26 * x 315 + x 26 * x 316 - x 28 * x 315 + x 28 * x 316 -
    x 315 * x 33 + x 315 + x 316 * x 33 - x 316 + x 318 * x 40 - x 318 * x 51 + x 320 * x 68 - x
    320 * x 70 - x 321 * x 70 + x 321 * x 73 + x 60 * x 78 + 6 + x 14 * (x 2) ^ 8 / s ^ 8),
  -- `sssv`
  t * x 327 * (x 141 * x 325 - x 191 + 7 * x 205 - x 207 + x 208 + x 209 + x 210 - 7 * x 211 - 7 *
    x 212 + x 213 + x 214 + x 215 - 7 * x 216 + x 222 + x 223 - x 224 - x 225 - x 226 + x 322 + x
    323 + x 324 + x 326 * x 50 - x 326 * x 59),
  -- `ssst`
  x 327 * (x 100 * x 328 - x 103 * x 328 - x 104 * x 328 - x 110 * x 328 + x 153 * x 325 + x 172 *
    x 329 - x 173 * x 329 - x 191 * x 23 + x 192 - x 193 + 7 * x 200 + x 221 + x 23 * x 322 + x 23
    * x 323 + x 23 * x 324 - x 233 + x 235 - x 236 - x 237 + x 240 + x 241 + x 242 + x 243 + x 244
    - x 245 + x 246 - x 247 + x 248 - x 249 - x 250 + x 252 - x 254 + x 255 - x 256 + x 257 + x 26
    * x 326 + x 28 * x 326 + x 326 * x 33 - x 326 - x 328 * x 68),
  -- `ssvv`
  2 * x 2 * x 47 * (x 200 - x 206 - x 217 - x 239 - x 258 - x 259 + x 262 + x 263 - x 264 - x 273 +
    x 330),
  -- `ssvt`
  x 331 * ((-x 170) * x 260 + x 170 * x 261 - x 190 * x 290 - x 205 + x 211 + x 212 + x 216 + x 231
    - x 267 - x 269 - x 270 - x 271 - x 274 + x 275 + x 276 + x 278 - x 279 + x 281 - x 282),
  -- `sstt`
  2 * x 331 * ((-x 180) * x 239 - x 180 * x 273 + x 180 * x 330 - x 187 - x 189 - x 22 * x 228 - x
    22 * x 229 - x 22 * x 230 - x 280 + x 283 - x 284 - x 285 + x 286 + x 287 - x 288 - x 289 - x
    291 - x 293 + x 294 + x 295 + x 296 + x 297 - x 298 + x 299 - x 300 + x 312),
  -- `svvv`
  t * x 333 * (x 156 + x 158 + x 160 - x 301 + 1),
  -- `svvt`
  x 333 * (x 304 + x 334 + x 50 - x 59),
  -- `svtt`
  x 312 * x 332 * (x 272 + x 310 - x 311 + x 334),
  -- `sttt`
  x 174 * x 333 * (x 108 + x 313 - x 314 + x 334),
  -- `vvvv`
  2 * x 302,
  -- `vvvt`
  x 22 * x 335,
  -- `vvtt`
  x 174 * x 335,
  -- `vttt`
  (x 22) ^ 3 * x 335,
  -- `tttt`
  (-2) * x 156 * x 336 - 2 * x 158 * x 336 - 2 * x 160 * x 336 + 2 * x 301 * x 336 - 2 * x 336 - 6
    / x 11]

/-- `D4`: the returned entries in order. -/
def D4 : List Expr := [
  x 337,
  x 338,
  x 339,
  x 340,
  x 341,
  x 342,
  x 343,
  x 344,
  x 345,
  x 346,
  x 347,
  x 348,
  x 349,
  x 350,
  x 351,
  x 352,
  x 353,
  x 354,
  x 355,
  x 356,
  x 357,
  x 358,
  x 359,
  x 360,
  x 361,
  x 362,
  x 363,
  x 364,
  x 365,
  x 366,
  x 367,
  x 368,
  x 369,
  x 370,
  x 371]

/-- `LN2PI` (`/repo/pystatsm/misc/sash.py:11-12`). -/
def ln2pi : Expr := fn .log (2 * pi)

/-- The assignments of `_logpdf` (`/repo/pystatsm/misc/sash.py:44-49`). -/
def body0 : List Expr := [
  -- `z`
  (obs - m) / s,
  -- `y`
  fn .arcsinh (x 0) * t - v,
  -- `r`, `c`, `w`
  fn .sinh (x 1),
  fn .cosh (x 1),
  fn .sqrt (1 + (x 0) ^ 2)]

/-- `logp`. -/
def logp : Expr :=
  fn .log t + fn .log (x 3) - fn .log s - fn .log (x 4) - (x 2) ^ 2 / 2 - ln2pi / 2

/-- `SASH.loglike`, `d1loglike`, …, `d4loglike` (`/repo/pystatsm/misc/sash.py:14-34`), each a program
of its own. -/
def prog : ℕ → Prog
  | 0 => ⟨body0, [[logp]]⟩
  | 1 => ⟨body1, [D1]⟩
  | 2 => ⟨body2, [D2]⟩
  | 3 => ⟨body3, [D3]⟩
  | _ => ⟨body4, [D4]⟩

end Verif.Misc.Sash
