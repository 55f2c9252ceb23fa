import Verif.Misc.ShashSetupLemmas

/-!
# C174: the derivatives of the sinh-arcsinh log density

`_logpdf1`, …, `_logpdf4` of `/repo/pystatsm/misc/shash_lpdf*.py` return the log density with all its
derivatives up to the order in the name.  Parameters in the order `m, s, t, v`.

Each check below runs the function on polynomials in the quantities that occur in it and compares
every entry of an array with the formal derivative of an entry of the array before.
-/

-- One check at a time, which needs less memory.
set_option Elab.async false

namespace Verif.Misc.Shash

open Verif.Misc Verif.Misc.Sym

/-- The hypotheses can be met. -/
example : Dom fun k => k := by simp [Dom]

set_option maxRecDepth 100000 in
private theorem x_1 : check1 shSetup [xx] ⟨logpdf1.body, [[Expr.x 0]]⟩ 0 = true := by
  decide +kernel

set_option maxRecDepth 100000 in
private theorem c_1_1 : check1 shSetup base logpdf1 1 = true := by decide +kernel

/-- `_logpdf1` returns the log density, and its derivatives up to order 1. -/
theorem C174_logpdf1 (y : ℝ) (θ : ℕ → ℝ) (h : Dom θ) :
    logpdf1.block 0 (args y θ) = some [logDens y (θ 0) (θ 1) (θ 2) (θ 3)] ∧
    ∀ k, 1 ≤ k → k ≤ 1 → IsNext 4 k (fun θ => logpdf1.block (k - 1) (args y θ))
      (fun θ => logpdf1.block k (args y θ)) θ := by
  refine ⟨lnp_block rfl x_1 y θ h, fun k h1 h2 => ?_⟩
  interval_cases k
  · exact first_block rfl x_1 c_1_1 y θ h

set_option maxRecDepth 100000 in
private theorem x_2 : check1 shSetup [xx] ⟨logpdf2.body, [[Expr.x 0]]⟩ 0 = true := by
  decide +kernel

set_option maxRecDepth 100000 in
private theorem c_2_1 : check1 shSetup base logpdf2 1 = true := by decide +kernel

set_option maxRecDepth 100000 in
private theorem c_2_2 : check shSetup 2 logpdf2 1 logpdf2 2 = true := by decide +kernel

/-- `_logpdf2` returns the log density, and its derivatives up to order 2. -/
theorem C174_logpdf2 (y : ℝ) (θ : ℕ → ℝ) (h : Dom θ) :
    logpdf2.block 0 (args y θ) = some [logDens y (θ 0) (θ 1) (θ 2) (θ 3)] ∧
    ∀ k, 1 ≤ k → k ≤ 2 → IsNext 4 k (fun θ => logpdf2.block (k - 1) (args y θ))
      (fun θ => logpdf2.block k (args y θ)) θ := by
  refine ⟨lnp_block rfl x_2 y θ h, fun k h1 h2 => ?_⟩
  interval_cases k
  · exact first_block rfl x_2 c_2_1 y θ h
  · exact isNext_of_check (setup_ok y) c_2_2 θ h

set_option maxRecDepth 100000 in
private theorem x_3 : check1 shSetup [xx] ⟨logpdf3.body, [[Expr.x 0]]⟩ 0 = true := by
  decide +kernel

set_option maxRecDepth 100000 in
private theorem c_3_1 : check1 shSetup base logpdf3 1 = true := by decide +kernel

set_option maxRecDepth 100000 in
private theorem c_3_2 : check shSetup 2 logpdf3 1 logpdf3 2 = true := by decide +kernel

set_option maxRecDepth 100000 in
private theorem c_3_3 : check shSetup 3 logpdf3 2 logpdf3 3 = true := by decide +kernel

/-- `_logpdf3` returns the log density, and its derivatives up to order 3. -/
theorem C174_logpdf3 (y : ℝ) (θ : ℕ → ℝ) (h : Dom θ) :
    logpdf3.block 0 (args y θ) = some [logDens y (θ 0) (θ 1) (θ 2) (θ 3)] ∧
    ∀ k, 1 ≤ k → k ≤ 3 → IsNext 4 k (fun θ => logpdf3.block (k - 1) (args y θ))
      (fun θ => logpdf3.block k (args y θ)) θ := by
  refine ⟨lnp_block rfl x_3 y θ h, fun k h1 h2 => ?_⟩
  interval_cases k
  · exact first_block rfl x_3 c_3_1 y θ h
  · exact isNext_of_check (setup_ok y) c_3_2 θ h
  · exact isNext_of_check (setup_ok y) c_3_3 θ h

set_option maxRecDepth 100000 in
private theorem x_4 : check1 shSetup [xx] ⟨logpdf4.body, [[Expr.x 0]]⟩ 0 = true := by
  decide +kernel

set_option maxRecDepth 100000 in
private theorem c_4_1 : check1 shSetup base logpdf4 1 = true := by decide +kernel

set_option maxRecDepth 100000 in
private theorem c_4_2 : check shSetup 2 logpdf4 1 logpdf4 2 = true := by decide +kernel

set_option maxRecDepth 100000 in
private theorem c_4_3 : check shSetup 3 logpdf4 2 logpdf4 3 = true := by decide +kernel

set_option maxRecDepth 100000 in
private theorem c_4_4_0 : checkPart shSetup 4 logpdf4 3 logpdf4 4 0 12 = true := by decide +kernel

set_option maxRecDepth 100000 in
private theorem c_4_4_1 : checkPart shSetup 4 logpdf4 3 logpdf4 4 12 12 = true := by decide +kernel

set_option maxRecDepth 100000 in
private theorem c_4_4_2 : checkPart shSetup 4 logpdf4 3 logpdf4 4 24 12 = true := by decide +kernel

private theorem c_4_4 : check shSetup 4 logpdf4 3 logpdf4 4 = true :=
  check_of_parts (c := 12) (r := 3) (by decide) (by decide) fun i hi => by
    interval_cases i
    · exact c_4_4_0
    · exact c_4_4_1
    · exact c_4_4_2

/-- `_logpdf4` returns the log density, and its derivatives up to order 4. -/
theorem C174_logpdf4 (y : ℝ) (θ : ℕ → ℝ) (h : Dom θ) :
    logpdf4.block 0 (args y θ) = some [logDens y (θ 0) (θ 1) (θ 2) (θ 3)] ∧
    ∀ k, 1 ≤ k → k ≤ 4 → IsNext 4 k (fun θ => logpdf4.block (k - 1) (args y θ))
      (fun θ => logpdf4.block k (args y θ)) θ := by
  refine ⟨lnp_block rfl x_4 y θ h, fun k h1 h2 => ?_⟩
  interval_cases k
  · exact first_block rfl x_4 c_4_1 y θ h
  · exact isNext_of_check (setup_ok y) c_4_2 θ h
  · exact isNext_of_check (setup_ok y) c_4_3 θ h
  · exact isNext_of_check (setup_ok y) c_4_4 θ h

end Verif.Misc.Shash
