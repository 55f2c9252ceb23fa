import Verif.Misc.SashSetupLemmas
import Verif.Misc.ShashrProps

/-!
# C176: the derivatives of the log density in `sash.py`

`loglike`, `d1loglike`, …, `d4loglike` of `/repo/pystatsm/misc/sash.py` are the log density and its
derivatives; the parameters are in the order `m, s, v, t`.
-/

-- One check at a time, which needs less memory.
set_option Elab.async false

namespace Verif.Misc.Sash

open Verif.Misc Verif.Misc.Sym
open Verif.Misc.Shash (args logDens)

/-- The hypotheses can be met. -/
example : Dom fun k => k := by simp [Dom]

set_option maxRecDepth 100000 in
private theorem c_1 : check1 saSetup base (prog 1) 0 = true := by decide +kernel

set_option maxRecDepth 100000 in
private theorem c_2 : check saSetup 2 (prog 1) 0 (prog 2) 0 = true := by decide +kernel

set_option maxRecDepth 100000 in
private theorem c_3 : check saSetup 3 (prog 2) 0 (prog 3) 0 = true := by decide +kernel

set_option maxRecDepth 100000 in
private theorem c_4_0 : checkPart saSetup 4 (prog 3) 0 (prog 4) 0 0 12 = true := by decide +kernel

set_option maxRecDepth 100000 in
private theorem c_4_1 : checkPart saSetup 4 (prog 3) 0 (prog 4) 0 12 12 = true := by decide +kernel

set_option maxRecDepth 100000 in
private theorem c_4_2 : checkPart saSetup 4 (prog 3) 0 (prog 4) 0 24 12 = true := by decide +kernel

private theorem c_4 : check saSetup 4 (prog 3) 0 (prog 4) 0 = true :=
  check_of_parts (c := 12) (r := 3) (by decide) (by decide) fun i hi => by
    interval_cases i
    · exact c_4_0
    · exact c_4_1
    · exact c_4_2

/-- `loglike` is the log density. -/
theorem C176_loglike (y : ℝ) (θ : ℕ → ℝ) (h : Dom θ) :
    (prog 0).block 0 (args y θ) = some [logDens y (θ 0) (θ 1) (θ 3) (θ 2)] :=
  logp_block y θ h

/-- Each of the four functions returns the derivatives of the one before it. -/
theorem C176_derivatives (y : ℝ) (θ : ℕ → ℝ) (h : Dom θ) (k : ℕ) (h1 : 1 ≤ k) (h2 : k ≤ 4) :
    IsNext 4 k (fun θ => (prog (k - 1)).block 0 (args y θ)) (fun θ => (prog k).block 0 (args y θ)) θ := by
  interval_cases k
  · exact first_block c_1 y θ h
  · exact isNext_of_check (setup_ok y) c_2 θ h
  · exact isNext_of_check (setup_ok y) c_3 θ h
  · exact isNext_of_check (setup_ok y) c_4 θ h

end Verif.Misc.Sash
