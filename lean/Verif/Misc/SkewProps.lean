import Verif.Misc.SkewLemmas
import Verif.Misc.SkewDist

/-!
# C177: the skew normal log density and its derivatives
-/

namespace Verif.Misc.SkewNorm

open Verif.Misc Verif.Misc.Sym Verif.Glm Filter Topology

/-- The hypotheses can be met. -/
example : Dom fun k => k := by simp [Dom]

/-- The skew normal density of Azzalini. -/
noncomputable def dens (x m s v : ℝ) : ℝ :=
  2 / s * phi0 ((x - m) / s) * ndtr0 (v * ((x - m) / s))

/-- `_logpdf` is the log of the density, when `log_ndtr` is the log of the normal distribution
function. -/
theorem C177_logpdf (x m s v : ℝ) (hs : 0 < s) :
    logpdf (fun z => Real.log (ndtr0 z)) x m s v = Real.log (dens x m s v) := by
  have hF := (ndtr0_range (v * ((x - m) / s))).1
  have h2 := Real.pi_pos
  simp only [logpdf, dens, phi0]
  rw [Real.log_mul (by positivity) hF.ne', Real.log_mul (by positivity) (by positivity),
    Real.log_div (by norm_num) hs.ne', Real.log_div (Real.exp_pos _).ne' (by positivity), Real.log_exp,
    Real.log_sqrt (by positivity), Real.log_mul (by norm_num) h2.ne']
  ring

theorem L_eq (x m s v : ℝ) : logpdf (fun z => Real.log (ndtr0 z)) x m s v =
    Real.log (aF s (m - x) v) - Real.log 2 - Real.log s +
      (Real.log 2 - Real.log Real.pi - ((m - x) / s) ^ 2) / 2 := by
  have hF := (ndtr0_range (aQ s (m - x) v)).1
  rw [aF, erf_eq, Real.log_mul (by norm_num) hF.ne']
  simp only [logpdf]
  rw [show aQ s (m - x) v = v * ((x - m) / s) by rw [aQ]; ring,
    show ((x - m) / s) ^ 2 = ((m - x) / s) ^ 2 by ring]
  ring

theorem hasDeriv_L {s d v : ℝ → ℝ} {s' d' v' x₀ : ℝ} (hs0 : s x₀ ≠ 0) (hs : HasDerivAt s s' x₀)
    (hd : HasDerivAt d d' x₀) (hv : HasDerivAt v v' x₀) :
    HasDerivAt (fun x => Real.log (aF (s x) (d x) (v x)) - Real.log 2 - Real.log (s x) +
        (Real.log 2 - Real.log Real.pi - (d x / s x) ^ 2) / 2)
      (√2 / √Real.pi * aE (s x₀) (d x₀) (v x₀) *
        (-(v' * d x₀ + v x₀ * d') / s x₀ + v x₀ * d x₀ * s' / s x₀ ^ 2) *
          (aF (s x₀) (d x₀) (v x₀))⁻¹ - s' / s x₀ -
        d x₀ / s x₀ * ((d' * s x₀ - d x₀ * s') / s x₀ ^ 2)) x₀ := by
  have h1 := (hasDeriv_F hs0 hs hd hv).log (erf_pos _).ne'
  have h2 := ((hd.fun_div hs hs0).fun_pow 2)
  refine (((h1.sub_const (Real.log 2)).fun_sub (hs.log hs0)).fun_add
    ((h2.const_sub (Real.log 2 - Real.log Real.pi)).div_const 2)).congr_deriv ?_
  push_cast
  rw [div_eq_mul_inv (√2 / √Real.pi * _ * _)]
  ring

set_option maxRecDepth 100000 in
private theorem c_1 : check1 skSetup base (prog 1) 0 = true := by decide +kernel

set_option maxRecDepth 100000 in
private theorem c_2 : check skSetup 2 (prog 1) 0 (prog 2) 0 = true := by decide +kernel

set_option maxRecDepth 100000 in
private theorem c_3 : check skSetup 3 (prog 2) 0 (prog 3) 0 = true := by decide +kernel

set_option maxRecDepth 100000 in
private theorem c_4 : check skSetup 4 (prog 3) 0 (prog 4) 0 = true := by decide +kernel

/-- `_d1logpdf` returns the derivatives of `_logpdf` in `m`, `s`, `v`. -/
theorem C177_first (y : ℝ) (θ : ℕ → ℝ) (h : Dom θ) :
    IsNext 3 1 (fun θ => some [logpdf (fun z => Real.log (ndtr0 z)) y (θ 0) (θ 1) (θ 2)])
      (fun θ => (prog 1).block 0 (args y θ)) θ := by
  have hs : θ 1 ≠ 0 := ne_of_gt h
  have hA := skAtoms_ne (θ 1) (θ 0 - y) (θ 2) y hs
  have hF := (erf_pos (aQ (θ 1) (θ 0 - y) (θ 2))).ne'
  have hp := sqrtpi_pos.ne'
  refine isNext_first (setup_ok y) _ rfl (fun θ _ => rfl) c_1 θ h ?_
  intro l hl
  have c0 : ∀ c : ℝ, HasDerivAt (fun _ : ℝ => c) 0 (θ l) := fun c => hasDerivAt_const _ c
  simp only [L_eq]
  change l < 3 at hl
  interval_cases l
  · have hd : HasDerivAt (fun x => x - y) 1 (θ 0) := (hasDerivAt_id _).sub_const y
    refine (hasDeriv_L (s := fun _ => θ 1) (v := fun _ => θ 2) hs (c0 _) hd (c0 _)).congr_deriv ?_
    show _ = ev (skA y θ) (sub _ _)
    rw [skA, ev_sub hA, ev_mk, ev_mk]
    norm_num [zpow_neg, zpow_ofNat]
    field_simp
  · have hd : HasDerivAt (fun x => x) 1 (θ 1) := hasDerivAt_id _
    refine (hasDeriv_L (s := fun x => x) (d := fun _ => θ 0 - y) (v := fun _ => θ 2) hs hd (c0 _) (c0 _)).congr_deriv ?_
    show _ = ev (skA y θ) (add (sub _ _) _)
    rw [skA, ev_add, ev_sub hA, ev_mk, ev_mk, ev_mk]
    norm_num [zpow_neg, zpow_ofNat]
    field_simp
    ring
  · have hd : HasDerivAt (fun x => x) 1 (θ 2) := hasDerivAt_id _
    refine (hasDeriv_L (s := fun _ => θ 1) (d := fun _ => θ 0 - y) (v := fun x => x) hs (c0 _) (c0 _) hd).congr_deriv ?_
    show _ = ev (skA y θ) (mk _ _ _ _ _ _ _ _ _)
    rw [skA, ev_mk]
    norm_num [zpow_neg, zpow_ofNat]
    field_simp
    ring

/-- Each of the next three functions returns the derivatives of the one before it. -/
theorem C177_derivatives (y : ℝ) (θ : ℕ → ℝ) (h : Dom θ) (k : ℕ) (h1 : 2 ≤ k) (h2 : k ≤ 4) :
    IsNext 3 k (fun θ => (prog (k - 1)).block 0 (args y θ)) (fun θ => (prog k).block 0 (args y θ)) θ := by
  interval_cases k
  · exact isNext_of_check (setup_ok y) c_2 θ h
  · exact isNext_of_check (setup_ok y) c_3 θ h
  · exact isNext_of_check (setup_ok y) c_4 θ h

/-- The class `SkewNorm` cannot be used: every one of its methods raises a `TypeError`. -/
theorem C177_class_violated (log_ndtr : ℝ → ℝ) (y mu sigma nu tau : ℝ) :
    loglike log_ndtr y mu sigma nu tau = none ∧ ∀ k, dloglike k y mu sigma nu tau = none :=
  ⟨rfl, fun _ => rfl⟩

end Verif.Misc.SkewNorm
