import Verif.Misc.ShashSetupLemmas
import Verif.Misc.Sash

/-!
# The setup for `sash.py`
-/

namespace Verif.Misc.Sash

open Verif.Misc Verif.Misc.Sym Filter Topology
open Verif.Misc.Shash (args logDens logDens_eq update_val)

/-- Scale and tail parameter are positive.  The parameters are in the order `m, s, v, t`. -/
def Dom (θ : ℕ → ℝ) : Prop := 0 < θ 1 ∧ 0 < θ 3

/-- The setup with parameters `m, s, v, t`. -/
def saSetup : Setup where
  T := shT
  spi := none
  inp := [pY, pM, mo 1 1 0 0 0 0 0 0, mo 1 0 0 0 0 0 0 0 1, mo 1 0 1 0 0 0 0 0]
  R := shR
  D := fun l => match l with | 0 => dM | 1 => dS 0 | 2 => dV | 3 => dT 0 | _ => d0
  p := 4

/-- The setup is right. -/
theorem setup_ok (y : ℝ) : SetupOk saSetup Dom
    (fun θ => shA id id y (θ 0) (θ 1) (θ 3) (θ 2)) (args y) where
  near := by
    rintro θ ⟨h1, h2⟩ l
    by_cases l1 : l = 1
    · subst l1
      filter_upwards [lt_mem_nhds h1] with x hx
      exact ⟨by simpa using hx, by simpa [Function.update_apply] using h2⟩
    · by_cases l2 : l = 3
      · subst l2
        filter_upwards [lt_mem_nhds h2] with x hx
        exact ⟨by simpa [Function.update_apply] using h1, by simpa using hx⟩
      · refine Filter.Eventually.of_forall fun x => ⟨?_, ?_⟩
        · rw [update_val, if_neg (Ne.symm l1)]; exact h1
        · rw [update_val, if_neg (Ne.symm l2)]; exact h2
  ne := fun θ h => shAtoms_ne _ _ _ _ _ _ _ h.1.ne' h.2.ne'
  table := fun θ h => shT_ok _ _ _ _ _ _ _ h.1.ne' h.2.ne'
  pi := fun θ h p hp => by simp [saSetup] at hp
  inps := fun θ h => by
    simp only [saSetup, List.map_cons, List.map_nil, args, pM, pY]
    rw [shA, ev_add, ev_mo, ev_mo, ev_mo, ev_mo, ev_mo]
    norm_num
  rules := fun θ h => shR_ok _ _ _ _ _ _ _ h.1.ne'
  curve := by
    intro θ h l
    rcases l with _ | _ | _ | _ | l
    · exact curve_m h.1.ne'
    · exact curve_s 0 h.1.ne' (by simpa using hasDerivAt_id (θ 1))
    · exact curve_v h.1.ne'
    · exact curve_t 0 h.1.ne' (by simpa using hasDerivAt_id (θ 3))
    · exact curve_0 _ id id y (θ 0) (θ 1) (θ 3) (θ 2) _ fun x => by simp

/-- The first derivatives as polynomials. -/
def base : List Poly := [bM, bS 0, bV, bT 0]

/-- Running `_logpdf`. -/
theorem logp_block (y : ℝ) (θ : ℕ → ℝ) (h : Dom θ) :
    (prog 0).block 0 (args y θ) = some [logDens y (θ 0) (θ 1) (θ 3) (θ 2)] := by
  have hz : ((Expr.inp 0 - Expr.inp 1) / Expr.inp 2 : Expr).eval (args y θ) [] =
      some ((y - θ 0) / θ 1) := E_div (E_sub rfl rfl) rfl h.1.ne'
  generalize hZ : (y - θ 0) / θ 1 = z at hz
  have hy : (Expr.fn .arcsinh (Expr.x 0) * Expr.inp 4 - Expr.inp 3 : Expr).eval (args y θ) [z] =
      some (Real.arsinh z * θ 3 - θ 2) := E_sub (E_mul (E_fn rfl rfl) rfl) rfl
  generalize hY : Real.arsinh z * θ 3 - θ 2 = yy at hy
  have hw : (Expr.fn .sqrt (1 + (Expr.x 0) ^ 2) : Expr).eval (args y θ)
      [z, yy, Real.sinh yy, Real.cosh yy] = some (√(1 + z ^ 2)) :=
    E_sqrt (E_add ((E_num 1).trans (by norm_num)) (E_pow 2 rfl)) (by positivity)
  have hr : run (args y θ) body0 [] = some [z, yy, Real.sinh yy, Real.cosh yy, √(1 + z ^ 2)] := by
    simp only [body0, run, hz, hy, List.nil_append, List.cons_append, Option.bind_eq_bind,
      Option.bind_some]
    have h1 : (Expr.fn .sinh (Expr.x 1)).eval (args y θ) [z, yy] = some (Real.sinh yy) := E_fn rfl rfl
    rw [h1]
    simp only [List.nil_append, List.cons_append, Option.bind_some]
    have h2 : (Expr.fn .cosh (Expr.x 1)).eval (args y θ) [z, yy, Real.sinh yy] =
      some (Real.cosh yy) := E_fn rfl rfl
    rw [h2]
    simp only [List.nil_append, List.cons_append, Option.bind_some]
    rw [hw]
    rfl
  have hq : 0 < 1 + z ^ 2 := by positivity
  have hl : logp.eval (args y θ) [z, yy, Real.sinh yy, Real.cosh yy, √(1 + z ^ 2)] =
      some (Real.log (θ 3) + Real.log (Real.cosh yy) - Real.log (θ 1) - Real.log √(1 + z ^ 2) -
        Real.sinh yy ^ 2 / 2 - Real.log (2 * Real.pi) / 2) :=
    E_sub (E_sub (E_sub (E_sub (E_add (E_log rfl h.2) (E_log rfl (Real.cosh_pos _)))
      (E_log rfl h.1)) (E_log rfl (Real.sqrt_pos.2 hq))) (E_div (E_pow 2 rfl) E_two two_ne_zero))
      (E_div (E_log (E_mul E_two rfl) (by positivity)) E_two two_ne_zero)
  simp only [Prog.block, prog, hr, List.getD_cons_zero, Option.bind_eq_bind, Option.bind_some, evalAll,
    hl]
  congr 2
  have h2p : 0 < 2 * Real.pi := by positivity
  unfold logDens
  rw [hZ, mul_comm (θ 3) (Real.arsinh z), hY, Real.log_mul (by have := Real.cosh_pos yy; have := h.1; have := h.2; positivity)
    (Real.exp_pos _).ne', Real.log_exp, Real.log_div (by have := Real.cosh_pos yy; have := h.2; positivity)
    (by have := h.1; positivity), Real.log_mul h.2.ne' (Real.cosh_pos _).ne',
    Real.log_mul h.1.ne' (by positivity), Real.sqrt_mul h2p.le,
    Real.log_mul (Real.sqrt_pos.2 h2p).ne' (Real.sqrt_pos.2 hq).ne', Real.log_sqrt h2p.le]
  ring

theorem first_block {P : Prog} (h1 : check1 saSetup base P 0 = true) (y : ℝ) (θ : ℕ → ℝ) (h : Dom θ) :
    IsNext 4 1 (fun θ => (prog 0).block 0 (args y θ)) (fun θ => P.block 0 (args y θ)) θ := by
  have hs := h.1.ne'
  have ht := h.2.ne'
  refine isNext_base (setup_ok y) rfl (fun θ => logDens y (θ 0) (θ 1) (θ 3) (θ 2))
    (fun θ h => logp_block y θ h) h1 θ h ?_ ?_ ?_ ?_
  · refine ((base_m (σ := id) (τ := id) (y := y) (m := θ 0) (v := θ 2) hs ht).sub_const
      (1 / 2 * Real.log (2 * Real.pi))).congr_of_eventuallyEq ?_
    filter_upwards [(setup_ok y).near θ h 0] with x hx
    rw [logDens_eq _ _ _ _ _ hx.1 hx.2]
    simp
  · refine ((base_s (σ := id) (τ := id) (y := y) (m := θ 0) (v := θ 2) hs ht 0
      (by simpa using hasDerivAt_id (θ 1))).sub_const
      (1 / 2 * Real.log (2 * Real.pi))).congr_of_eventuallyEq ?_
    filter_upwards [(setup_ok y).near θ h 1] with x hx
    rw [logDens_eq _ _ _ _ _ hx.1 hx.2]
    simp
  · refine ((base_v (σ := id) (τ := id) (y := y) (m := θ 0) (v := θ 2) hs ht).sub_const
      (1 / 2 * Real.log (2 * Real.pi))).congr_of_eventuallyEq ?_
    filter_upwards [(setup_ok y).near θ h 2] with x hx
    rw [logDens_eq _ _ _ _ _ hx.1 hx.2]
    simp
  · refine ((base_t (σ := id) (τ := id) (y := y) (m := θ 0) (v := θ 2) hs ht 0
      (by simpa using hasDerivAt_id (θ 3))).sub_const
      (1 / 2 * Real.log (2 * Real.pi))).congr_of_eventuallyEq ?_
    filter_upwards [(setup_ok y).near θ h 3] with x hx
    rw [logDens_eq _ _ _ _ _ hx.1 hx.2]
    simp

end Verif.Misc.Sash
