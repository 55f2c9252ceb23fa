import Verif.Misc.ExprLemmas
import Verif.Misc.SkewNorm
import Verif.Lv.BinormLemmas

/-!
# Atoms of the skew normal log density

With `d = m - x`, `q = -v d / s`: the atoms are `s`, `F = 1 + erf (q / √2)`, `p = √π`,
`E = exp (-q² / 2)` (none of them zero), and `d`, `R = √2`, `v`, `x`.
-/

namespace Verif.Misc.SkewNorm

open Verif.Misc Verif.Misc.Sym Verif.Glm Filter Topology

theorem hasDeriv_erf (x : ℝ) : HasDerivAt erf (2 / √Real.pi * Real.exp (-x ^ 2)) x := by
  have hc : Continuous fun t : ℝ => Real.exp (-t ^ 2) := by fun_prop
  exact (intervalIntegral.integral_hasDerivAt_right (hc.intervalIntegrable _ _)
    (hc.stronglyMeasurableAtFilter _ _) hc.continuousAt).const_mul _

theorem ndtr0_zero : ndtr0 0 = 1 / 2 := by
  have := Verif.Lv.ndtr0_neg 0
  rw [neg_zero] at this
  linarith

/-- The error function and the normal distribution function. -/
theorem erf_eq (q : ℝ) : 1 + erf (q * √2 / 2) = 2 * ndtr0 q := by
  have h2 : √2 ^ 2 = (2 : ℝ) := Real.sq_sqrt (by norm_num)
  have h20 : √(2 : ℝ) ≠ 0 := by positivity
  have hp : √Real.pi ≠ 0 := (Real.sqrt_pos.2 Real.pi_pos).ne'
  have hd : ∀ x : ℝ, HasDerivAt (fun x => 1 + erf (x * √2 / 2) - 2 * ndtr0 x) 0 x := by
    intro x
    have h1 := (hasDeriv_erf (x * √2 / 2)).comp x (((hasDerivAt_id x).mul_const √2).div_const 2)
    refine ((h1.const_add 1).fun_sub ((ndtr0_deriv x).const_mul 2)).congr_deriv ?_
    rw [phi0, Real.sqrt_mul (by norm_num : (0:ℝ) ≤ 2)]
    have : -(x * √2 / 2) ^ 2 = -x ^ 2 / 2 := by
      rw [div_pow, mul_pow, h2]; ring
    rw [this]
    field_simp
    rw [h2]; ring
  have hc := is_const_of_deriv_eq_zero (fun x => (hd x).differentiableAt) (fun x => (hd x).deriv) q 0
  simp only [ndtr0_zero] at hc
  have e0 : erf (0 * √2 / 2) = 0 := by simp [erf]
  rw [e0] at hc
  linarith

theorem erf_pos (q : ℝ) : 0 < 1 + erf (q * √2 / 2) := by
  rw [erf_eq]; have := (ndtr0_range q).1; linarith

section
variable (s d v y : ℝ)

noncomputable def aQ : ℝ := -v * d / s
noncomputable def aF : ℝ := 1 + erf (aQ s d v * √2 / 2)
noncomputable def aE : ℝ := Real.exp (-aQ s d v ^ 2 / 2)

/-- The atoms. -/
noncomputable def skAtoms : Atoms :=
  ⟨[s, aF s d v, √Real.pi, aE s d v], [d, √2, v, y]⟩

end

/-- One monomial. -/
def mk (c : ℚ) (s F p E : ℤ) (d R v y : ℕ) : Poly := [(c, ([s, F, p, E], [d, R, v, y]))]

theorem ev_mk (s d v y : ℝ) (c : ℚ) (es eF ep eE : ℤ) (ed eR ev' ey : ℕ) :
    ev (skAtoms s d v y) (mk c es eF ep eE ed eR ev' ey) =
      c * (s ^ es * aF s d v ^ eF * √Real.pi ^ ep * aE s d v ^ eE) *
        (d ^ ed * √2 ^ eR * v ^ ev' * y ^ ey) := by
  simp only [mk, ev, evM, skAtoms, evZ, evN]
  ring

theorem sqrtpi_pos : 0 < √Real.pi := Real.sqrt_pos.2 Real.pi_pos

theorem skAtoms_ne (s d v y : ℝ) (hs : s ≠ 0) : ∀ a ∈ (skAtoms s d v y).z, a ≠ 0 := by
  intro a ha
  simp only [skAtoms, List.mem_cons, List.not_mem_nil, or_false] at ha
  rcases ha with rfl | rfl | rfl | rfl
  · exact hs
  · exact (erf_pos _).ne'
  · exact sqrtpi_pos.ne'
  · exact (Real.exp_pos _).ne'

def pPi : Poly := mk 1 0 0 2 0 0 0 0 0

/-- `exp (- n q² / 2)`. -/
def eE (n : ℕ) : Fn × Poly × Poly :=
  (.exp, mk (-(n : ℚ) / 2) (-2) 0 0 0 2 0 2 0, mk 1 0 0 0 n 0 0 0 0)

def skT : Table := [
  (.sqrt, mk 2 0 0 0 0 0 0 0 0, mk 1 0 0 0 0 0 1 0 0),
  (.sqrt, pPi, mk 1 0 0 1 0 0 0 0 0),
  (.rpow (-3 / 2), pPi, mk 1 0 0 (-3) 0 0 0 0 0),
  eE 1, eE 2, eE 3, eE 4,
  (.erf, mk (-1 / 2) (-1) 0 0 0 1 1 1 0,
    sub (mk 1 0 1 0 0 0 0 0 0) (mk 1 0 0 0 0 0 0 0 0)),
  (.erf, mk (1 / 2) (-1) 0 0 0 1 1 1 0,
    sub (mk 1 0 0 0 0 0 0 0 0) (mk 1 0 1 0 0 0 0 0 0))]

/-- The square of `√2`. -/
def skR : List (ℕ × Poly) := [(1, mk 2 0 0 0 0 0 0 0 0)]

theorem skR_ok (s d v y : ℝ) : ∀ q ∈ skR, ∃ a, (skAtoms s d v y).n[q.1]? = some a ∧
    a ^ 2 = ev (skAtoms s d v y) q.2 := by
  intro q hq
  simp only [skR, List.mem_cons, List.not_mem_nil, or_false] at hq
  subst hq
  refine ⟨√2, rfl, ?_⟩
  rw [ev_mk, Real.sq_sqrt (by norm_num)]
  norm_num

theorem erf_neg (x : ℝ) : erf (-x) = -erf x := by
  have h := erf_eq (x * √2)
  have h' := erf_eq (-(x * √2))
  have h2 : √2 * √2 = (2 : ℝ) := Real.mul_self_sqrt (by norm_num)
  have e1 : x * √2 * √2 / 2 = x := by rw [mul_assoc, h2]; ring
  have e2 : -(x * √2) * √2 / 2 = -x := by rw [neg_mul, mul_assoc, h2]; ring
  rw [e1] at h
  rw [e2, Verif.Lv.ndtr0_neg] at h'
  linarith

theorem ev_pi (s d v y : ℝ) : ev (skAtoms s d v y) pPi = Real.pi := by
  rw [pPi, ev_mk]
  have : √Real.pi ^ (2 : ℤ) = Real.pi := by
    rw [show (2 : ℤ) = ((2 : ℕ) : ℤ) from rfl, zpow_natCast, Real.sq_sqrt Real.pi_pos.le]
  rw [this]; norm_num

theorem eE_ok (s d v y : ℝ) (n : ℕ) :
    (eE n).1.eval (ev (skAtoms s d v y) (eE n).2.1) = some (ev (skAtoms s d v y) (eE n).2.2) := by
  simp only [eE, Fn.eval]
  rw [ev_mk, ev_mk, zpow_natCast, aE, ← Real.exp_nat_mul, aQ]
  congr 1
  norm_num [zpow_neg, zpow_ofNat]
  ring

theorem skT_ok (s d v y : ℝ) (hs : s ≠ 0) : TableOk (skAtoms s d v y) skT := by
  have hA := skAtoms_ne s d v y hs
  intro e he
  simp only [skT, List.mem_cons, List.not_mem_nil, or_false] at he
  rcases he with rfl | rfl | rfl | rfl | rfl | rfl | rfl | rfl | rfl
  · simp only [Fn.eval]; rw [ev_mk, ev_mk]; norm_num
  · simp only [Fn.eval]; rw [ev_pi, ev_mk, if_neg (not_lt.2 Real.pi_pos.le)]; norm_num
  · simp only [Fn.eval]; rw [ev_pi, ev_mk, if_neg (not_le.2 Real.pi_pos)]
    congr 1
    have e : √Real.pi ^ (-3 : ℤ) = Real.pi ^ (((-3 / 2 : ℚ)) : ℝ) := by
      rw [Real.sqrt_eq_rpow, ← Real.rpow_intCast, ← Real.rpow_mul Real.pi_pos.le]
      norm_num
    rw [e]
    norm_num
  · exact eE_ok s d v y 1
  · exact eE_ok s d v y 2
  · exact eE_ok s d v y 3
  · exact eE_ok s d v y 4
  · simp only [Fn.eval]; rw [ev_sub hA, ev_mk, ev_mk, ev_mk]
    norm_num [zpow_neg]
    rw [aF, aQ]
    ring_nf
  · simp only [Fn.eval]; rw [ev_sub hA, ev_mk, ev_mk, ev_mk]
    norm_num [zpow_neg]
    have : erf (aQ s d v * √2 / 2) = -erf (1 / 2 * s⁻¹ * (d * √2 * v)) := by
      rw [← erf_neg, aQ]; ring_nf
    rw [aF, this]
    ring_nf

/-! ### Derivatives of the atoms -/

section
variable {s d v : ℝ → ℝ} {s' d' v' x₀ : ℝ}

theorem hasDeriv_Q (hs0 : s x₀ ≠ 0) (hs : HasDerivAt s s' x₀) (hd : HasDerivAt d d' x₀)
    (hv : HasDerivAt v v' x₀) :
    HasDerivAt (fun x => aQ (s x) (d x) (v x))
      (-(v' * d x₀ + v x₀ * d') / s x₀ + v x₀ * d x₀ * s' / s x₀ ^ 2) x₀ := by
  refine ((hv.fun_neg.fun_mul hd).fun_div hs hs0).congr_deriv ?_
  field_simp
  ring

theorem hasDeriv_F (hs0 : s x₀ ≠ 0) (hs : HasDerivAt s s' x₀) (hd : HasDerivAt d d' x₀)
    (hv : HasDerivAt v v' x₀) :
    HasDerivAt (fun x => aF (s x) (d x) (v x))
      (√2 / √Real.pi * aE (s x₀) (d x₀) (v x₀) *
        (-(v' * d x₀ + v x₀ * d') / s x₀ + v x₀ * d x₀ * s' / s x₀ ^ 2)) x₀ := by
  have hQ := hasDeriv_Q hs0 hs hd hv
  have h1 := (hasDeriv_erf (aQ (s x₀) (d x₀) (v x₀) * √2 / 2)).comp x₀ ((hQ.mul_const √2).div_const 2)
  refine (h1.const_add 1).congr_deriv ?_
  have h2 : √2 ^ 2 = (2 : ℝ) := Real.sq_sqrt (by norm_num)
  have : -(aQ (s x₀) (d x₀) (v x₀) * √2 / 2) ^ 2 = -aQ (s x₀) (d x₀) (v x₀) ^ 2 / 2 := by
    rw [div_pow, mul_pow, h2]; ring
  rw [this, ← aE]
  ring

theorem hasDeriv_E (hs0 : s x₀ ≠ 0) (hs : HasDerivAt s s' x₀) (hd : HasDerivAt d d' x₀)
    (hv : HasDerivAt v v' x₀) :
    HasDerivAt (fun x => aE (s x) (d x) (v x))
      (v x₀ * d x₀ / s x₀ * aE (s x₀) (d x₀) (v x₀) *
        (-(v' * d x₀ + v x₀ * d') / s x₀ + v x₀ * d x₀ * s' / s x₀ ^ 2)) x₀ := by
  have hQ := hasDeriv_Q hs0 hs hd hv
  refine (((hQ.fun_pow 2).fun_neg.div_const 2).exp).congr_deriv ?_
  rw [aE]
  push_cast
  simp only [aQ]
  ring

end

/-- Derivatives of the atoms in `m`. -/
def kM : List Poly × List Poly :=
  ([[], mk (-1) (-1) 0 (-1) 1 0 1 1 0, [], mk (-1) (-2) 0 0 1 1 0 2 0],
   [mk 1 0 0 0 0 0 0 0 0, [], [], []])

/-- Derivatives of the atoms in `s`. -/
def kS : List Poly × List Poly :=
  ([mk 1 0 0 0 0 0 0 0 0, mk 1 (-2) 0 (-1) 1 1 1 1 0, [], mk 1 (-3) 0 0 1 2 0 2 0],
   [[], [], [], []])

/-- Derivatives of the atoms in `v`. -/
def kV : List Poly × List Poly :=
  ([[], mk (-1) (-1) 0 (-1) 1 1 1 0 0, [], mk (-1) (-2) 0 0 1 2 0 1 0],
   [[], [], mk 1 0 0 0 0 0 0 0 0, []])

def k0 : List Poly × List Poly := ([[], [], [], []], [[], [], [], []])

/-- Atoms as functions of the parameters. -/
noncomputable def skA (y : ℝ) (θ : ℕ → ℝ) : Atoms := skAtoms (θ 1) (θ 0 - y) (θ 2) y

/-- The setup with parameters `m, s, v`. -/
def skSetup : Setup where
  T := skT
  spi := some pPi
  inp := [mk 1 0 0 0 0 0 0 0 1, add (mk 1 0 0 0 0 1 0 0 0) (mk 1 0 0 0 0 0 0 0 1),
    mk 1 1 0 0 0 0 0 0 0, mk 1 0 0 0 0 0 0 1 0]
  R := skR
  D := fun l => match l with | 0 => kM | 1 => kS | 2 => kV | _ => k0
  p := 3

/-- The arguments of the functions. -/
def args (y : ℝ) (θ : ℕ → ℝ) : List ℝ := [y, θ 0, θ 1, θ 2]

/-- The scale is positive. -/
def Dom (θ : ℕ → ℝ) : Prop := 0 < θ 1

theorem setup_curve (y : ℝ) (θ : ℕ → ℝ) (h : Dom θ) (l : ℕ) :
    ∃ c : Curve, (∀ x, c.at x = skA y (Function.update θ l x)) ∧
    List.Forall₂ (fun f D => HasDerivAt f (ev (skA y θ) D) (θ l)) c.z (skSetup.D l).1 ∧
    List.Forall₂ (fun f D => HasDerivAt f (ev (skA y θ) D) (θ l)) c.n (skSetup.D l).2 := by
  have hs : θ 1 ≠ 0 := ne_of_gt h
  have hp := sqrtpi_pos.ne'
  have c0 : ∀ c : ℝ, HasDerivAt (fun _ : ℝ => c) 0 (θ l) := fun c => hasDerivAt_const _ c
  rcases l with _ | _ | _ | l
  · have hd : HasDerivAt (fun x => x - y) 1 (θ 0) := (hasDerivAt_id _).sub_const y
    refine ⟨⟨[fun _ => θ 1, fun x => aF (θ 1) (x - y) (θ 2), fun _ => √Real.pi,
      fun x => aE (θ 1) (x - y) (θ 2)], [fun x => x - y, fun _ => √2, fun _ => θ 2, fun _ => y]⟩,
      fun x => rfl, .cons (c0 _) (.cons ?_ (.cons (c0 _) (.cons ?_ .nil))),
      .cons ?_ (.cons (c0 _) (.cons (c0 _) (.cons (c0 _) .nil)))⟩
    · refine (hasDeriv_F (s := fun _ => θ 1) (v := fun _ => θ 2) hs (c0 _) hd (c0 _)).congr_deriv ?_
      beta_reduce; rw [skA, ev_mk]; norm_num [zpow_neg]; field_simp
    · refine (hasDeriv_E (s := fun _ => θ 1) (v := fun _ => θ 2) hs (c0 _) hd (c0 _)).congr_deriv ?_
      beta_reduce; rw [skA, ev_mk]; norm_num [zpow_neg, zpow_ofNat]; field_simp
    · refine hd.congr_deriv ?_
      rw [skA, ev_mk]; norm_num
  · have hd : HasDerivAt (fun x => x) 1 (θ 1) := hasDerivAt_id _
    refine ⟨⟨[fun x => x, fun x => aF x (θ 0 - y) (θ 2), fun _ => √Real.pi,
      fun x => aE x (θ 0 - y) (θ 2)], [fun _ => θ 0 - y, fun _ => √2, fun _ => θ 2, fun _ => y]⟩,
      fun x => rfl, .cons ?_ (.cons ?_ (.cons (c0 _) (.cons ?_ .nil))),
      .cons (c0 _) (.cons (c0 _) (.cons (c0 _) (.cons (c0 _) .nil)))⟩
    · refine hd.congr_deriv ?_
      rw [skA, ev_mk]; norm_num
    · refine (hasDeriv_F (s := fun x => x) (d := fun _ => θ 0 - y) (v := fun _ => θ 2) hs hd (c0 _) (c0 _)).congr_deriv ?_
      beta_reduce; rw [skA, ev_mk]; norm_num [zpow_neg, zpow_ofNat]; field_simp
    · refine (hasDeriv_E (s := fun x => x) (d := fun _ => θ 0 - y) (v := fun _ => θ 2) hs hd (c0 _) (c0 _)).congr_deriv ?_
      beta_reduce; rw [skA, ev_mk]; norm_num [zpow_neg, zpow_ofNat]; field_simp
  · have hd : HasDerivAt (fun x => x) 1 (θ 2) := hasDerivAt_id _
    refine ⟨⟨[fun _ => θ 1, fun x => aF (θ 1) (θ 0 - y) x, fun _ => √Real.pi,
      fun x => aE (θ 1) (θ 0 - y) x], [fun _ => θ 0 - y, fun _ => √2, fun x => x, fun _ => y]⟩,
      fun x => rfl, .cons (c0 _) (.cons ?_ (.cons (c0 _) (.cons ?_ .nil))),
      .cons (c0 _) (.cons (c0 _) (.cons ?_ (.cons (c0 _) .nil)))⟩
    · refine (hasDeriv_F (s := fun _ => θ 1) (d := fun _ => θ 0 - y) (v := fun x => x) hs (c0 _) (c0 _) hd).congr_deriv ?_
      beta_reduce; rw [skA, ev_mk]; norm_num [zpow_neg]; field_simp; ring
    · refine (hasDeriv_E (s := fun _ => θ 1) (d := fun _ => θ 0 - y) (v := fun x => x) hs (c0 _) (c0 _) hd).congr_deriv ?_
      beta_reduce; rw [skA, ev_mk]; norm_num [zpow_neg, zpow_ofNat]; field_simp; ring
    · refine hd.congr_deriv ?_
      rw [skA, ev_mk]; norm_num
  · refine ⟨⟨[fun _ => θ 1, fun _ => aF (θ 1) (θ 0 - y) (θ 2), fun _ => √Real.pi,
      fun _ => aE (θ 1) (θ 0 - y) (θ 2)], [fun _ => θ 0 - y, fun _ => √2, fun _ => θ 2, fun _ => y]⟩,
      fun x => by simp [skA]; rfl, .cons (c0 _) (.cons (c0 _) (.cons (c0 _) (.cons (c0 _) .nil))),
      .cons (c0 _) (.cons (c0 _) (.cons (c0 _) (.cons (c0 _) .nil)))⟩

/-- The setup is right. -/
theorem setup_ok (y : ℝ) : SetupOk skSetup Dom (skA y) (args y) where
  near := by
    intro θ h l
    by_cases l1 : l = 1
    · subst l1
      filter_upwards [lt_mem_nhds h] with x hx
      simpa [Dom] using hx
    · refine Filter.Eventually.of_forall fun x => ?_
      rw [Dom, Function.update_apply, if_neg (Ne.symm l1)]; exact h
  ne := fun θ h => skAtoms_ne _ _ _ _ (ne_of_gt h)
  table := fun θ h => skT_ok _ _ _ _ (ne_of_gt h)
  pi := fun θ h p hp => by
    simp only [skSetup, Option.some.injEq] at hp
    subst hp
    exact ev_pi _ _ _ _
  inps := fun θ h => by
    simp only [skSetup, List.map_cons, List.map_nil, args]
    rw [skA, ev_add, ev_mk, ev_mk, ev_mk, ev_mk]
    norm_num
  rules := fun θ h => skR_ok _ _ _ _
  curve := fun θ h l => setup_curve y θ h l

/-- The first derivatives as polynomials. -/
def base : List Poly := [
  sub (mk (-1) (-1) (-1) (-1) 1 0 1 1 0) (mk 1 (-2) 0 0 0 1 0 0 0),
  add (sub (mk 1 (-2) (-1) (-1) 1 1 1 1 0) (mk 1 (-1) 0 0 0 0 0 0 0)) (mk 1 (-3) 0 0 0 2 0 0 0),
  mk (-1) (-1) (-1) (-1) 1 1 1 0 0]

end Verif.Misc.SkewNorm
