import Verif.Misc.CheckLemmas
import Mathlib.Analysis.SpecialFunctions.Sqrt
import Mathlib.Analysis.SpecialFunctions.Log.Deriv

/-!
# Atoms of the sinh-arcsinh log density

With `d = m - y`, `u = arcsinh (d / s)`, `X = t u + v`: the atoms are `s`, `t`, `C = cosh X`,
`w = 1 / √(1 + (d / s)²)` (none of them zero), and `d`, `u`, `S = sinh X`, `v`, `y`, and the
parameters that stand for `s` and `t` when these are given by their logarithms.
-/

namespace Verif.Misc.Sym

open Filter Topology

section
variable (s t d v : ℝ)

noncomputable def aU : ℝ := Real.arsinh (d / s)
noncomputable def aX : ℝ := t * aU s d + v
noncomputable def aW : ℝ := (√(1 + (d / s) ^ 2))⁻¹
noncomputable def aC : ℝ := Real.cosh (aX s t d v)
noncomputable def aS : ℝ := Real.sinh (aX s t d v)

/-- The atoms. -/
noncomputable def shAtoms (y ls lt : ℝ) : Atoms :=
  ⟨[s, t, aC s t d v, aW s d], [d, aU s d, aS s t d v, v, y, ls, lt]⟩

end

/-- One monomial. -/
def mo (c : ℚ) (s t C w : ℤ) (d u S : ℕ) (v y ls lt : ℕ := 0) : Poly :=
  [(c, ([s, t, C, w], [d, u, S, v, y, ls, lt]))]

theorem ev_mo (s t d v y ls lt : ℝ) (c : ℚ) (es et eC ew : ℤ) (ed eu eS ev' ey els elt : ℕ) :
    ev (shAtoms s t d v y ls lt) (mo c es et eC ew ed eu eS ev' ey els elt) =
      c * (s ^ es * t ^ et * aC s t d v ^ eC * aW s d ^ ew) *
        (d ^ ed * aU s d ^ eu * aS s t d v ^ eS * v ^ ev' * y ^ ey * ls ^ els * lt ^ elt) := by
  simp only [mo, ev, evM, shAtoms, evZ, evN]
  ring

theorem aC_pos (s t d v : ℝ) : 0 < aC s t d v := Real.cosh_pos _

theorem q_pos (s d : ℝ) : 0 < 1 + (d / s) ^ 2 := by positivity

theorem aW_pos (s d : ℝ) : 0 < aW s d := inv_pos.2 (Real.sqrt_pos.2 (q_pos s d))

theorem aW_sq (s d : ℝ) : aW s d ^ 2 = (1 + (d / s) ^ 2)⁻¹ := by
  rw [aW, inv_pow, Real.sq_sqrt (q_pos s d).le]

theorem aS_sq (s t d v : ℝ) : aS s t d v ^ 2 = aC s t d v ^ 2 - 1 := by
  have := Real.cosh_sq (aX s t d v)
  rw [aS, aC]; linarith

theorem d_sq (s d : ℝ) (hs : s ≠ 0) : d ^ 2 = s ^ 2 * aW s d ^ (-2 : ℤ) - s ^ 2 := by
  have h : aW s d ^ (-2 : ℤ) = 1 + (d / s) ^ 2 := by
    rw [zpow_neg, show (2 : ℤ) = ((2 : ℕ) : ℤ) from rfl, zpow_natCast, aW_sq, inv_inv]
  rw [h]; field_simp; ring

theorem shAtoms_ne (s t d v y ls lt : ℝ) (hs : s ≠ 0) (ht : t ≠ 0) :
    ∀ a ∈ (shAtoms s t d v y ls lt).z, a ≠ 0 := by
  intro a ha
  simp only [shAtoms, List.mem_cons, List.not_mem_nil, or_false] at ha
  rcases ha with rfl | rfl | rfl | rfl
  · exact hs
  · exact ht
  · exact (aC_pos _ _ _ _).ne'
  · exact (aW_pos _ _).ne'

/-! ### What is known of the functions -/

def q1 : Poly := add (mo 1 0 0 0 0 0 0 0) (mo 1 (-2) 0 0 0 2 0 0)
def q2 : Poly := add (mo 1 2 0 0 0 0 0 0) (mo 1 0 0 0 0 2 0 0)
def xx : Poly := add (mo 1 0 1 0 0 0 1 0) (mo 1 0 0 0 0 0 0 0 1)
def wp (k : ℤ) : Poly := mo 1 0 0 0 k 0 0 0

def shT : Table := [
  (.inv, q1, wp 2), (.inv, ppow q1 2, wp 4), (.inv, ppow q1 3, wp 6), (.inv, ppow q1 4, wp 8),
  (.inv, q2, mo 1 (-2) 0 0 2 0 0 0),
  (.sqrt, q1, wp (-1)),
  (.rpow (-3 / 2), q1, wp 3), (.rpow (-5 / 2), q1, wp 5), (.rpow (-7 / 2), q1, wp 7),
  (.rpow (3 / 2), q1, wp (-3)), (.rpow (5 / 2), q1, wp (-5)), (.rpow (7 / 2), q1, wp (-7)),
  (.arcsinh, mo 1 (-1) 0 0 0 1 0 0, mo 1 0 0 0 0 0 1 0),
  (.arcsinh, mo (-1) (-1) 0 0 0 1 0 0, mo (-1) 0 0 0 0 0 1 0),
  (.sinh, xx, mo 1 0 0 0 0 0 0 1), (.sinh, neg xx, mo (-1) 0 0 0 0 0 0 1),
  (.cosh, xx, mo 1 0 0 1 0 0 0 0), (.cosh, neg xx, mo 1 0 0 1 0 0 0 0)]

/-- The squares of `S` and of `d`. -/
def shR : List (ℕ × Poly) := [
  (2, add (mo 1 0 0 2 0 0 0 0) (mo (-1) 0 0 0 0 0 0 0)),
  (0, add (mo 1 2 0 0 (-2) 0 0 0) (mo (-1) 2 0 0 0 0 0 0))]

theorem shR_ok (s t d v y ls lt : ℝ) (hs : s ≠ 0) :
    ∀ q ∈ shR, ∃ a, (shAtoms s t d v y ls lt).n[q.1]? = some a ∧
      a ^ 2 = ev (shAtoms s t d v y ls lt) q.2 := by
  intro q hq
  simp only [shR, List.mem_cons, List.not_mem_nil, or_false] at hq
  rcases hq with rfl | rfl
  · refine ⟨aS s t d v, rfl, ?_⟩
    rw [ev_add, ev_mo, ev_mo, aS_sq]; norm_num [zpow_ofNat]; ring
  · refine ⟨d, rfl, ?_⟩
    rw [ev_add, ev_mo, ev_mo, d_sq s d hs]; norm_num [zpow_ofNat]; ring

section
variable (s t d v y ls lt : ℝ) (hs : s ≠ 0) (ht : t ≠ 0)
include hs ht

theorem ev_q1 : ev (shAtoms s t d v y ls lt) q1 = 1 + (d / s) ^ 2 := by
  rw [q1, ev_add, ev_mo, ev_mo]
  norm_num [zpow_neg, zpow_ofNat]
  ring

theorem ev_q2 : ev (shAtoms s t d v y ls lt) q2 = s ^ 2 + d ^ 2 := by
  rw [q2, ev_add, ev_mo, ev_mo]
  norm_num [zpow_ofNat]

theorem ev_xx : ev (shAtoms s t d v y ls lt) xx = aX s t d v := by
  rw [xx, ev_add, ev_mo, ev_mo, aX]
  norm_num

theorem ev_wp (k : ℤ) : ev (shAtoms s t d v y ls lt) (wp k) = aW s d ^ k := by
  rw [wp, ev_mo]; norm_num

omit hs ht in
theorem aW_rpow (k : ℤ) (q : ℚ) (h : q = -(k : ℚ) / 2) :
    (1 + (d / s) ^ 2) ^ (q : ℝ) = aW s d ^ k := by
  have hq := q_pos s d
  rw [aW, ← Real.rpow_intCast, Real.sqrt_eq_rpow, ← Real.rpow_neg hq.le, ← Real.rpow_mul hq.le, h]
  congr 1
  push_cast; ring

theorem shT_ok : TableOk (shAtoms s t d v y ls lt) shT := by
  have hq := q_pos s d
  have hA := shAtoms_ne s t d v y ls lt hs ht
  have e1 := ev_q1 s t d v y ls lt hs ht
  have ew := ev_wp s t d v y ls lt hs ht
  have ex := ev_xx s t d v y ls lt hs ht
  have hwz : ∀ n : ℕ, aW s d ^ ((2 * n : ℕ) : ℤ) = ((1 + (d / s) ^ 2) ^ n)⁻¹ := by
    intro n
    rw [zpow_natCast, pow_mul, aW_sq, inv_pow]
  intro e he
  simp only [shT, List.mem_cons, List.not_mem_nil, or_false] at he
  rcases he with rfl | rfl | rfl | rfl | rfl | rfl | rfl | rfl | rfl | rfl | rfl | rfl | rfl | rfl |
    rfl | rfl | rfl | rfl
  · simp only [Fn.eval]; rw [e1, ew, if_neg hq.ne']
    have := hwz 1; rw [pow_one] at this; rw [← this]; rfl
  · simp only [Fn.eval]; rw [ev_ppow hA, e1, ew, if_neg (pow_pos hq _).ne', ← hwz]; rfl
  · simp only [Fn.eval]; rw [ev_ppow hA, e1, ew, if_neg (pow_pos hq _).ne', ← hwz]; rfl
  · simp only [Fn.eval]; rw [ev_ppow hA, e1, ew, if_neg (pow_pos hq _).ne', ← hwz]; rfl
  · simp only [Fn.eval]
    have : s ^ 2 + d ^ 2 ≠ 0 := by positivity
    rw [ev_q2 s t d v y ls lt hs ht, if_neg this, ev_mo]
    have h2 := aW_sq s d
    congr 1
    have h3 : aW s d ^ (2 : ℤ) = (1 + (d / s) ^ 2)⁻¹ := by rw [← h2]; norm_cast
    rw [h3]
    norm_num [zpow_neg, zpow_ofNat]
    rw [← mul_inv]; congr 1; field_simp
  · simp only [Fn.eval]; rw [e1, ew, if_neg (not_lt.2 hq.le), aW]; simp
  all_goals first
    | (simp only [Fn.eval]; rw [e1, ew, if_neg (not_le.2 hq)]; congr 1
       refine aW_rpow s d _ _ ?_; norm_num; done)
    | skip
  · simp only [Fn.eval]; rw [ev_mo, ev_mo, aU]; norm_num [zpow_neg]; ring
  · simp only [Fn.eval]; rw [ev_mo, ev_mo, aU]; norm_num [zpow_neg]; ring
  · simp only [Fn.eval]; rw [ex, ev_mo, aS]; norm_num
  · simp only [Fn.eval]; rw [ev_neg hA, ex, ev_mo, aS]; norm_num
  · simp only [Fn.eval]; rw [ex, ev_mo, aC]; norm_num
  · simp only [Fn.eval]; rw [ev_neg hA, ex, ev_mo, aC]; norm_num

end

/-! ### Derivatives of the atoms -/

section
variable {s t d v : ℝ → ℝ} {s' t' d' v' x₀ : ℝ}

theorem hasDeriv_U (hs0 : s x₀ ≠ 0) (hs : HasDerivAt s s' x₀) (hd : HasDerivAt d d' x₀) :
    HasDerivAt (fun x => aU (s x) (d x))
      (aW (s x₀) (d x₀) * ((d' * s x₀ - d x₀ * s') / s x₀ ^ 2)) x₀ := by
  have h := (hd.fun_div hs hs0)
  exact (Real.hasDerivAt_arsinh _).comp x₀ h

theorem hasDeriv_X (hs0 : s x₀ ≠ 0) (hs : HasDerivAt s s' x₀) (hd : HasDerivAt d d' x₀)
    (ht : HasDerivAt t t' x₀) (hv : HasDerivAt v v' x₀) :
    HasDerivAt (fun x => aX (s x) (t x) (d x) (v x))
      (t' * aU (s x₀) (d x₀) +
        t x₀ * (aW (s x₀) (d x₀) * ((d' * s x₀ - d x₀ * s') / s x₀ ^ 2)) + v') x₀ :=
  (ht.fun_mul (hasDeriv_U hs0 hs hd)).fun_add hv

theorem hasDeriv_C (hs0 : s x₀ ≠ 0) (hs : HasDerivAt s s' x₀) (hd : HasDerivAt d d' x₀)
    (ht : HasDerivAt t t' x₀) (hv : HasDerivAt v v' x₀) :
    HasDerivAt (fun x => aC (s x) (t x) (d x) (v x))
      (aS (s x₀) (t x₀) (d x₀) (v x₀) * (t' * aU (s x₀) (d x₀) +
        t x₀ * (aW (s x₀) (d x₀) * ((d' * s x₀ - d x₀ * s') / s x₀ ^ 2)) + v')) x₀ :=
  (Real.hasDerivAt_cosh _).comp x₀ (hasDeriv_X hs0 hs hd ht hv)

theorem hasDeriv_S (hs0 : s x₀ ≠ 0) (hs : HasDerivAt s s' x₀) (hd : HasDerivAt d d' x₀)
    (ht : HasDerivAt t t' x₀) (hv : HasDerivAt v v' x₀) :
    HasDerivAt (fun x => aS (s x) (t x) (d x) (v x))
      (aC (s x₀) (t x₀) (d x₀) (v x₀) * (t' * aU (s x₀) (d x₀) +
        t x₀ * (aW (s x₀) (d x₀) * ((d' * s x₀ - d x₀ * s') / s x₀ ^ 2)) + v')) x₀ :=
  (Real.hasDerivAt_sinh _).comp x₀ (hasDeriv_X hs0 hs hd ht hv)

theorem hasDeriv_W (hs0 : s x₀ ≠ 0) (hs : HasDerivAt s s' x₀) (hd : HasDerivAt d d' x₀) :
    HasDerivAt (fun x => aW (s x) (d x))
      (-(d x₀ / s x₀) * ((d' * s x₀ - d x₀ * s') / s x₀ ^ 2) * aW (s x₀) (d x₀) ^ 3) x₀ := by
  have h := (((hd.fun_div hs hs0).fun_pow 2).const_add 1)
  have hq := q_pos (s x₀) (d x₀)
  have h2 := (h.sqrt hq.ne').fun_inv (Real.sqrt_pos.2 hq).ne'
  refine h2.congr_deriv ?_
  have : aW (s x₀) (d x₀) ^ 3 = (√(1 + (d x₀ / s x₀) ^ 2))⁻¹ / √(1 + (d x₀ / s x₀) ^ 2) ^ 2 := by
    rw [aW]; field_simp
  rw [this]
  have hr := (Real.sqrt_pos.2 hq).ne'
  generalize √(1 + (d x₀ / s x₀) ^ 2) = r at hr
  generalize (d' * s x₀ - d x₀ * s') / s x₀ ^ 2 = z'
  generalize d x₀ / s x₀ = z
  push_cast
  field_simp

end

/-- Derivatives of the atoms in `m`. -/
def dM : List Poly × List Poly :=
  ([[], [], mo 1 (-1) 1 0 1 0 0 1, mo (-1) (-2) 0 0 3 1 0 0],
   [mo 1 0 0 0 0 0 0 0, mo 1 (-1) 0 0 1 0 0 0, mo 1 (-1) 1 1 1 0 0 0, [], [], [], []])

/-- Derivatives of the atoms in the scale parameter, when that of `s` is `s ^ k`. -/
def dS (k : ℤ) : List Poly × List Poly :=
  ([mo 1 k 0 0 0 0 0 0, [], mo (-1) (k - 2) 1 0 1 1 0 1, mo 1 (k - 3) 0 0 3 2 0 0],
   [[], mo (-1) (k - 2) 0 0 1 1 0 0, mo (-1) (k - 2) 1 1 1 1 0 0, [], [], mo 1 0 0 0 0 0 0 0, []])

/-- Derivatives of the atoms in the tail parameter, when that of `t` is `t ^ k`. -/
def dT (k : ℤ) : List Poly × List Poly :=
  ([[], mo 1 0 k 0 0 0 0 0, mo 1 0 k 0 0 0 1 1, []],
   [[], [], mo 1 0 k 1 0 0 1 0, [], [], [], mo 1 0 0 0 0 0 0 0])

/-- Derivatives of the atoms in `v`. -/
def dV : List Poly × List Poly :=
  ([[], [], mo 1 0 0 0 0 0 0 1, []],
   [[], [], mo 1 0 0 1 0 0 0 0, mo 1 0 0 0 0 0 0 0, [], [], []])

/-- The atoms as functions of the parameters; `σ` and `τ` are the identity or the exponential. -/
noncomputable def shA (σ τ : ℝ → ℝ) (y m s t v : ℝ) : Atoms :=
  shAtoms (σ s) (τ t) (m - y) v y s t

section
variable (σ τ : ℝ → ℝ) (y m s t v : ℝ)

theorem ev_nil (B : Atoms) : ev B [] = 0 := rfl

/-- What `SetupOk` asks of one parameter. -/
def CurveOk (B : ℝ → Atoms) (D : List Poly × List Poly) (x₀ : ℝ) : Prop :=
  ∃ c : Curve, (∀ x, c.at x = B x) ∧
    List.Forall₂ (fun f D => HasDerivAt f (ev (B x₀) D) x₀) c.z D.1 ∧
    List.Forall₂ (fun f D => HasDerivAt f (ev (B x₀) D) x₀) c.n D.2

variable {σ τ y m s t v}

theorem curve_m (hs : σ s ≠ 0) : CurveOk (fun x => shA σ τ y x s t v) dM m := by
  have c0 : ∀ c : ℝ, HasDerivAt (fun _ : ℝ => c) 0 m := fun c => hasDerivAt_const m c
  have hd : HasDerivAt (fun x => x - y) 1 m := (hasDerivAt_id m).sub_const y
  refine ⟨⟨[fun _ => σ s, fun _ => τ t, fun x => aC (σ s) (τ t) (x - y) v, fun x => aW (σ s) (x - y)],
    [fun x => x - y, fun x => aU (σ s) (x - y), fun x => aS (σ s) (τ t) (x - y) v, fun _ => v,
      fun _ => y, fun _ => s, fun _ => t]⟩, fun x => rfl, ?_, ?_⟩
  · refine .cons ?_ (.cons ?_ (.cons ?_ (.cons ?_ .nil)))
    · exact c0 _
    · exact c0 _
    · refine (hasDeriv_C (s := fun _ => σ s) (t := fun _ => τ t) (d := fun x => x - y) (v := fun _ => v) hs (c0 _) hd (c0 _) (c0 _)).congr_deriv ?_
      beta_reduce; rw [shA, ev_mo]; norm_num [zpow_neg]; field_simp
    · refine (hasDeriv_W (s := fun _ => σ s) (d := fun x => x - y) hs (c0 _) hd).congr_deriv ?_
      beta_reduce; rw [shA, ev_mo]; norm_num [zpow_neg, zpow_ofNat]; field_simp
  · refine .cons ?_ (.cons ?_ (.cons ?_ (.cons ?_ (.cons ?_ (.cons ?_ (.cons ?_ .nil))))))
    · refine hd.congr_deriv ?_; beta_reduce; rw [shA, ev_mo]; norm_num
    · refine (hasDeriv_U (s := fun _ => σ s) (d := fun x => x - y) hs (c0 _) hd).congr_deriv ?_
      beta_reduce; rw [shA, ev_mo]; norm_num [zpow_neg]; field_simp
    · refine (hasDeriv_S (s := fun _ => σ s) (t := fun _ => τ t) (d := fun x => x - y) (v := fun _ => v) hs (c0 _) hd (c0 _) (c0 _)).congr_deriv ?_
      beta_reduce; rw [shA, ev_mo]; norm_num [zpow_neg]; field_simp
    all_goals exact c0 _

theorem curve_s (k : ℤ) (hs : σ s ≠ 0) (hσ : HasDerivAt σ (σ s ^ k) s) :
    CurveOk (fun x => shA σ τ y m x t v) (dS k) s := by
  have c0 : ∀ c : ℝ, HasDerivAt (fun _ : ℝ => c) 0 s := fun c => hasDerivAt_const s c
  have k2 : σ s ^ (k - 2) = σ s ^ k / σ s ^ 2 := by rw [zpow_sub₀ hs]; norm_cast
  have k3 : σ s ^ (k - 3) = σ s ^ k / σ s ^ 3 := by rw [zpow_sub₀ hs]; norm_cast
  refine ⟨⟨[σ, fun _ => τ t, fun x => aC (σ x) (τ t) (m - y) v, fun x => aW (σ x) (m - y)],
    [fun _ => m - y, fun x => aU (σ x) (m - y), fun x => aS (σ x) (τ t) (m - y) v, fun _ => v,
      fun _ => y, fun x => x, fun _ => t]⟩, fun x => rfl, ?_, ?_⟩
  · refine .cons ?_ (.cons ?_ (.cons ?_ (.cons ?_ .nil)))
    · refine hσ.congr_deriv ?_; beta_reduce; rw [shA, ev_mo]; norm_num
    · exact c0 _
    · refine (hasDeriv_C (s := σ) (t := fun _ => τ t) (d := fun _ => m - y) (v := fun _ => v) hs hσ (c0 _) (c0 _) (c0 _)).congr_deriv ?_
      beta_reduce; rw [shA, ev_mo, k2]; norm_num; field_simp
    · refine (hasDeriv_W (s := σ) (d := fun _ => m - y) hs hσ (c0 _)).congr_deriv ?_
      beta_reduce; rw [shA, ev_mo, k3]; norm_num [zpow_ofNat]; field_simp
  · refine .cons ?_ (.cons ?_ (.cons ?_ (.cons ?_ (.cons ?_ (.cons ?_ (.cons ?_ .nil))))))
    · exact c0 _
    · refine (hasDeriv_U (s := σ) (d := fun _ => m - y) hs hσ (c0 _)).congr_deriv ?_
      beta_reduce; rw [shA, ev_mo, k2]; norm_num; field_simp
    · refine (hasDeriv_S (s := σ) (t := fun _ => τ t) (d := fun _ => m - y) (v := fun _ => v) hs hσ (c0 _) (c0 _) (c0 _)).congr_deriv ?_
      beta_reduce; rw [shA, ev_mo, k2]; norm_num; field_simp
    · exact c0 _
    · exact c0 _
    · refine (hasDerivAt_id s).congr_deriv ?_; beta_reduce; rw [shA, ev_mo]; norm_num
    · exact c0 _

theorem curve_t (k : ℤ) (hs : σ s ≠ 0) (hτ : HasDerivAt τ (τ t ^ k) t) :
    CurveOk (fun x => shA σ τ y m s x v) (dT k) t := by
  have c0 : ∀ c : ℝ, HasDerivAt (fun _ : ℝ => c) 0 t := fun c => hasDerivAt_const t c
  refine ⟨⟨[fun _ => σ s, τ, fun x => aC (σ s) (τ x) (m - y) v, fun _ => aW (σ s) (m - y)],
    [fun _ => m - y, fun _ => aU (σ s) (m - y), fun x => aS (σ s) (τ x) (m - y) v, fun _ => v,
      fun _ => y, fun _ => s, fun x => x]⟩, fun x => rfl, ?_, ?_⟩
  · refine .cons ?_ (.cons ?_ (.cons ?_ (.cons ?_ .nil)))
    · exact c0 _
    · refine hτ.congr_deriv ?_; beta_reduce; rw [shA, ev_mo]; norm_num
    · refine (hasDeriv_C (s := fun _ => σ s) (t := τ) (d := fun _ => m - y) (v := fun _ => v) hs (c0 _) (c0 _) hτ (c0 _)).congr_deriv ?_
      beta_reduce; rw [shA, ev_mo]; norm_num; ring
    · exact c0 _
  · refine .cons ?_ (.cons ?_ (.cons ?_ (.cons ?_ (.cons ?_ (.cons ?_ (.cons ?_ .nil))))))
    · exact c0 _
    · exact c0 _
    · refine (hasDeriv_S (s := fun _ => σ s) (t := τ) (d := fun _ => m - y) (v := fun _ => v) hs (c0 _) (c0 _) hτ (c0 _)).congr_deriv ?_
      beta_reduce; rw [shA, ev_mo]; norm_num; ring
    · exact c0 _
    · exact c0 _
    · exact c0 _
    · refine (hasDerivAt_id t).congr_deriv ?_; beta_reduce; rw [shA, ev_mo]; norm_num

theorem curve_v (hs : σ s ≠ 0) : CurveOk (fun x => shA σ τ y m s t x) dV v := by
  have c0 : ∀ c : ℝ, HasDerivAt (fun _ : ℝ => c) 0 v := fun c => hasDerivAt_const v c
  have hv : HasDerivAt (fun x : ℝ => x) 1 v := hasDerivAt_id v
  refine ⟨⟨[fun _ => σ s, fun _ => τ t, fun x => aC (σ s) (τ t) (m - y) x, fun _ => aW (σ s) (m - y)],
    [fun _ => m - y, fun _ => aU (σ s) (m - y), fun x => aS (σ s) (τ t) (m - y) x, fun x => x,
      fun _ => y, fun _ => s, fun _ => t]⟩, fun x => rfl, ?_, ?_⟩
  · refine .cons ?_ (.cons ?_ (.cons ?_ (.cons ?_ .nil)))
    · exact c0 _
    · exact c0 _
    · refine (hasDeriv_C (s := fun _ => σ s) (t := fun _ => τ t) (d := fun _ => m - y) (v := fun x => x) hs (c0 _) (c0 _) (c0 _) hv).congr_deriv ?_
      beta_reduce; rw [shA, ev_mo]; norm_num
    · exact c0 _
  · refine .cons ?_ (.cons ?_ (.cons ?_ (.cons ?_ (.cons ?_ (.cons ?_ (.cons ?_ .nil))))))
    · exact c0 _
    · exact c0 _
    · refine (hasDeriv_S (s := fun _ => σ s) (t := fun _ => τ t) (d := fun _ => m - y) (v := fun x => x) hs (c0 _) (c0 _) (c0 _) hv).congr_deriv ?_
      beta_reduce; rw [shA, ev_mo]; norm_num
    · refine hv.congr_deriv ?_; beta_reduce; rw [shA, ev_mo]; norm_num
    all_goals exact c0 _

end

/-- A parameter that is not there. -/
def d0 : List Poly × List Poly := ([[], [], [], []], [[], [], [], [], [], [], []])

theorem curve_0 (B : ℝ → Atoms) (σ τ : ℝ → ℝ) (y m s t v x₀ : ℝ)
    (h : ∀ x, B x = shA σ τ y m s t v) : CurveOk B d0 x₀ := by
  have c0 : ∀ c : ℝ, HasDerivAt (fun _ : ℝ => c) 0 x₀ := fun c => hasDerivAt_const x₀ c
  refine ⟨⟨[fun _ => σ s, fun _ => τ t, fun _ => aC (σ s) (τ t) (m - y) v, fun _ => aW (σ s) (m - y)],
    [fun _ => m - y, fun _ => aU (σ s) (m - y), fun _ => aS (σ s) (τ t) (m - y) v, fun _ => v,
      fun _ => y, fun _ => s, fun _ => t]⟩, fun x => (h x).symm, ?_, ?_⟩
  · exact .cons (c0 _) (.cons (c0 _) (.cons (c0 _) (.cons (c0 _) .nil)))
  · exact .cons (c0 _) (.cons (c0 _) (.cons (c0 _) (.cons (c0 _) (.cons (c0 _) (.cons (c0 _)
      (.cons (c0 _) .nil))))))

/-- `y` and `m` as polynomials. -/
def pY : Poly := mo 1 0 0 0 0 0 0 0 0 1
def pM : Poly := add (mo 1 0 0 0 0 1 0 0) pY

/-- The setup with parameters `m, s, t, v`. -/
def shSetup : Setup where
  T := shT
  spi := none
  inp := [pY, pM, mo 1 1 0 0 0 0 0 0, mo 1 0 1 0 0 0 0 0, mo 1 0 0 0 0 0 0 0 1]
  R := shR
  D := fun l => match l with | 0 => dM | 1 => dS 0 | 2 => dT 0 | 3 => dV | _ => d0
  p := 4

end Verif.Misc.Sym
