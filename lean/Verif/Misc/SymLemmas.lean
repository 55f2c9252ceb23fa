import Verif.Misc.Expr
import Mathlib.Analysis.Calculus.Deriv.ZPow
import Mathlib.Analysis.Calculus.Deriv.Pow
import Mathlib.Analysis.Calculus.Deriv.Mul

/-!
# Polynomials with a verified derivative

To check the programs of `Verif.Misc` the proofs run them on polynomials (with rational
coefficients, whole exponents for atoms that do not vanish and natural exponents for the others),
differentiate the polynomials formally, and compare.  Everything here is proof machinery: the
theorems about the code are stated with the interpreter of `Expr.lean` alone.
-/

namespace Verif.Misc.Sym

abbrev Mono := List ℤ × List ℕ
abbrev Poly := List (ℚ × Mono)

/-- Values of the atoms. -/
structure Atoms where
  z : List ℝ
  n : List ℝ

noncomputable def evZ : List ℤ → List ℝ → ℝ
  | e :: es, a :: as => a ^ e * evZ es as
  | _, _ => 1

noncomputable def evN : List ℕ → List ℝ → ℝ
  | e :: es, a :: as => a ^ e * evN es as
  | _, _ => 1

noncomputable def evM (A : Atoms) (m : Mono) : ℝ := evZ m.1 A.z * evN m.2 A.n

noncomputable def ev (A : Atoms) : Poly → ℝ
  | [] => 0
  | t :: r => t.1 * evM A t.2 + ev A r

def eqZ : List ℤ → List ℤ → Bool
  | [], [] => true
  | a :: l, b :: m => a == b && eqZ l m
  | _, _ => false

def eqN : List ℕ → List ℕ → Bool
  | [], [] => true
  | a :: l, b :: m => a == b && eqN l m
  | _, _ => false

def ins (t : ℚ × Mono) : Poly → Poly
  | [] => [t]
  | u :: r =>
    bif eqZ u.2.1 t.2.1 && eqN u.2.2 t.2.2 then
      (bif u.1 + t.1 == 0 then r else (u.1 + t.1, u.2) :: r)
    else u :: ins t r

def add : Poly → Poly → Poly
  | [], q => q
  | t :: r, q => ins t (add r q)

def addZ : List ℤ → List ℤ → List ℤ
  | [], l => l
  | l, [] => l
  | a :: l, b :: m => (a + b) :: addZ l m

def addN : List ℕ → List ℕ → List ℕ
  | [], l => l
  | l, [] => l
  | a :: l, b :: m => (a + b) :: addN l m

def smul (t : ℚ × Mono) : Poly → Poly
  | [] => []
  | u :: r => (t.1 * u.1, (addZ t.2.1 u.2.1, addN t.2.2 u.2.2)) :: smul t r

def mul : Poly → Poly → Poly
  | [], _ => []
  | t :: r, q => add (smul t q) (mul r q)

def neg (p : Poly) : Poly := smul (-1, ([], [])) p

def sub (p q : Poly) : Poly := add p (neg q)

def one : Poly := [(1, ([], []))]

def ppow (p : Poly) : ℕ → Poly
  | 0 => one
  | 1 => p
  | k + 1 => mul p (ppow p k)

def isZero : Poly → Bool
  | [] => true
  | t :: r => t.1 == 0 && isZero r

/-- Normal form: the square of atom `j` is replaced. -/
def nf1 (j : ℕ) (rest : Poly) : Poly → Poly
  | [] => []
  | t :: r =>
    let e := t.2.2.getD j 0
    bif Nat.blt e 2 then ins t (nf1 j rest r) else
    add (smul (t.1, (t.2.1, t.2.2.set j (e % 2))) (ppow rest (e / 2))) (nf1 j rest r)

def nf : List (ℕ × Poly) → Poly → Poly
  | [], p => p
  | (j, q) :: r, p => nf r (nf1 j q p)

def derZ : List ℤ → List Poly → List (ℚ × List ℤ × Poly)
  | e :: es, D :: Ds =>
    let r := (derZ es Ds).map fun q => (q.1, e :: q.2.1, q.2.2)
    bif e == 0 then r else ((e : ℚ), (e - 1) :: es, D) :: r
  | _, _ => []

def derN : List ℕ → List Poly → List (ℚ × List ℕ × Poly)
  | e :: es, D :: Ds =>
    let r := (derN es Ds).map fun q => (q.1, e :: q.2.1, q.2.2)
    bif e == 0 then r else ((e : ℚ), (e - 1) :: es, D) :: r
  | _, _ => []

def sumZ (c : ℚ) (n : List ℕ) : List (ℚ × List ℤ × Poly) → Poly
  | [] => []
  | q :: r => add (smul (c * q.1, (q.2.1, n)) q.2.2) (sumZ c n r)

def sumN (c : ℚ) (z : List ℤ) : List (ℚ × List ℕ × Poly) → Poly
  | [] => []
  | q :: r => add (smul (c * q.1, (z, q.2.1)) q.2.2) (sumN c z r)

/-- The formal derivative, given those of the atoms. -/
def der (Dz Dn : List Poly) : Poly → Poly
  | [] => []
  | t :: r =>
    add (add (sumZ t.1 t.2.2 (derZ t.2.1 Dz)) (sumN t.1 t.2.1 (derN t.2.2 Dn))) (der Dz Dn r)

/-! ### Meaning -/

theorem eqZ_iff : ∀ a b, eqZ a b = true → a = b
  | [], [], _ => rfl
  | a :: l, b :: m, h => by
    simp only [eqZ, Bool.and_eq_true, beq_iff_eq] at h
    rw [h.1, eqZ_iff l m h.2]

theorem eqN_iff : ∀ a b, eqN a b = true → a = b
  | [], [], _ => rfl
  | a :: l, b :: m, h => by
    simp only [eqN, Bool.and_eq_true, beq_iff_eq] at h
    rw [h.1, eqN_iff l m h.2]

theorem ev_ins (A t) : ∀ p, ev A (ins t p) = t.1 * evM A t.2 + ev A p
  | [] => by simp [ins, ev]
  | u :: r => by
    unfold ins
    cases h : (eqZ u.2.1 t.2.1 && eqN u.2.2 t.2.2) with
    | false => simp only [cond_false, ev, ev_ins A t r]; ring
    | true =>
      rw [Bool.and_eq_true] at h
      have e : u.2 = t.2 := Prod.ext (eqZ_iff _ _ h.1) (eqN_iff _ _ h.2)
      cases h0 : (u.1 + t.1 == 0) with
      | true =>
        simp only [cond_true]
        have h1 : (u.1 : ℝ) + t.1 = 0 := by exact_mod_cast beq_iff_eq.1 h0
        simp only [ev, e]
        linear_combination (-(evM A t.2)) * h1
      | false => simp only [cond_true, cond_false, ev, e]; push_cast; ring

theorem ev_add (A) : ∀ p q, ev A (add p q) = ev A p + ev A q
  | [], q => by simp [add, ev]
  | t :: r, q => by simp only [add, ev_ins, ev_add A r q, ev]; ring

theorem evZ_addZ : ∀ (as : List ℝ) (_ : ∀ a ∈ as, a ≠ 0) (l m : List ℤ),
    evZ (addZ l m) as = evZ l as * evZ m as
  | _, _, [], m => by simp [addZ, evZ]
  | _, _, a :: l, [] => by simp [addZ, evZ]
  | [], _, a :: l, b :: m => by simp [addZ, evZ]
  | x :: as, h, a :: l, b :: m => by
    simp only [addZ, evZ]
    rw [evZ_addZ as (fun a ha => h a (List.mem_cons_of_mem _ ha)) l m,
      zpow_add₀ (h x List.mem_cons_self)]
    ring

theorem evN_addN : ∀ (as : List ℝ) (l m : List ℕ), evN (addN l m) as = evN l as * evN m as
  | _, [], m => by simp [addN, evN]
  | _, a :: l, [] => by simp [addN, evN]
  | [], a :: l, b :: m => by simp [addN, evN]
  | x :: as, a :: l, b :: m => by
    simp only [addN, evN]
    rw [evN_addN as l m, pow_add]
    ring

variable {A : Atoms}

theorem ev_smul (hA : ∀ a ∈ A.z, a ≠ 0) (t : ℚ × Mono) :
    ∀ p, ev A (smul t p) = t.1 * evM A t.2 * ev A p
  | [] => by simp [smul, ev]
  | u :: r => by
    simp only [smul, ev, ev_smul hA t r, evM, evZ_addZ _ hA, evN_addN]; push_cast; ring

theorem ev_mul (hA : ∀ a ∈ A.z, a ≠ 0) : ∀ p q, ev A (mul p q) = ev A p * ev A q
  | [], q => by simp [mul, ev]
  | t :: r, q => by simp only [mul, ev_add, ev_smul hA, ev_mul hA r q, ev]; ring

theorem ev_neg (hA : ∀ a ∈ A.z, a ≠ 0) (p) : ev A (neg p) = -ev A p := by
  rw [neg, ev_smul hA]; simp [evM, evZ, evN]

theorem ev_sub (hA : ∀ a ∈ A.z, a ≠ 0) (p q) : ev A (sub p q) = ev A p - ev A q := by
  rw [sub, ev_add, ev_neg hA]; ring

theorem ev_one : ev A one = 1 := by simp [one, ev, evM, evZ, evN]

theorem ev_ppow (hA : ∀ a ∈ A.z, a ≠ 0) (p) : ∀ k, ev A (ppow p k) = ev A p ^ k
  | 0 => by simp [ppow, ev_one]
  | 1 => by simp [ppow]
  | k + 2 => by rw [ppow, ev_mul hA, ev_ppow hA p (k + 1)]; ring; simp

theorem ev_isZero : ∀ p, isZero p = true → ev A p = 0
  | [], _ => rfl
  | t :: r, h => by
    simp only [isZero, Bool.and_eq_true, beq_iff_eq] at h
    simp [ev, h.1, ev_isZero r h.2]

theorem evN_set : ∀ (n : List ℕ) (as : List ℝ) (j : ℕ) (a : ℝ), as[j]? = some a →
    evN n as = evN (n.set j (n.getD j 0 % 2)) as * (a ^ 2) ^ (n.getD j 0 / 2)
  | [], as, j, a, _ => by simp [evN]
  | e :: n, b :: as, 0, a, h => by
    simp only [List.getElem?_cons_zero, Option.some.injEq] at h
    subst h
    simp only [List.set_cons_zero, List.getD_cons_zero, evN]
    conv_lhs => rw [← Nat.mod_add_div e 2, pow_add, pow_mul]
    ring
  | e :: n, b :: as, j + 1, a, h => by
    simp only [List.getElem?_cons_succ] at h
    simp only [List.set_cons_succ, List.getD_cons_succ, evN]
    rw [evN_set n as j a h]; ring
  | e :: n, [], j, a, h => by simp at h

theorem ev_nf1 (hA : ∀ a ∈ A.z, a ≠ 0) (j : ℕ) (rest : Poly) (a : ℝ) (hj : A.n[j]? = some a)
    (h2 : a ^ 2 = ev A rest) : ∀ p, ev A (nf1 j rest p) = ev A p
  | [] => rfl
  | t :: r => by
    rw [nf1]
    cases Nat.blt (t.2.2.getD j 0) 2 with
    | true => simp only [cond_true, ev_ins, ev_nf1 hA j rest a hj h2 r, ev]
    | false =>
      simp only [cond_false, ev_add, ev_smul hA, ev_ppow hA, ev_nf1 hA j rest a hj h2 r, ev, evM]
      rw [evN_set t.2.2 A.n j a hj, h2]; ring

theorem ev_nf (hA : ∀ a ∈ A.z, a ≠ 0) : ∀ (R : List (ℕ × Poly))
    (_ : ∀ q ∈ R, ∃ a, A.n[q.1]? = some a ∧ a ^ 2 = ev A q.2) (p), ev A (nf R p) = ev A p
  | [], _, _ => rfl
  | (j, q) :: r, h, p => by
    obtain ⟨a, h1, h2⟩ := h _ List.mem_cons_self
    rw [nf, ev_nf hA r (fun q hq => h q (List.mem_cons_of_mem _ hq)),
      ev_nf1 hA j q a h1 h2]

/-! ### The derivative -/

/-- Atoms along a curve. -/
structure Curve where
  z : List (ℝ → ℝ)
  n : List (ℝ → ℝ)

def Curve.at (c : Curve) (x : ℝ) : Atoms := ⟨c.z.map (· x), c.n.map (· x)⟩

/-- Sum of the pieces of the derivative of a monomial. -/
noncomputable def evDZ (B : Atoms) (as : List ℝ) : List (ℚ × List ℤ × Poly) → ℝ
  | [] => 0
  | q :: r => q.1 * evZ q.2.1 as * ev B q.2.2 + evDZ B as r

noncomputable def evDN (B : Atoms) (as : List ℝ) : List (ℚ × List ℕ × Poly) → ℝ
  | [] => 0
  | q :: r => q.1 * evN q.2.1 as * ev B q.2.2 + evDN B as r

theorem evDZ_map (B : Atoms) (a : ℝ) (as) (e : ℤ) : ∀ l,
    evDZ B (a :: as) (l.map fun q => (q.1, e :: q.2.1, q.2.2)) = a ^ e * evDZ B as l
  | [] => by simp [evDZ]
  | q :: r => by simp only [List.map_cons, evDZ, evZ, evDZ_map B a as e r]; ring

theorem evDN_map (B : Atoms) (a : ℝ) (as) (e : ℕ) : ∀ l,
    evDN B (a :: as) (l.map fun q => (q.1, e :: q.2.1, q.2.2)) = a ^ e * evDN B as l
  | [] => by simp [evDN]
  | q :: r => by simp only [List.map_cons, evDN, evN, evDN_map B a as e r]; ring

theorem hasDeriv_evZ (B : Atoms) (x₀ : ℝ) : ∀ (es : List ℤ) (fs : List (ℝ → ℝ)) (Ds : List Poly),
    List.Forall₂ (fun f D => HasDerivAt f (ev B D) x₀) fs Ds → (∀ f ∈ fs, f x₀ ≠ 0) →
    HasDerivAt (fun x => evZ es (fs.map (· x))) (evDZ B (fs.map (· x₀)) (derZ es Ds)) x₀
  | [], fs, Ds, _, _ => by
    simpa [evZ, derZ, evDZ] using hasDerivAt_const x₀ (1 : ℝ)
  | e :: es, _, _, .nil, _ => by
    simpa [evZ, derZ, evDZ] using hasDerivAt_const x₀ (1 : ℝ)
  | e :: es, f :: fs, D :: Ds, .cons h1 h2, hn => by
    have ih := hasDeriv_evZ B x₀ es fs Ds h2 (fun f hf => hn f (List.mem_cons_of_mem _ hf))
    have h0 := hn f List.mem_cons_self
    have hp : HasDerivAt (fun x => f x ^ e) ((e : ℝ) * f x₀ ^ (e - 1) * ev B D) x₀ :=
      (hasDerivAt_zpow e (f x₀) (Or.inl h0)).comp x₀ h1
    have := hp.fun_mul ih
    simp only [List.map_cons, evZ]
    refine this.congr_deriv ?_
    rw [derZ]
    cases he : (e == 0) with
    | true =>
      have : e = 0 := beq_iff_eq.1 he
      subst this
      simp only [cond_true, evDZ_map]
      simp
    | false =>
      simp only [cond_false, evDZ, evDZ_map, evZ]
      push_cast; ring

theorem hasDeriv_evN (B : Atoms) (x₀ : ℝ) : ∀ (es : List ℕ) (fs : List (ℝ → ℝ)) (Ds : List Poly),
    List.Forall₂ (fun f D => HasDerivAt f (ev B D) x₀) fs Ds →
    HasDerivAt (fun x => evN es (fs.map (· x))) (evDN B (fs.map (· x₀)) (derN es Ds)) x₀
  | [], fs, Ds, _ => by
    simpa [evN, derN, evDN] using hasDerivAt_const x₀ (1 : ℝ)
  | e :: es, _, _, .nil => by
    simpa [evN, derN, evDN] using hasDerivAt_const x₀ (1 : ℝ)
  | e :: es, f :: fs, D :: Ds, .cons h1 h2 => by
    have ih := hasDeriv_evN B x₀ es fs Ds h2
    have hp : HasDerivAt (fun x => f x ^ e) ((e : ℝ) * f x₀ ^ (e - 1) * ev B D) x₀ :=
      h1.fun_pow e
    have := hp.fun_mul ih
    simp only [List.map_cons, evN]
    refine this.congr_deriv ?_
    rw [derN]
    cases he : (e == 0) with
    | true =>
      have : e = 0 := beq_iff_eq.1 he
      subst this
      simp only [cond_true, evDN_map]
      simp
    | false =>
      simp only [cond_false, evDN, evDN_map, evN]
      push_cast; ring

theorem ev_sumZ {A : Atoms} (hA : ∀ a ∈ A.z, a ≠ 0) (c : ℚ) (n : List ℕ) : ∀ l,
    ev A (sumZ c n l) = c * evN n A.n * evDZ A A.z l
  | [] => by simp [sumZ, ev, evDZ]
  | q :: r => by
    simp only [sumZ, ev_add, ev_smul hA, ev_sumZ hA c n r, evDZ, evM]; push_cast; ring

theorem ev_sumN {A : Atoms} (hA : ∀ a ∈ A.z, a ≠ 0) (c : ℚ) (z : List ℤ) : ∀ l,
    ev A (sumN c z l) = c * evZ z A.z * evDN A A.n l
  | [] => by simp [sumN, ev, evDN]
  | q :: r => by
    simp only [sumN, ev_add, ev_smul hA, ev_sumN hA c z r, evDN, evM]; push_cast; ring

/-- The formal derivative is the derivative along a curve. -/
theorem hasDeriv_ev (c : Curve) (x₀ : ℝ) (Dz Dn : List Poly)
    (hz : List.Forall₂ (fun f D => HasDerivAt f (ev (c.at x₀) D) x₀) c.z Dz)
    (hn : List.Forall₂ (fun f D => HasDerivAt f (ev (c.at x₀) D) x₀) c.n Dn)
    (h0 : ∀ f ∈ c.z, f x₀ ≠ 0) : ∀ p,
    HasDerivAt (fun x => ev (c.at x) p) (ev (c.at x₀) (der Dz Dn p)) x₀
  | [] => by simpa [ev, der] using hasDerivAt_const x₀ (0 : ℝ)
  | t :: r => by
    have hA : ∀ a ∈ (c.at x₀).z, a ≠ 0 := by
      intro a ha
      obtain ⟨f, hf, rfl⟩ := List.mem_map.1 ha
      exact h0 f hf
    have ih := hasDeriv_ev c x₀ Dz Dn hz hn h0 r
    have h1 := hasDeriv_evZ (c.at x₀) x₀ t.2.1 c.z Dz hz h0
    have h2 := hasDeriv_evN (c.at x₀) x₀ t.2.2 c.n Dn hn
    have := ((h1.fun_mul h2).const_mul (t.1 : ℝ)).fun_add ih
    refine this.congr_deriv ?_
    simp only [der, ev_add, ev_sumZ hA, ev_sumN hA]
    simp only [Curve.at]
    ring

/-! ### Running a program on polynomials -/

/-- What is known of the functions: `f` at the first polynomial is the second. -/
abbrev Table := List (Fn × Poly × Poly)

def look (f : Fn) (p : Poly) : Table → Option Poly
  | [] => none
  | e :: r => bif decide (e.1 = f) && isZero (sub p e.2.1) then some e.2.2 else look f p r

def allZeroN : List ℕ → Bool
  | [] => true
  | a :: l => a == 0 && allZeroN l

def negZ : List ℤ → List ℤ
  | [] => []
  | a :: l => -a :: negZ l

def sfn (T : Table) (f : Fn) (p : Poly) : Option Poly :=
  match f, p with
  | .inv, [t] => bif allZeroN t.2.2 && !(t.1 == 0) then some [(t.1⁻¹, (negZ t.2.1, t.2.2))]
      else look f p T
  | _, _ => look f p T

def sym (T : Table) (spi : Option Poly) (inp env : List Poly) : Expr → Option Poly
  | .inp i => inp[i]?
  | .x i => env[i]?
  | .c q => some [(q, (inp.headD []).headD (0, ([], [])) |>.2 |> fun m =>
      (m.1.map fun _ => 0, m.2.map fun _ => 0))]
  | .pi => spi
  | .add a b => (sym T spi inp env a).bind fun p => (sym T spi inp env b).map fun q => add p q
  | .sub a b => (sym T spi inp env a).bind fun p => (sym T spi inp env b).map fun q => sub p q
  | .mul a b => (sym T spi inp env a).bind fun p => (sym T spi inp env b).map fun q => mul p q
  | .neg a => (sym T spi inp env a).map neg
  | .pow a k => (sym T spi inp env a).map fun p => ppow p k
  | .fn f a => (sym T spi inp env a).bind (sfn T f)

def srun (T : Table) (spi : Option Poly) (inp : List Poly) : List Expr → List Poly → Option (List Poly)
  | [], env => some env
  | e :: r, env => (sym T spi inp env e).bind fun p => srun T spi inp r (env ++ [p])

def sall (T : Table) (spi : Option Poly) (inp env : List Poly) : List Expr → Option (List Poly)
  | [] => some []
  | e :: r => (sym T spi inp env e).bind fun p => (sall T spi inp env r).map fun q => p :: q

/-- The table is right at these atoms. -/
def TableOk (A : Atoms) (T : Table) : Prop :=
  ∀ e ∈ T, e.1.eval (ev A e.2.1) = some (ev A e.2.2)

theorem look_ok (hA : ∀ a ∈ A.z, a ≠ 0) (f : Fn) (p : Poly) : ∀ (T : Table) (_ : TableOk A T) q,
    look f p T = some q → f.eval (ev A p) = some (ev A q)
  | [], _, q, h => by simp [look] at h
  | e :: r, hT, q, h => by
    rw [look] at h
    cases hc : (decide (e.1 = f) && isZero (sub p e.2.1)) with
    | true =>
      rw [hc, cond_true, Option.some.injEq] at h
      rw [Bool.and_eq_true, decide_eq_true_eq] at hc
      have := ev_isZero (A := A) _ hc.2
      rw [ev_sub hA, sub_eq_zero] at this
      rw [this, ← hc.1, ← h]
      exact hT e List.mem_cons_self
    | false =>
      rw [hc, cond_false] at h
      exact look_ok hA f p r (fun e he => hT e (List.mem_cons_of_mem _ he)) q h

theorem evN_zero : ∀ (n : List ℕ) (as : List ℝ), allZeroN n = true → evN n as = 1
  | [], _, _ => by simp [evN]
  | a :: l, [], _ => by simp [evN]
  | a :: l, b :: as, h => by
    simp only [allZeroN, Bool.and_eq_true, beq_iff_eq] at h
    simp [evN, h.1, evN_zero l as h.2]

theorem evZ_neg : ∀ (z : List ℤ) (as : List ℝ), evZ (negZ z) as = (evZ z as)⁻¹
  | [], _ => by simp [negZ, evZ]
  | a :: l, [] => by simp [negZ, evZ]
  | a :: l, b :: as => by simp [negZ, evZ, evZ_neg l as, mul_comm]

theorem evZ_ne : ∀ (z : List ℤ) (as : List ℝ), (∀ a ∈ as, a ≠ 0) → evZ z as ≠ 0
  | [], _, _ => by simp [evZ]
  | a :: l, [], _ => by simp [evZ]
  | a :: l, b :: as, h => by
    simp only [evZ]
    exact mul_ne_zero (zpow_ne_zero _ (h b List.mem_cons_self))
      (evZ_ne l as fun a ha => h a (List.mem_cons_of_mem _ ha))

theorem sfn_ok (hA : ∀ a ∈ A.z, a ≠ 0) {T : Table} (hT : TableOk A T) (f : Fn) (p q : Poly)
    (h : sfn T f p = some q) : f.eval (ev A p) = some (ev A q) := by
  unfold sfn at h
  split at h
  · rename_i t
    cases hc : (allZeroN t.2.2 && !(t.1 == 0)) with
    | false => rw [hc, cond_false] at h; exact look_ok hA _ _ _ hT _ h
    | true =>
      rw [hc, cond_true, Option.some.injEq] at h
      rw [Bool.and_eq_true] at hc
      have h0 : t.1 ≠ 0 := by simpa using hc.2
      have h0' : (t.1 : ℝ) ≠ 0 := by exact_mod_cast h0
      have e := evN_zero t.2.2 A.n hc.1
      subst h
      have hz := evZ_ne t.2.1 A.z hA
      simp only [ev, evM, e, evZ_neg, Fn.eval, mul_one, add_zero]
      rw [if_neg (mul_ne_zero h0' hz)]
      push_cast
      rw [mul_inv]
  · exact look_ok hA _ _ _ hT _ h

theorem ev_zeros (q : ℚ) (m : Mono) :
    ev A [(q, (m.1.map fun _ => 0, m.2.map fun _ => 0))] = q := by
  have h1 : ∀ (z : List ℤ) (as : List ℝ), evZ (z.map fun _ => 0) as = 1 := by
    intro z
    induction z with
    | nil => intro as; simp [evZ]
    | cons a z ih => intro as; cases as <;> simp only [List.map_cons, evZ, ih, zpow_zero, mul_one]
  have h2 : ∀ (z : List ℕ) (as : List ℝ), evN (z.map fun _ => 0) as = 1 := by
    intro z
    induction z with
    | nil => intro as; simp [evN]
    | cons a z ih => intro as; cases as <;> simp only [List.map_cons, evN, ih, pow_zero, mul_one]
  simp only [ev, evM, h1, h2, mul_one, add_zero]

theorem sym_ok (hA : ∀ a ∈ A.z, a ≠ 0) {T : Table} (hT : TableOk A T) (spi : Option Poly)
    (hpi : ∀ p, spi = some p → ev A p = Real.pi) (inp env : List Poly) : ∀ (e : Expr) (q : Poly),
    sym T spi inp env e = some q →
    e.eval (inp.map (ev A)) (env.map (ev A)) = some (ev A q)
  | .inp i, q, h => by
    simp only [sym] at h
    simp only [Expr.eval, List.getElem?_map, h, Option.map_some]
  | .x i, q, h => by
    simp only [sym] at h
    simp only [Expr.eval, List.getElem?_map, h, Option.map_some]
  | .c r, q, h => by
    simp only [sym, Option.some.injEq] at h
    subst h
    simp only [Expr.eval]
    rw [ev_zeros]
  | .pi, q, h => by
    simp only [sym] at h
    simp only [Expr.eval, hpi q h]
  | .add a b, q, h => by
    simp only [sym, Option.bind_eq_some_iff, Option.map_eq_some_iff] at h
    obtain ⟨p, hp, r, hr, rfl⟩ := h
    simp only [Expr.eval, sym_ok hA hT spi hpi inp env a p hp, sym_ok hA hT spi hpi inp env b r hr, ev_add]
    rfl
  | .sub a b, q, h => by
    simp only [sym, Option.bind_eq_some_iff, Option.map_eq_some_iff] at h
    obtain ⟨p, hp, r, hr, rfl⟩ := h
    simp only [Expr.eval, sym_ok hA hT spi hpi inp env a p hp, sym_ok hA hT spi hpi inp env b r hr, ev_sub hA]
    rfl
  | .mul a b, q, h => by
    simp only [sym, Option.bind_eq_some_iff, Option.map_eq_some_iff] at h
    obtain ⟨p, hp, r, hr, rfl⟩ := h
    simp only [Expr.eval, sym_ok hA hT spi hpi inp env a p hp, sym_ok hA hT spi hpi inp env b r hr, ev_mul hA]
    rfl
  | .neg a, q, h => by
    simp only [sym, Option.map_eq_some_iff] at h
    obtain ⟨p, hp, rfl⟩ := h
    simp only [Expr.eval, sym_ok hA hT spi hpi inp env a p hp, ev_neg hA]
    rfl
  | .pow a k, q, h => by
    simp only [sym, Option.map_eq_some_iff] at h
    obtain ⟨p, hp, rfl⟩ := h
    simp only [Expr.eval, sym_ok hA hT spi hpi inp env a p hp, ev_ppow hA]
    rfl
  | .fn f a, q, h => by
    simp only [sym, Option.bind_eq_some_iff] at h
    obtain ⟨p, hp, h⟩ := h
    simp only [Expr.eval, sym_ok hA hT spi hpi inp env a p hp]
    exact sfn_ok hA hT f p q h

theorem srun_ok (hA : ∀ a ∈ A.z, a ≠ 0) {T : Table} (hT : TableOk A T) (spi : Option Poly)
    (hpi : ∀ p, spi = some p → ev A p = Real.pi) (inp : List Poly) : ∀ (b : List Expr) (env q : List Poly),
    srun T spi inp b env = some q →
    run (inp.map (ev A)) b (env.map (ev A)) = some (q.map (ev A))
  | [], env, q, h => by
    simp only [srun, Option.some.injEq] at h
    subst h; rfl
  | e :: r, env, q, h => by
    simp only [srun, Option.bind_eq_some_iff] at h
    obtain ⟨p, hp, h⟩ := h
    have := srun_ok hA hT spi hpi inp r _ _ h
    simp only [run, sym_ok hA hT spi hpi inp env e p hp]
    rw [List.map_append] at this
    exact this

theorem sall_ok (hA : ∀ a ∈ A.z, a ≠ 0) {T : Table} (hT : TableOk A T) (spi : Option Poly)
    (hpi : ∀ p, spi = some p → ev A p = Real.pi) (inp env : List Poly) : ∀ (b : List Expr) (q : List Poly),
    sall T spi inp env b = some q →
    evalAll (inp.map (ev A)) (env.map (ev A)) b = some (q.map (ev A))
  | [], q, h => by
    simp only [sall, Option.some.injEq] at h
    subst h; rfl
  | e :: r, q, h => by
    simp only [sall, Option.bind_eq_some_iff, Option.map_eq_some_iff] at h
    obtain ⟨p, hp, s, hs, rfl⟩ := h
    simp only [evalAll, sym_ok hA hT spi hpi inp env e p hp, sall_ok hA hT spi hpi inp env r s hs]
    rfl

end Verif.Misc.Sym
