import Verif.Misc.CheckLemmas

/-!
# Evaluating single expressions, and the first order
-/

namespace Verif.Misc

open Filter Topology

section
variable {i e : List ℝ} {a b : Expr} {u v : ℝ}

theorem E_add (ha : a.eval i e = some u) (hb : b.eval i e = some v) :
    (a + b).eval i e = some (u + v) := by
  show (Expr.add a b).eval i e = _
  simp [Expr.eval, ha, hb]

theorem E_sub (ha : a.eval i e = some u) (hb : b.eval i e = some v) :
    (a - b).eval i e = some (u - v) := by
  show (Expr.sub a b).eval i e = _
  simp [Expr.eval, ha, hb]

theorem E_mul (ha : a.eval i e = some u) (hb : b.eval i e = some v) :
    (a * b).eval i e = some (u * v) := by
  show (Expr.mul a b).eval i e = _
  simp [Expr.eval, ha, hb]

theorem E_div (ha : a.eval i e = some u) (hb : b.eval i e = some v) (hv : v ≠ 0) :
    (a / b).eval i e = some (u / v) := by
  show (Expr.mul a (.fn .inv b)).eval i e = _
  simp [Expr.eval, ha, hb, Fn.eval, hv, div_eq_mul_inv]

theorem E_neg (ha : a.eval i e = some u) : (-a).eval i e = some (-u) := by
  show (Expr.neg a).eval i e = _
  simp [Expr.eval, ha]

theorem E_pow (k : ℕ) (ha : a.eval i e = some u) : (a ^ k).eval i e = some (u ^ k) := by
  show (Expr.pow a k).eval i e = _
  simp [Expr.eval, ha]

theorem E_fn {f : Fn} (ha : a.eval i e = some u) (hf : f.eval u = some v) :
    (Expr.fn f a).eval i e = some v := by
  simp [Expr.eval, ha, hf]

theorem E_log (ha : a.eval i e = some u) (hu : 0 < u) :
    (Expr.fn .log a).eval i e = some (Real.log u) :=
  E_fn ha (if_neg (not_le.2 hu))

theorem E_sqrt (ha : a.eval i e = some u) (hu : 0 ≤ u) :
    (Expr.fn .sqrt a).eval i e = some (√u) :=
  E_fn ha (if_neg (not_lt.2 hu))

theorem E_num (n : ℕ) : (OfNat.ofNat n : Expr).eval i e = some ((n : ℚ) : ℝ) := rfl

theorem E_half : (1 / 2 : Expr).eval i e = some (1 / 2) := by
  refine (E_div (E_num 1) (E_num 2) (by norm_num)).trans ?_
  norm_num

theorem E_two : (2 : Expr).eval i e = some 2 := (E_num 2).trans (by norm_num)

end

namespace Sym

variable {S : Setup} {dom : (ℕ → ℝ) → Prop} {A : (ℕ → ℝ) → Atoms} {inp : (ℕ → ℝ) → List ℝ}

theorem multi_one (p : ℕ) : multi p 0 1 = (List.range' 0 p).map fun i => [i] := by
  simp only [multi, List.map_cons, List.map_nil, Nat.sub_zero]
  generalize List.range' 0 p = l
  induction l with
  | nil => rfl
  | cons a l ih => rw [List.flatMap_cons, ih]; rfl

/-- The first order in any number of parameters. -/
theorem isNext_first (h : SetupOk S dom A inp) {P : Prog} {k : ℕ} {bs : List Poly}
    (L : (ℕ → ℝ) → ℝ) {a : (ℕ → ℝ) → Option (List ℝ)} (hl : bs.length = S.p)
    (h0 : ∀ θ, dom θ → a θ = some [L θ])
    (hc : check1 S bs P k = true) (θ : ℕ → ℝ) (hθ : dom θ)
    (hd : ∀ l, l < S.p → HasDerivAt (fun x => L (Function.update θ l x))
      (ev (A θ) (bs.getD l [])) (θ l)) :
    IsNext S.p 1 a (fun θ => P.block k (inp θ)) θ := by
  refine ⟨_, block_of_check1 h hc θ hθ, by simp [multi_one, hl], ?_⟩
  intro j I hI
  rw [multi_one, List.getElem?_map, Option.map_eq_some_iff] at hI
  obtain ⟨l, hl', rfl⟩ := hI
  obtain ⟨h1, h2⟩ := List.getElem?_eq_some_iff.1 hl'
  have : l = j := by rw [← h2]; simp
  subst this
  rw [getD_map_ev]
  refine (hd l (by simpa using h1)).congr_of_eventuallyEq ?_
  filter_upwards [h.near θ hθ l] with x hx
  show entry (a (Function.update θ l x)) 0 = _
  rw [h0 _ hx]; rfl

/-- The first order in four parameters, from the derivatives of the function itself. -/
theorem isNext_base (h : SetupOk S dom A inp) (hp : S.p = 4) {P : Prog} {k : ℕ}
    {b0 b1 b2 b3 : Poly} (L : (ℕ → ℝ) → ℝ) {a : (ℕ → ℝ) → Option (List ℝ)}
    (h0 : ∀ θ, dom θ → a θ = some [L θ])
    (hc : check1 S [b0, b1, b2, b3] P k = true) (θ : ℕ → ℝ) (hθ : dom θ)
    (d0 : HasDerivAt (fun x => L (Function.update θ 0 x)) (ev (A θ) b0) (θ 0))
    (d1 : HasDerivAt (fun x => L (Function.update θ 1 x)) (ev (A θ) b1) (θ 1))
    (d2 : HasDerivAt (fun x => L (Function.update θ 2 x)) (ev (A θ) b2) (θ 2))
    (d3 : HasDerivAt (fun x => L (Function.update θ 3 x)) (ev (A θ) b3) (θ 3)) :
    IsNext S.p 1 a (fun θ => P.block k (inp θ)) θ := by
  rw [hp]
  refine ⟨_, block_of_check1 h hc θ hθ, rfl, ?_⟩
  have key : ∀ l b, HasDerivAt (fun x => L (Function.update θ l x)) b (θ l) →
      HasDerivAt (fun x => entry (a (Function.update θ l x)) 0) b (θ l) := by
    intro l b hb
    refine hb.congr_of_eventuallyEq ?_
    filter_upwards [h.near θ hθ l] with x hx
    rw [h0 _ hx]; rfl
  intro j I hI
  have hm : multi 4 0 1 = [[0], [1], [2], [3]] := by decide
  rw [hm] at hI
  rcases j with _ | _ | _ | _ | j
  · cases hI; exact key 0 _ d0
  · cases hI; exact key 1 _ d1
  · cases hI; exact key 2 _ d2
  · cases hI; exact key 3 _ d3
  · simp at hI

end Sym

end Verif.Misc
