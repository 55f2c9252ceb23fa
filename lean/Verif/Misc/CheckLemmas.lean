import Verif.Misc.SymLemmas
import Verif.Misc.Derivs

/-!
# Checking arrays of derivatives by computation
-/

namespace Verif.Misc.Sym

open Filter Topology

/-- The arrays `b'` and `b` of two consecutive orders agree with the formal derivative. -/
def checkStep (R : List (ℕ × Poly)) (D : ℕ → List Poly × List Poly) (p n : ℕ)
    (b' b : List Poly) : Bool :=
  b.length == (multi p 0 n).length &&
  ((multi p 0 n).zip b).all fun q =>
    let d := D (q.1.getLastD 0)
    isZero (nf R (sub q.2 (der d.1 d.2 (b'.getD ((multi p 0 (n - 1)).idxOf q.1.dropLast) []))))

/-- One program on polynomials: array `k`. -/
def sblock (T : Table) (spi : Option Poly) (inp : List Poly) (P : Prog) (k : ℕ) : Option (List Poly) :=
  (srun T spi inp P.body []).bind fun env => sall T spi inp env (P.outs.getD k [])

/-- The parameters of a check: what is known of the functions, `π`, the arguments, the squares, the
derivatives of the atoms, and the number of parameters. -/
structure Setup where
  T : Table
  spi : Option Poly
  inp : List Poly
  R : List (ℕ × Poly)
  D : ℕ → List Poly × List Poly
  p : ℕ

def check (S : Setup) (n : ℕ) (P' : Prog) (k' : ℕ) (P : Prog) (k : ℕ) : Bool :=
  match sblock S.T S.spi S.inp P' k', sblock S.T S.spi S.inp P k with
  | some b', some b => checkStep S.R S.D S.p n b' b
  | _, _ => false

/-- The part of `check` for the entries `a`, …, `a + c - 1`: smaller computations need less memory. -/
def checkPart (S : Setup) (n : ℕ) (P' : Prog) (k' : ℕ) (P : Prog) (k a c : ℕ) : Bool :=
  match sblock S.T S.spi S.inp P' k', sblock S.T S.spi S.inp P k with
  | some b', some b => b.length == (multi S.p 0 n).length &&
    ((((multi S.p 0 n).zip b).drop a).take c).all fun q =>
      let d := S.D (q.1.getLastD 0)
      isZero (nf S.R (sub q.2 (der d.1 d.2 (b'.getD ((multi S.p 0 (n - 1)).idxOf q.1.dropLast) []))))
  | _, _ => false

/-- The parts of length `c` that cover the array. -/
theorem check_of_parts {S : Setup} {n : ℕ} {P' P : Prog} {k' k c r : ℕ} (hr : (multi S.p 0 n).length ≤ r * c) (h0 : 0 < r)
    (h : ∀ i < r, checkPart S n P' k' P k (i * c) c = true) : check S n P' k' P k = true := by
  have hf := h 0 h0
  unfold check
  unfold checkPart at h hf
  split at hf
  · rename_i b' b hb' hb
    simp only [hb', hb, checkStep, Bool.and_eq_true, List.all_eq_true] at h hf ⊢
    refine ⟨hf.1, fun q hq => ?_⟩
    obtain ⟨j, hj, e⟩ := List.mem_iff_getElem.1 hq
    have hc : 0 < c := by
      rcases Nat.eq_zero_or_pos c with rfl | hc
      · rw [List.length_zip] at hj; omega
      · exact hc
    have hjr : j < r * c := by rw [List.length_zip] at hj; omega
    refine (h (j / c) ((Nat.div_lt_iff_lt_mul hc).2 hjr)).2 q (List.mem_iff_getElem?.2 ⟨j % c, ?_⟩)
    have hm := Nat.mod_lt j hc
    rw [List.getElem?_take, if_pos hm, List.getElem?_drop, Nat.mul_comm, Nat.div_add_mod, List.getElem?_eq_getElem hj, e]
  · simp at hf

def eqAll (R : List (ℕ × Poly)) : List Poly → List Poly → Bool
  | [], [] => true
  | p :: r, q :: s => isZero (nf R (sub p q)) && eqAll R r s
  | _, _ => false

/-- Array `k` of `P` is the given list. -/
def check1 (S : Setup) (b' : List Poly) (P : Prog) (k : ℕ) : Bool :=
  match sblock S.T S.spi S.inp P k with
  | some b => eqAll S.R b b'
  | _ => false

/-- The setup is right on a set of parameters. -/
structure SetupOk (S : Setup) (dom : (ℕ → ℝ) → Prop) (A : (ℕ → ℝ) → Atoms)
    (inp : (ℕ → ℝ) → List ℝ) : Prop where
  near : ∀ θ, dom θ → ∀ l, ∀ᶠ x in 𝓝 (θ l), dom (Function.update θ l x)
  ne : ∀ θ, dom θ → ∀ a ∈ (A θ).z, a ≠ 0
  table : ∀ θ, dom θ → TableOk (A θ) S.T
  pi : ∀ θ, dom θ → ∀ p, S.spi = some p → ev (A θ) p = Real.pi
  inps : ∀ θ, dom θ → S.inp.map (ev (A θ)) = inp θ
  rules : ∀ θ, dom θ → ∀ q ∈ S.R, ∃ a, (A θ).n[q.1]? = some a ∧ a ^ 2 = ev (A θ) q.2
  curve : ∀ θ, dom θ → ∀ l, ∃ c : Curve, (∀ x, c.at x = A (Function.update θ l x)) ∧
    List.Forall₂ (fun f D => HasDerivAt f (ev (A θ) D) (θ l)) c.z (S.D l).1 ∧
    List.Forall₂ (fun f D => HasDerivAt f (ev (A θ) D) (θ l)) c.n (S.D l).2

variable {S : Setup} {dom : (ℕ → ℝ) → Prop} {A : (ℕ → ℝ) → Atoms} {inp : (ℕ → ℝ) → List ℝ}

theorem sblock_ok (h : SetupOk S dom A inp) {P : Prog} {k : ℕ} {b : List Poly}
    (hb : sblock S.T S.spi S.inp P k = some b) (θ : ℕ → ℝ) (hθ : dom θ) :
    P.block k (inp θ) = some (b.map (ev (A θ))) := by
  simp only [sblock, Option.bind_eq_some_iff] at hb
  obtain ⟨env, he, hb⟩ := hb
  have h1 := srun_ok (h.ne θ hθ) (h.table θ hθ) S.spi (h.pi θ hθ) S.inp P.body [] env he
  have h2 := sall_ok (h.ne θ hθ) (h.table θ hθ) S.spi (h.pi θ hθ) S.inp env _ b hb
  rw [h.inps θ hθ] at h1 h2
  simp only [Prog.block]
  rw [List.map_nil] at h1
  rw [h1]
  exact h2

theorem hasDeriv_entry (h : SetupOk S dom A inp) (θ : ℕ → ℝ) (hθ : dom θ) (l : ℕ) (p : Poly) :
    HasDerivAt (fun x => ev (A (Function.update θ l x)) p)
      (ev (A θ) (der (S.D l).1 (S.D l).2 p)) (θ l) := by
  obtain ⟨c, hc, hz, hn⟩ := h.curve θ hθ l
  have e : c.at (θ l) = A θ := by rw [hc, Function.update_eq_self]
  rw [← e] at hz hn ⊢
  have := hasDeriv_ev c (θ l) _ _ hz hn (by
    intro f hf
    refine h.ne θ hθ _ ?_
    rw [← e]
    exact List.mem_map.2 ⟨f, hf, rfl⟩) p
  simpa only [hc] using this

theorem getD_map_ev (B : Atoms) (b : List Poly) (j : ℕ) :
    (b.map (ev B)).getD j 0 = ev B (b.getD j []) := by
  rw [List.getD_eq_getElem?_getD, List.getD_eq_getElem?_getD, List.getElem?_map]
  cases b[j]? <;> rfl

/-- A successful check gives the derivatives. -/
theorem isNext_of_check (h : SetupOk S dom A inp) {n : ℕ} {P' P : Prog} {k' k : ℕ}
    (hc : check S n P' k' P k = true) (θ : ℕ → ℝ) (hθ : dom θ) :
    IsNext S.p n (fun θ => P'.block k' (inp θ)) (fun θ => P.block k (inp θ)) θ := by
  unfold check at hc
  split at hc
  · rename_i b' b hb' hb
    simp only [checkStep, Bool.and_eq_true, beq_iff_eq, List.all_eq_true] at hc
    refine ⟨b.map (ev (A θ)), sblock_ok h hb θ hθ, by rw [List.length_map, hc.1], ?_⟩
    intro i I hI
    have hi : i < b.length := by
      rw [hc.1]
      exact (List.getElem?_eq_some_iff.1 hI).1
    have hz := hc.2 (I, b[i]) (by
      refine List.mem_iff_getElem?.2 ⟨i, ?_⟩
      rw [List.getElem?_zip_eq_some]
      exact ⟨hI, List.getElem?_eq_getElem hi⟩)
    have h1 := ev_isZero (A := A θ) _ hz
    rw [ev_nf (h.ne θ hθ) _ (h.rules θ hθ), ev_sub (h.ne θ hθ), sub_eq_zero] at h1
    rw [getD_map_ev, List.getD_eq_getElem?_getD, List.getElem?_eq_getElem hi, Option.getD_some]
    simp only at h1
    rw [h1]
    refine (hasDeriv_entry h θ hθ _ _).congr_of_eventuallyEq ?_
    filter_upwards [h.near θ hθ (I.getLastD 0)] with x hx
    rw [entry, sblock_ok h hb' _ hx, Option.getD_some, getD_map_ev]
  · simp at hc

theorem eqAll_ok (h : SetupOk S dom A inp) (θ : ℕ → ℝ) (hθ : dom θ) : ∀ b b' : List Poly,
    eqAll S.R b b' = true → b.map (ev (A θ)) = b'.map (ev (A θ))
  | [], [], _ => rfl
  | p :: r, q :: s, hh => by
    simp only [eqAll, Bool.and_eq_true] at hh
    have h1 := ev_isZero (A := A θ) _ hh.1
    rw [ev_nf (h.ne θ hθ) _ (h.rules θ hθ), ev_sub (h.ne θ hθ), sub_eq_zero] at h1
    rw [List.map_cons, List.map_cons, h1, eqAll_ok h θ hθ r s hh.2]
  | [], _ :: _, hh => by simp [eqAll] at hh
  | _ :: _, [], hh => by simp [eqAll] at hh

theorem block_of_check1 (h : SetupOk S dom A inp) {P : Prog} {k : ℕ} {b' : List Poly}
    (hc : check1 S b' P k = true) (θ : ℕ → ℝ) (hθ : dom θ) :
    P.block k (inp θ) = some (b'.map (ev (A θ))) := by
  unfold check1 at hc
  split at hc
  · rename_i b hb
    rw [sblock_ok h hb θ hθ, eqAll_ok h θ hθ _ _ hc]
  · simp at hc

end Verif.Misc.Sym
