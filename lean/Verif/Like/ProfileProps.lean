import Verif.Like.Profile
import Mathlib.Analysis.Calculus.Deriv.Basic
import Mathlib.Analysis.Calculus.Deriv.Add
import Mathlib.Analysis.Calculus.Deriv.Mul
import Mathlib.Topology.Order.IntermediateValue
import Mathlib.Analysis.Convex.Function
import Mathlib.Topology.Instances.Real.Lemmas
import Mathlib.Tactic.Linarith
import Mathlib.Tactic.NormNum
import Mathlib.Data.List.GetD
/-! # Profile likelihood (C94) -/
namespace Verif.Like

/-! ## constraints -/

private theorem run_spec (l : List (ℕ × ℝ)) (s : List (Env → (ℕ → ℝ) → ℝ) × Option Env) :
    l.foldl (fun (s : List (Env → (ℕ → ℝ) → ℝ) × Option Env) (p : ℕ × ℝ) =>
      (s.1 ++ [fun (e : Env) (x : ℕ → ℝ) => x e.i - e.xi], some { i := p.1, xi := p.2 })) s =
    (s.1 ++ l.map fun _ => fun (e : Env) (x : ℕ → ℝ) => x e.i - e.xi,
      (l.getLast?.map fun p => ({ i := p.1, xi := p.2 } : Env)).or s.2) := by
  induction l generalizing s with
  | nil => simp
  | cons a l ih =>
    rw [List.foldl_cons, ih]
    cases l with
    | nil => simp
    | cons b l =>
      rw [List.getLast?_cons_cons, List.getLast?_eq_some_getLast (List.cons_ne_nil b l)]
      simp

/-- Every constraint handed to the optimiser is the constraint on the last pair. -/
theorem makeConstraints_eq (ind : List ℕ) (par : List ℝ) {p : ℕ × ℝ} (h : (ind.zip par).getLast? = some p) :
    makeConstraints ind par = (ind.zip par).map fun _ => fun x => x p.1 - p.2 := by
  unfold makeConstraints
  simp only [run_spec, h, Option.map_some, List.nil_append, List.map_map]
  rfl

/-- All constraints hold at `x`. -/
def Feasible (cs : List ((ℕ → ℝ) → ℝ)) (x : ℕ → ℝ) : Prop := ∀ c ∈ cs, c x = 0

/-- With a single fixed parameter the constraint is the intended one; in general every point with the intended values
is feasible. -/
theorem C94_constraint_partial :
    (∀ i v x, Feasible (makeConstraints [i] [v]) x ↔ x i = v) ∧
      ∀ ind par x, (∀ p ∈ ind.zip par, x p.1 = p.2) → Feasible (makeConstraints ind par) x := by
  refine ⟨fun i v x => ?_, fun ind par x h c hc => ?_⟩
  · rw [makeConstraints_eq [i] [v] (p := (i, v)) rfl]
    simp [Feasible, sub_eq_zero]
  · cases e : (ind.zip par).getLast? with
    | none =>
      rw [List.getLast?_eq_none_iff] at e
      simp [makeConstraints, e] at hc
    | some p =>
      rw [makeConstraints_eq ind par e] at hc
      obtain ⟨_, -, rfl⟩ := List.mem_map.1 hc
      exact sub_eq_zero.2 (h p (List.mem_of_getLast? e))

/-- With two fixed parameters only the last one is held: the closures share the loop variable. -/
theorem C94_constraint_violated : ∃ (ind : List ℕ) (par : List ℝ) (x : ℕ → ℝ), ind.Nodup ∧
    ind.length = par.length ∧ Feasible (makeConstraints ind par) x ∧ ¬ ∀ p ∈ ind.zip par, x p.1 = p.2 := by
  refine ⟨[0, 1], [0, 0], fun j => if j = 0 then 7 else 0, by decide, rfl, ?_, ?_⟩
  · intro c hc
    rw [makeConstraints_eq [0, 1] [0, 0] (p := (1, 0)) rfl] at hc
    obtain ⟨_, -, rfl⟩ := List.mem_map.1 hc
    norm_num
  · intro h
    have := h (0, 0) (by simp)
    norm_num at this

/-- With a Boolean mask every masked parameter is held at the first value. -/
theorem C94_mask_violated :
    (∀ n mask v par x, (∀ c ∈ makeConstraintsBool n mask (v :: par), ∀ r ∈ c x, r = 0) ↔
      ∀ i, i < n → mask i = true → x i = v) ∧
    ∃ (n : ℕ) (mask : ℕ → Bool) (par : List ℝ) (x : ℕ → ℝ),
      (∀ p ∈ ((List.range n).filter mask).zip par, x p.1 = p.2) ∧ ((List.range n).filter mask).length = par.length ∧
      ¬ ∀ c ∈ makeConstraintsBool n mask par, ∀ r ∈ c x, r = 0 := by
  have key : ∀ n mask v par (x : ℕ → ℝ), (∀ c ∈ makeConstraintsBool n mask (v :: par), ∀ r ∈ c x, r = 0) ↔
      ∀ i, i < n → mask i = true → x i = v := by
    intro n mask v par x
    simp only [makeConstraintsBool, List.zip_cons_cons, List.zip_nil_left, List.map_cons, List.map_nil,
      List.mem_singleton, forall_eq, List.mem_map, List.mem_filter, List.mem_range]
    constructor
    · intro h i hi hm
      exact sub_eq_zero.1 (h _ ⟨i, ⟨hi, hm⟩, rfl⟩)
    · rintro h r ⟨i, ⟨hi, hm⟩, rfl⟩
      exact sub_eq_zero.2 (h i hi hm)
  refine ⟨key, 2, fun _ => true, [0, 1], fun j => j, ?_, rfl, ?_⟩
  · intro p hp
    simp [List.range_succ] at hp
    rcases hp with rfl | rfl <;> norm_num
  · intro h
    have := (key 2 (fun _ => true) 0 [1] (fun j => (j : ℝ))).1 h 1 (by norm_num) rfl
    norm_num at this

/-! ## restriction -/

theorem setAt_not_mem {x : ℕ → ℝ} {ind : List ℕ} {v : List ℝ} {j : ℕ} (h : j ∉ ind) : setAt x ind v j = x j := by
  unfold setAt
  induction ind generalizing x v with
  | nil => simp
  | cons a l ih =>
    cases v with
    | nil => simp
    | cons b v =>
      simp only [List.zip_cons_cons, List.foldl_cons]
      rw [ih (fun hj => h (List.mem_cons_of_mem _ hj))]
      exact if_neg fun (e : j = a) => h (e ▸ List.mem_cons_self)

/-- Once a position has been assigned, its value does not depend on the array before. -/
theorem setAt_mem {x y : ℕ → ℝ} {ind : List ℕ} {v : List ℝ} {j : ℕ} (h : j ∈ ind) (hl : ind.length = v.length) :
    setAt x ind v j = setAt y ind v j := by
  unfold setAt
  induction ind generalizing x y v with
  | nil => simp at h
  | cons a l ih =>
    cases v with
    | nil => simp at hl
    | cons b v =>
      simp only [List.zip_cons_cons, List.foldl_cons]
      by_cases hj : j ∈ l
      · exact ih hj (by simpa using hl)
      · obtain rfl : j = a := by
          rcases List.mem_cons.1 h with e | e
          · exact e
          · exact absurd e hj
        have e1 := fun (x : ℕ → ℝ) => setAt_not_mem (x := x) (v := v) hj
        unfold setAt at e1
        rw [e1, e1]; simp

theorem setAt_getD {x : ℕ → ℝ} {ind : List ℕ} {v : List ℝ} (hn : ind.Nodup) (hl : ind.length = v.length) {a : ℕ}
    (ha : a < ind.length) : setAt x ind v (ind.getD a 0) = v.getD a 0 := by
  unfold setAt
  induction ind generalizing x v a with
  | nil => simp at ha
  | cons i l ih =>
    cases v with
    | nil => simp at hl
    | cons b v =>
      simp only [List.zip_cons_cons, List.foldl_cons]
      cases a with
      | zero =>
        have e1 := fun (x : ℕ → ℝ) => setAt_not_mem (x := x) (v := v) (List.nodup_cons.1 hn).1
        unfold setAt at e1
        simp [e1]
      | succ a =>
        simpa using ih (List.nodup_cons.1 hn).2 (by simpa using hl) (by simpa using ha)

theorem mem_freeInd {n : ℕ} {ind : List ℕ} {j : ℕ} : j ∈ freeInd n ind ↔ j < n ∧ j ∉ ind := by
  simp [freeInd]

theorem nodup_freeInd (n : ℕ) (ind : List ℕ) : (freeInd n ind).Nodup := List.nodup_range.filter _

section
variable {n : ℕ} {ind : List ℕ} {par : List ℝ}

/-- The full vector built by a call: fixed values at the fixed positions, the argument at the free ones. -/
theorem refill_spec (hn : ind.Nodup) (hl : ind.length = par.length) {free : List ℝ}
    (hf : free.length = (freeInd n ind).length) (full : ℕ → ℝ) :
    (∀ a, a < ind.length → refill n ind par full free (ind.getD a 0) = par.getD a 0) ∧
      ∀ a, a < (freeInd n ind).length → refill n ind par full free ((freeInd n ind).getD a 0) = free.getD a 0 := by
  refine ⟨fun a ha => setAt_getD hn hl ha, fun a ha => ?_⟩
  have hm : (freeInd n ind).getD a 0 ∉ ind := by
    have : (freeInd n ind).getD a 0 ∈ freeInd n ind := by
      rw [List.getD_eq_getElem _ _ ha]; exact List.getElem_mem ha
    exact (mem_freeInd.1 this).2
  simp only [refill]
  rw [setAt_not_mem hm]
  exact setAt_getD (nodup_freeInd n ind) hf.symm ha

/-- The shared array makes no difference: a call only depends on its argument. -/
theorem refill_hist (hl : ind.length = par.length) {free : List ℝ} (hf : free.length = (freeInd n ind).length)
    (full full' : ℕ → ℝ) {j : ℕ} (hj : j < n) :
    refill n ind par full free j = refill n ind par full' free j := by
  simp only [refill]
  by_cases h : j ∈ ind
  · exact setAt_mem h hl
  · rw [setAt_not_mem h, setAt_not_mem h]
    exact setAt_mem (mem_freeInd.2 ⟨hj, h⟩) hf.symm

/-- A function of the first `n` parameters. -/
def DependsOn (n : ℕ) {α : Type*} (f : (ℕ → ℝ) → α) : Prop := ∀ x y, (∀ j, j < n → x j = y j) → f x = f y

/-- The three restricted functions return the same whatever was evaluated before, although they write to one shared
array. -/
theorem C94_history {loglike : (ℕ → ℝ) → ℝ} {grad : (ℕ → ℝ) → ℕ → ℝ} {hess : (ℕ → ℝ) → ℕ → ℕ → ℝ}
    (h0 : DependsOn n loglike) (h1 : DependsOn n grad) (h2 : DependsOn n hess) (hl : ind.length = par.length)
    {free : List ℝ} (hf : free.length = (freeInd n ind).length) (full full' : ℕ → ℝ) :
    (restrictedFunc loglike n ind par full free).1 = (restrictedFunc loglike n ind par full' free).1 ∧
      (restrictedGrad grad n ind par full free).1 = (restrictedGrad grad n ind par full' free).1 ∧
      (restrictedHess hess n ind par full free).1 = (restrictedHess hess n ind par full' free).1 := by
  have e : ∀ j, j < n → refill n ind par full free j = refill n ind par full' free j :=
    fun j => refill_hist hl hf full full'
  refine ⟨h0 _ _ e, ?_, ?_⟩
  · simp only [restrictedGrad, h1 _ _ e]
  · simp only [restrictedHess, h2 _ _ e]

/-- `X` moves through `X 0` with velocity `x'` on the first `n` positions. -/
def Path (n : ℕ) (X : ℝ → ℕ → ℝ) (x' : ℕ → ℝ) : Prop := ∀ j, j < n → HasDerivAt (fun t => X t j) (x' j) 0

/-- `g` is the gradient of `f` at `x`, along every differentiable path. -/
def IsGrad (n : ℕ) (f : (ℕ → ℝ) → ℝ) (g : ℕ → ℝ) (x : ℕ → ℝ) : Prop :=
  ∀ X x', Path n X x' → X 0 = x → HasDerivAt (fun t => f (X t)) (∑ j ∈ Finset.range n, g j * x' j) 0

/-- The direction of a free vector, placed in the full space. -/
def lift (fi : List ℕ) (v : List ℝ) : ℕ → ℝ := fun j => if j ∈ fi then v.getD (fi.idxOf j) 0 else 0

theorem sum_lift {fi : List ℕ} (hn : fi.Nodup) (hlt : ∀ j ∈ fi, j < n) (g : ℕ → ℝ) (v : List ℝ) :
    ∑ j ∈ Finset.range n, g j * lift fi v j =
      ∑ a ∈ Finset.range fi.length, (fi.map g).getD a 0 * v.getD a 0 := by
  have h1 : ∑ j ∈ Finset.range n, g j * lift fi v j = ∑ j ∈ fi.toFinset, g j * v.getD (fi.idxOf j) 0 := by
    symm
    refine Finset.sum_subset_zero_on_sdiff (fun j hj => Finset.mem_range.2 (hlt j (List.mem_toFinset.1 hj)))
      (fun j hj => ?_) (fun j hj => ?_)
    · rw [lift, if_neg fun h => (Finset.mem_sdiff.1 hj).2 (List.mem_toFinset.2 h), mul_zero]
    · rw [lift, if_pos (List.mem_toFinset.1 hj)]
  rw [h1]
  symm
  refine Finset.sum_bij (fun a _ => fi.getD a 0) (fun a ha => ?_) (fun a ha b hb e => ?_) (fun j hj => ?_)
    (fun a ha => ?_)
  · have := Finset.mem_range.1 ha
    rw [List.getD_eq_getElem _ _ this]
    exact List.mem_toFinset.2 (List.getElem_mem this)
  · have ha := Finset.mem_range.1 ha
    have hb := Finset.mem_range.1 hb
    rw [List.getD_eq_getElem _ _ ha, List.getD_eq_getElem _ _ hb] at e
    exact (List.Nodup.getElem_inj_iff hn).1 e
  · have hj := List.mem_toFinset.1 hj
    refine ⟨fi.idxOf j, Finset.mem_range.2 (List.idxOf_lt_length_of_mem hj), ?_⟩
    rw [List.getD_eq_getElem _ _ (List.idxOf_lt_length_of_mem hj)]
    exact List.getElem_idxOf _
  · have ha := Finset.mem_range.1 ha
    rw [List.getD_eq_getElem _ _ (by simpa using ha), List.getElem_map, List.getD_eq_getElem _ _ ha,
      List.Nodup.idxOf_getElem hn]

/-- A moving free vector gives a moving full vector. -/
theorem path_refill (hn : ind.Nodup) (hl : ind.length = par.length) (full : ℕ → ℝ) {F : ℝ → List ℝ} {v : List ℝ}
    (hF : ∀ t, (F t).length = (freeInd n ind).length)
    (hd : ∀ a, a < (freeInd n ind).length → HasDerivAt (fun t => (F t).getD a 0) (v.getD a 0) 0) :
    Path n (fun t => refill n ind par full (F t)) (lift (freeInd n ind) v) := by
  intro j hj
  by_cases h : j ∈ ind
  · have hz : lift (freeInd n ind) v j = 0 := if_neg fun hm => (mem_freeInd.1 hm).2 h
    have e : ∀ t, refill n ind par full (F t) j = par.getD (ind.idxOf j) 0 := by
      intro t
      have hi := List.idxOf_lt_length_of_mem h
      have := (refill_spec hn hl (hF t) full).1 _ hi
      rwa [List.getD_eq_getElem _ _ hi, List.getElem_idxOf] at this
    rw [hz]
    simp only [e]
    exact hasDerivAt_const _ _
  · have hm : j ∈ freeInd n ind := mem_freeInd.2 ⟨hj, h⟩
    have hi := List.idxOf_lt_length_of_mem hm
    have e : ∀ t, refill n ind par full (F t) j = (F t).getD ((freeInd n ind).idxOf j) 0 := by
      intro t
      have := (refill_spec hn hl (hF t) full).2 _ hi
      rwa [List.getD_eq_getElem _ _ hi, List.getElem_idxOf] at this
    rw [lift, if_pos hm]
    simp only [e]
    exact hd _ hi

/-- The restricted gradient is the gradient of the restricted objective. -/
theorem C94_gradient {loglike : (ℕ → ℝ) → ℝ} {grad : (ℕ → ℝ) → ℕ → ℝ}
    (hg : ∀ x, IsGrad n loglike (grad x) x) (hn : ind.Nodup) (hl : ind.length = par.length) (full : ℕ → ℝ)
    {F : ℝ → List ℝ} {v : List ℝ} (hF : ∀ t, (F t).length = (freeInd n ind).length)
    (hd : ∀ a, a < (freeInd n ind).length → HasDerivAt (fun t => (F t).getD a 0) (v.getD a 0) 0) :
    HasDerivAt (fun t => (restrictedFunc loglike n ind par full (F t)).1)
      (∑ a ∈ Finset.range (freeInd n ind).length,
        (restrictedGrad grad n ind par full (F 0)).1.getD a 0 * v.getD a 0) 0 := by
  have := hg _ _ _ (path_refill hn hl full hF hd) rfl
  rwa [sum_lift (nodup_freeInd n ind) (fun j hj => (mem_freeInd.1 hj).1)] at this

/-- The restricted Hessian is the Jacobian of the restricted gradient. -/
theorem C94_hessian {grad : (ℕ → ℝ) → ℕ → ℝ} {hess : (ℕ → ℝ) → ℕ → ℕ → ℝ}
    (hh : ∀ x i, i < n → IsGrad n (fun x => grad x i) (hess x i) x) (hn : ind.Nodup) (hl : ind.length = par.length)
    (full : ℕ → ℝ) {F : ℝ → List ℝ} {v : List ℝ} (hF : ∀ t, (F t).length = (freeInd n ind).length)
    (hd : ∀ a, a < (freeInd n ind).length → HasDerivAt (fun t => (F t).getD a 0) (v.getD a 0) 0) {b : ℕ}
    (hb : b < (freeInd n ind).length) :
    HasDerivAt (fun t => (restrictedGrad grad n ind par full (F t)).1.getD b 0)
      (∑ a ∈ Finset.range (freeInd n ind).length,
        ((restrictedHess hess n ind par full (F 0)).1.getD b []).getD a 0 * v.getD a 0) 0 := by
  have hi : (freeInd n ind)[b] < n := (mem_freeInd.1 (List.getElem_mem hb)).1
  have := hh _ _ hi _ _ (path_refill hn hl full hF hd) rfl
  rw [sum_lift (nodup_freeInd n ind) (fun j hj => (mem_freeInd.1 hj).1)] at this
  simpa [restrictedGrad, restrictedHess, List.getD_eq_getElem?_getD, hb] using this

/-- If the optimiser returns a minimiser of the function it was given, the profile likelihood is the least value over
all vectors with the fixed parameters at the given values, and it is attained at such a vector. -/
theorem C94_profile {loglike : (ℕ → ℝ) → ℝ} (h0 : DependsOn n loglike) {minimize : List ℝ → List ℝ}
    (hn : ind.Nodup) (hlt : ∀ i ∈ ind, i < n) (hl : ind.length = par.length) (params left : ℕ → ℝ)
    (hm : ∀ x0 : List ℝ, x0.length = (freeInd n ind).length → (minimize x0).length = (freeInd n ind).length ∧
      ∀ y : List ℝ, y.length = (freeInd n ind).length →
        (restrictedFunc loglike n ind par left (minimize x0)).1 ≤ (restrictedFunc loglike n ind par left y).1) :
    let r := profileRestricted loglike minimize n ind par params left
    (∃ x, (∀ a, a < ind.length → x (ind.getD a 0) = par.getD a 0) ∧ r = loglike x) ∧
      ∀ x, (∀ a, a < ind.length → x (ind.getD a 0) = par.getD a 0) → r ≤ loglike x := by
  obtain ⟨h1, h2⟩ := hm ((freeInd n ind).map params) (by simp)
  refine ⟨⟨_, (refill_spec hn hl h1 left).1, rfl⟩, fun x hx => ?_⟩
  refine (h2 ((freeInd n ind).map x) (by simp)).trans_eq ?_
  refine h0 _ _ fun j hj => ?_
  obtain ⟨s1, s2⟩ := refill_spec (n := n) hn hl (free := (freeInd n ind).map x) (by simp) left
  by_cases h : j ∈ ind
  · have hi := List.idxOf_lt_length_of_mem h
    have a1 := s1 _ hi
    have a2 := hx _ hi
    rw [List.getD_eq_getElem _ _ hi, List.getElem_idxOf] at a1 a2
    rw [a1, a2]
  · have hm : j ∈ freeInd n ind := mem_freeInd.2 ⟨hj, h⟩
    have hi := List.idxOf_lt_length_of_mem hm
    have a1 := s2 _ hi
    rw [List.getD_eq_getElem _ _ hi, List.getElem_idxOf, List.getD_eq_getElem _ _ (by simpa using hi),
      List.getElem_map, List.getElem_idxOf] at a1
    exact a1

end

example : freeInd 4 [2, 0] = [1, 3] := by decide

/-! ## interval -/

theorem searchK_range (f : ℝ → ℝ) (lli : ℝ) (g : ℕ → ℝ) : 1 ≤ searchK f lli g ∧ searchK f lli g ≤ 19 := by
  unfold searchK
  cases h : (List.range' 1 19).find? fun k => @decide (f (g k) > lli) (Classical.propDecidable _) with
  | none => simp
  | some k =>
    have := List.mem_of_find?_eq_some h
    rw [List.mem_range'_1] at this
    simp; omega

theorem searchK_found {f : ℝ → ℝ} {lli : ℝ} {g : ℕ → ℝ} (h : ∃ k, 1 ≤ k ∧ k ≤ 19 ∧ lli < f (g k)) :
    lli < f (g (searchK f lli g)) := by
  unfold searchK
  cases e : (List.range' 1 19).find? fun k => @decide (f (g k) > lli) (Classical.propDecidable _) with
  | none =>
    obtain ⟨k, h1, h2, h3⟩ := h
    have := List.find?_eq_none.1 e k (List.mem_range'_1.2 ⟨h1, by omega⟩)
    simp at this
    exact absurd h3 (not_lt.2 this)
  | some k => simpa using List.find?_some e

theorem searchK_none {f : ℝ → ℝ} {lli : ℝ} {g : ℕ → ℝ} (h : ∀ k, 1 ≤ k → k ≤ 19 → f (g k) ≤ lli) :
    searchK f lli g = 19 := by
  unfold searchK
  cases e : (List.range' 1 19).find? fun k => @decide (f (g k) > lli) (Classical.propDecidable _) with
  | none => rfl
  | some k =>
    have h1 : lli < f (g k) := by simpa using List.find?_some e
    have := List.mem_of_find?_eq_some e
    rw [List.mem_range'_1] at this
    exact absurd h1 (not_lt.2 (h k this.1 (by omega)))

section
variable {root : (ℝ → ℝ) → ℝ → ℝ → Option ℝ} {f : ℝ → ℝ} {par se lli : ℝ}

/-- When the profile crosses the level within nineteen standard errors on both sides, the interval is returned and its
ends are points on either side of the estimate where the profile equals the level. -/
theorem C94_interval (hr : RootOk root) (hf : Continuous f) (hse : 0 < se) (hp : f par ≤ lli)
    (hL : ∃ k : ℕ, 1 ≤ k ∧ k ≤ 19 ∧ lli < f (par - k * se)) (hR : ∃ k : ℕ, 1 ≤ k ∧ k ≤ 19 ∧ lli < f (par + k * se)) :
    ∃ a b, solveInterval root f par se lli = some (a, b) ∧ a ≤ par ∧ par ≤ b ∧ f a = lli ∧ f b = lli := by
  have l := searchK_found (g := fun k : ℕ => par - k * se) hL
  have r := searchK_found (g := fun k : ℕ => par + k * se) hR
  set kl := searchK f lli fun k : ℕ => par - k * se with hkl
  set kr := searchK f lli fun k : ℕ => par + k * se with hkr
  have ab : par - kl * se ≤ par := by have : 0 ≤ (kl : ℝ) * se := by positivity
                                      linarith
  have bc : par ≤ par + kr * se := by have : 0 ≤ (kr : ℝ) * se := by positivity
                                      linarith
  have hc : Continuous fun x => f x - lli := hf.sub continuous_const
  obtain ⟨a, ha, -, ha2, ha3⟩ := hr.finds (fun x => f x - lli) (par - kl * se) par ab
    (mul_nonpos_of_nonneg_of_nonpos (sub_nonneg.2 l.le) (sub_nonpos.2 hp)) (by
      obtain ⟨x, hx, hx0⟩ := intermediate_value_Icc' ab hc.continuousOn ⟨sub_nonpos.2 hp, sub_nonneg.2 l.le⟩
      exact ⟨x, hx.1, hx.2, hx0⟩)
  obtain ⟨b, hb, hb1, -, hb3⟩ := hr.finds (fun x => f x - lli) par (par + kr * se) bc
    (mul_nonpos_of_nonpos_of_nonneg (sub_nonpos.2 hp) (sub_nonneg.2 r.le)) (by
      obtain ⟨x, hx, hx0⟩ := intermediate_value_Icc bc hc.continuousOn ⟨sub_nonpos.2 hp, sub_nonneg.2 r.le⟩
      exact ⟨x, hx.1, hx.2, hx0⟩)
  refine ⟨a, b, ?_, ha2, hb1, sub_eq_zero.1 ha3, sub_eq_zero.1 hb3⟩
  simp only [solveInterval, ← hkl, ← hkr, ha, hb, Option.bind_eq_bind, Option.bind_some]
  rfl

/-- For a convex profile below the level at the estimate, the interval is exactly the set of values not rejected. -/
theorem C94_interval_set (hr : RootOk root) (hf : Continuous f) (hc : ConvexOn ℝ Set.univ f) (hse : 0 < se)
    (hp : f par < lli) (hL : ∃ k : ℕ, 1 ≤ k ∧ k ≤ 19 ∧ lli < f (par - k * se))
    (hR : ∃ k : ℕ, 1 ≤ k ∧ k ≤ 19 ∧ lli < f (par + k * se)) :
    ∃ a b, solveInterval root f par se lli = some (a, b) ∧ ∀ x, f x ≤ lli ↔ a ≤ x ∧ x ≤ b := by
  obtain ⟨a, b, h, h1, h2, h3, h4⟩ := C94_interval hr hf hse hp.le hL hR
  refine ⟨a, b, h, fun x => ?_⟩
  have ha : a < par := lt_of_le_of_ne h1 fun e => by rw [e] at h3; linarith
  have cv : ∀ x y s t : ℝ, 0 ≤ s → 0 ≤ t → s + t = 1 → f (s * x + t * y) ≤ s * f x + t * f y :=
    fun x y s t h1 h2 h3 => hc.2 (Set.mem_univ x) (Set.mem_univ y) h1 h2 h3
  have hb : par < b := lt_of_le_of_ne h2 fun e => by rw [← e] at h4; linarith
  constructor
  · intro hx
    constructor
    · by_contra hlt
      rw [not_le] at hlt
      -- `a` lies strictly between `x` and `par`
      have hden : 0 < par - x := by linarith
      have := cv x par ((par - a) / (par - x)) ((a - x) / (par - x))
        (div_nonneg (by linarith) hden.le) (div_nonneg (by linarith) hden.le)
        (by rw [← add_div]; rw [div_eq_one_iff_eq hden.ne']; ring)
      have e : (par - a) / (par - x) * x + (a - x) / (par - x) * par = a := by
        field_simp; ring
      rw [e, h3] at this
      have p1 : 0 < (a - x) / (par - x) := div_pos (by linarith) hden
      have p0 : 0 ≤ (par - a) / (par - x) := div_nonneg (by linarith) hden.le
      have s : (par - a) / (par - x) + (a - x) / (par - x) = 1 := by
        rw [← add_div, div_eq_one_iff_eq hden.ne']; ring
      have q0 := mul_le_mul_of_nonneg_left hx p0
      have q1 := mul_lt_mul_of_pos_left hp p1
      have q2 := congrArg (· * lli) s
      simp only [add_mul, one_mul] at q2
      linarith
    · by_contra hlt
      rw [not_le] at hlt
      have hden : 0 < x - par := by linarith
      have := cv x par ((b - par) / (x - par)) ((x - b) / (x - par))
        (div_nonneg (by linarith) hden.le) (div_nonneg (by linarith) hden.le)
        (by rw [← add_div]; rw [div_eq_one_iff_eq hden.ne']; ring)
      have e : (b - par) / (x - par) * x + (x - b) / (x - par) * par = b := by
        field_simp; ring
      rw [e, h4] at this
      have p1 : 0 < (x - b) / (x - par) := div_pos (by linarith) hden
      have p0 : 0 ≤ (b - par) / (x - par) := div_nonneg (by linarith) hden.le
      have s : (b - par) / (x - par) + (x - b) / (x - par) = 1 := by
        rw [← add_div, div_eq_one_iff_eq hden.ne']; ring
      have q0 := mul_le_mul_of_nonneg_left hx p0
      have q1 := mul_lt_mul_of_pos_left hp p1
      have q2 := congrArg (· * lli) s
      simp only [add_mul, one_mul] at q2
      linarith
  · rintro ⟨hx1, hx2⟩
    have hden : 0 < b - a := by linarith
    have := cv a b ((b - x) / (b - a)) ((x - a) / (b - a))
      (div_nonneg (by linarith) hden.le) (div_nonneg (by linarith) hden.le)
      (by rw [← add_div]; rw [div_eq_one_iff_eq hden.ne']; ring)
    have e : (b - x) / (b - a) * a + (x - a) / (b - a) * b = x := by
      field_simp; ring
    rw [e, h3, h4, ← add_mul, ← add_div] at this
    have s : (b - x + (x - a)) / (b - a) = 1 := by rw [div_eq_one_iff_eq hden.ne']; ring
    rw [s, one_mul] at this
    exact this

/-- When the profile stays below the level on one side the method raises. -/
theorem C94_interval_raises (hr : RootOk root) (hp : f par < lli)
    (h : (∀ k : ℕ, 1 ≤ k → k ≤ 19 → f (par - k * se) < lli) ∨ ∀ k : ℕ, 1 ≤ k → k ≤ 19 → f (par + k * se) < lli) :
    solveInterval root f par se lli = none := by
  have hp' : f par - lli < 0 := sub_neg.2 hp
  simp only [solveInterval]
  rcases h with h | h
  · rw [searchK_none (g := fun k : ℕ => par - k * se) fun k h1 h2 => (h k h1 h2).le,
      hr.raises (fun x => f x - lli) _ par (mul_pos_of_neg_of_neg (sub_neg.2 (h 19 (by norm_num) le_rfl)) hp')]
    rfl
  · rw [searchK_none (g := fun k : ℕ => par + k * se) fun k h1 h2 => (h k h1 h2).le,
      hr.raises (fun x => f x - lli) par _ (mul_pos_of_neg_of_neg hp' (sub_neg.2 (h 19 (by norm_num) le_rfl)))]
    cases root (fun x => f x - lli) _ par <;> rfl

/-- The contract can be met. -/
theorem rootOk_exists : ∃ root, RootOk root := by
  classical
  refine ⟨fun f a b => if 0 < f a * f b then none else
    if h : ∃ x, a ≤ x ∧ x ≤ b ∧ f x = 0 then some h.choose else none, fun f a b h => if_pos h,
    fun f a b _ h1 h2 => ⟨h2.choose, ?_, h2.choose_spec⟩⟩
  rw [if_neg (not_lt.2 h1), dif_pos h2]

end

end Verif.Like
