import Verif.Opt.Model
/-!
# Lemmas on the memoising wrappers and the option merge
-/
namespace Verif.Opt

open Verif.Func (Dict)

theorem npAllEq_same {R : Type*} [DecidableEq R] (x y : List R) (h : x.length = y.length) :
    npAllEq x (some y) = decide (x = y) := by
  unfold npAllEq
  simp only [h, if_true]

/-- What a call should return: the component of the wrapped function at this very point. -/
def expected {R V G H A : Type*} (f : List R → A → Option (V × G × H)) (e : Entry) (x : List R)
    (args : A) : Ret V G H :=
  match f x args with
  | none => .raised
  | some (v, g, h) => match e with | .value => .value v | .jac => .jac g | .hess => .hess h

/-- The cache is empty or holds the results at its point. -/
def Coherent {R V G H A : Type*} (f : List R → A → Option (V × G × H)) (n : ℕ) (args : A)
    (s : HessState R V G H) : Prop :=
  (s.value = none ∧ s.jac = none ∧ s.hess = none) ∨
  ∃ y v g h, y.length = n ∧ f y args = some (v, g, h) ∧ s.x = some y ∧ s.value = some v ∧
    s.jac = some g ∧ s.hess = some h

theorem enter_coherent {R V G H A : Type*} [DecidableEq R]
    (f : List R → A → Option (V × G × H)) (n : ℕ) (args : A) (s : HessState R V G H)
    (hs : Coherent f n args s) (e : Entry) (x : List R) (hx : x.length = n)
    (hf : f x args ≠ none) :
    (s.enter f e x args).2 = expected f e x args ∧ Coherent f n args (s.enter f e x args).1 := by
  obtain ⟨⟨v, g, h⟩, hfx⟩ := Option.ne_none_iff_exists'.1 hf
  by_cases hc : (!npAllEq x s.x || s.value.isNone || s.jac.isNone || s.hess.isNone) = true
  · have hcomp : s.compute f x args = (HessState.mk (some x) (some v) (some g)
        (some h) (s.calls + 1), true) := by
      unfold HessState.compute; rw [if_pos hc, hfx]
    refine ⟨?_, Or.inr ⟨x, v, g, h, hx, hfx, ?_⟩⟩
    · simp only [HessState.enter, hcomp, expected, hfx]; cases e <;> rfl
    · simp [HessState.enter, hcomp]
  · have hcomp : s.compute f x args = (s, true) := by
      unfold HessState.compute; rw [if_neg hc]
    simp only [Bool.or_eq_true, Bool.not_eq_true', not_or, Bool.not_eq_false] at hc
    rcases hs with ⟨h1, h2, h3⟩ | ⟨y, v', g', h', hy, hfy, hsx, h1, h2, h3⟩
    · exact absurd hc.2 (by simp [h3])
    · have hxy : x = y := by
        have := hc.1.1.1
        rw [hsx, npAllEq_same _ _ (hx.trans hy.symm)] at this
        simpa using this
      subst hxy
      refine ⟨?_, ?_⟩
      · simp only [HessState.enter, hcomp, expected, hfy, h1, h2, h3]; cases e <;> rfl
      · simp only [HessState.enter, hcomp]
        exact Or.inr ⟨x, v', g', h', hy, hfy, hsx, h1, h2, h3⟩

theorem get_fill {υ : Type*} (defaults : Dict String υ) (hd : (defaults.map Prod.fst).Nodup) :
    ∀ (options : Dict String υ) (k : String),
      (fillDefaults defaults options).get k = (options.get k).or (defaults.get k) := by
  unfold fillDefaults
  induction defaults with
  | nil => intro o k; simp [Dict.get]
  | cons e d ih =>
    intro o k
    rw [List.foldl_cons, ih (List.nodup_cons.1 hd).2, Dict.get_cons]
    split_ifs with h1 h2 h2
    · subst h2
      obtain ⟨e', he', hk⟩ := List.any_eq_true.1 h1
      have : (o.get e.1).isSome := by
        unfold Dict.get
        rw [Option.isSome_map, List.find?_isSome]
        exact ⟨e', he', hk⟩
      obtain ⟨v, hv⟩ := Option.isSome_iff_exists.1 this
      simp [hv]
    · rfl
    · subst h2
      rw [Dict.get_put, if_pos rfl, Dict.get_none o _ (Bool.eq_false_iff.2 h1)]
      rfl
    · rw [Dict.get_put, if_neg (fun h => h2 h.symm)]

end Verif.Opt
