import Verif.Eln.Lars
import Mathlib.Data.Real.Basic
import Mathlib.Tactic.Linarith
import Mathlib.Tactic.FieldSimp
import Mathlib.Algebra.Order.BigOperators.Group.Finset
import Mathlib.Algebra.BigOperators.Group.Finset.Basic
import Mathlib.Algebra.BigOperators.Ring.Finset

namespace Verif.Eln
open Finset

/-! ### Specification -/

/-- The correlation of a variable with the residual: `x_k' (y - X beta)`. -/
def resCor (p : ℕ) (G : ℕ → ℕ → ℝ) (Xty beta : ℕ → ℝ) (k : ℕ) : ℝ := Xty k - ∑ l ∈ range p, G k l * beta l

/-- The state is on the path at level `c`: the active variables have correlation `c` with the residual, with their signs; the others have
the recorded correlations, none above `c`; coefficients outside the active variables are zero. -/
structure OnPath (p : ℕ) (G : ℕ → ℕ → ℝ) (Xty : ℕ → ℝ) (c : ℝ) (st : LarsState) : Prop where
  nodup : (st.active ++ st.ind).Nodup
  vars : ∀ k, k ∈ st.active ++ st.ind ↔ k < p
  off : ∀ k, k ∉ st.active → st.beta k = 0
  act : ∀ k ∈ st.active, resCor p G Xty st.beta k = c * st.s k
  cor : ∀ k ∈ st.ind, st.C k = resCor p G Xty st.beta k
  le : ∀ k ∈ st.ind, |st.C k| ≤ c

/-- The lasso criterion, up to the sum of squares of `y`: `|y - X b|^2 / 2 + c |b|_1`. -/
noncomputable def larsObj (p : ℕ) (G : ℕ → ℕ → ℝ) (Xty : ℕ → ℝ) (c : ℝ) (b : ℕ → ℝ) : ℝ :=
  (∑ k ∈ range p, ∑ l ∈ range p, b k * G k l * b l) / 2 - ∑ k ∈ range p, Xty k * b k + c * ∑ k ∈ range p, |b k|

/-! ### The least positive number -/

theorem foldl_min_le (b : List ℝ) (x : ℝ) : b.foldl min x ≤ x ∧ (∀ y ∈ b, b.foldl min x ≤ y) ∧ (b.foldl min x = x ∨ b.foldl min x ∈ b) := by
  induction b generalizing x with
  | nil => simp
  | cons a b ih =>
    obtain ⟨h1, h2, h3⟩ := ih (min x a)
    refine ⟨h1.trans (min_le_left _ _), fun y hy => ?_, ?_⟩
    · rcases List.mem_cons.1 hy with rfl | hy
      · exact h1.trans (min_le_right _ _)
      · exact h2 y hy
    · simp only [List.foldl_cons, List.mem_cons]
      rcases h3 with h3 | h3
      · rw [h3]
        rcases min_choice x a with h | h
        · left; exact h
        · right; left; exact h
      · right; right; exact h3

theorem tmin_spec (big : ℝ) (l : List ℝ) (hb : 0 < big) :
    0 < tmin big l ∧ (∀ a ∈ l, 0 < a → tmin big l ≤ a) ∧ (tmin big l = big ∨ tmin big l ∈ l) := by
  classical
  have hm : ∀ a, a ∈ l.filter (fun a => decide (a > 0)) ↔ a ∈ l ∧ 0 < a := fun a => by simp
  unfold tmin
  split
  · rename_i h
    refine ⟨hb, fun a ha h0 => ?_, Or.inl rfl⟩
    have := (hm a).2 ⟨ha, h0⟩
    have h' : l.filter (fun a => decide (a > 0)) = [] := by rw [← h]
    rw [h'] at this
    simp at this
  · rename_i x b h
    have h' : l.filter (fun a => decide (a > 0)) = x :: b := by rw [← h]
    rw [h'] at hm
    obtain ⟨h1, h2, h3⟩ := foldl_min_le b x
    have hmem : b.foldl min x ∈ x :: b := by
      rcases h3 with h3 | h3
      · rw [h3]; exact List.mem_cons_self
      · exact List.mem_cons_of_mem _ h3
    refine ⟨((hm _).1 hmem).2, fun a ha h0 => ?_, Or.inr ((hm _).1 hmem).1⟩
    rcases List.mem_cons.1 ((hm a).2 ⟨ha, h0⟩) with rfl | ha
    · exact h1
    · exact h2 a ha

/-! ### The step -/

/-- **C243** `get_lars_gamma` returns the length of the step up to which no correlation outside the active variables exceeds the common one:
provided all are below it at the start. -/
theorem C243_gamma_partial (big : ℝ) (hb : 0 < big) (C aj : ℕ → ℝ) (cj A : ℝ) (ind : List ℕ) (hA : 0 < A) (hc : 0 < cj) (h : ∀ k ∈ ind, |C k| < cj) :
    0 < larsGamma big C cj A aj ind ∧ larsGamma big C cj A aj ind ≤ cj / A ∧
      ∀ k ∈ ind, |C k - larsGamma big C cj A aj ind * aj k| ≤ cj - larsGamma big C cj A aj ind * A := by
  obtain ⟨p1, l1, -⟩ := tmin_spec big (ind.map fun k => (cj - C k) / (A - aj k)) hb
  obtain ⟨p2, l2, -⟩ := tmin_spec big (ind.map fun k => (cj + C k) / (A + aj k)) hb
  set g := larsGamma big C cj A aj ind with hg
  have hg0 : 0 < g := lt_min p1 (lt_min p2 (div_pos hc hA))
  have hg1 : g ≤ tmin big (ind.map fun k => (cj - C k) / (A - aj k)) := min_le_left _ _
  have hg2 : g ≤ tmin big (ind.map fun k => (cj + C k) / (A + aj k)) := (min_le_right _ _).trans (min_le_left _ _)
  refine ⟨hg0, (min_le_right _ _).trans (min_le_right _ _), fun k hk => ?_⟩
  obtain ⟨hk1, hk2⟩ := abs_lt.1 (h k hk)
  rw [abs_le]
  constructor
  · by_cases hd : 0 < A + aj k
    · have := hg2.trans (l2 _ (List.mem_map.2 ⟨k, hk, rfl⟩) (div_pos (by linarith) hd))
      rw [le_div_iff₀ hd] at this
      nlinarith
    · nlinarith
  · by_cases hd : 0 < A - aj k
    · have := hg1.trans (l1 _ (List.mem_map.2 ⟨k, hk, rfl⟩) (div_pos (by linarith) hd))
      rw [le_div_iff₀ hd] at this
      nlinarith
    · nlinarith

/-- **C243** If the step stops before the full least-squares step, some variable has reached the common correlation: the next turn starts at
that level. -/
theorem C243_next_level_partial (big : ℝ) (hb : 0 < big) (C aj : ℕ → ℝ) (cj A : ℝ) (ind : List ℕ) (hA : 0 < A) (hc : 0 < cj)
    (h : ∀ k ∈ ind, |C k| < cj) (h3 : larsGamma big C cj A aj ind < cj / A) (hbig : larsGamma big C cj A aj ind < big) :
    ∃ k ∈ ind, |C k - larsGamma big C cj A aj ind * aj k| = cj - larsGamma big C cj A aj ind * A := by
  obtain ⟨p1, -, m1⟩ := tmin_spec big (ind.map fun k => (cj - C k) / (A - aj k)) hb
  obtain ⟨p2, -, m2⟩ := tmin_spec big (ind.map fun k => (cj + C k) / (A + aj k)) hb
  have hg0 := (C243_gamma_partial big hb C aj cj A ind hA hc h).1
  have hpos : 0 < cj - larsGamma big C cj A aj ind * A := by
    rw [lt_div_iff₀ hA] at h3; linarith
  have hd : larsGamma big C cj A aj ind = min (tmin big (ind.map fun k => (cj - C k) / (A - aj k)))
      (min (tmin big (ind.map fun k => (cj + C k) / (A + aj k))) (cj / A)) := rfl
  rcases min_choice (tmin big (ind.map fun k => (cj - C k) / (A - aj k))) (min (tmin big (ind.map fun k => (cj + C k) / (A + aj k))) (cj / A)) with e | e
  · rw [e] at hd
    rcases m1 with m1 | m1
    · rw [hd, m1] at hbig; exact absurd hbig (lt_irrefl _)
    · obtain ⟨k, hk, e1⟩ := List.mem_map.1 m1
      refine ⟨k, hk, ?_⟩
      rw [← hd] at e1
      have hne : A - aj k ≠ 0 := fun e0 => by rw [e0, div_zero] at e1; linarith
      rw [div_eq_iff hne] at e1
      have : C k - larsGamma big C cj A aj ind * aj k = cj - larsGamma big C cj A aj ind * A := by linarith
      rw [this, abs_of_pos hpos]
  · rw [e] at hd
    rcases min_choice (tmin big (ind.map fun k => (cj + C k) / (A + aj k))) (cj / A) with e' | e'
    · rw [e'] at hd
      rcases m2 with m2 | m2
      · rw [hd, m2] at hbig; exact absurd hbig (lt_irrefl _)
      · obtain ⟨k, hk, e1⟩ := List.mem_map.1 m2
        refine ⟨k, hk, ?_⟩
        rw [← hd] at e1
        have hne : A + aj k ≠ 0 := fun e0 => by rw [e0, div_zero] at e1; linarith
        rw [div_eq_iff hne] at e1
        have : C k - larsGamma big C cj A aj ind * aj k = -(cj - larsGamma big C cj A aj ind * A) := by linarith
        rw [this, abs_neg, abs_of_pos hpos]
    · rw [e'] at hd
      rw [hd] at h3
      exact absurd h3 (lt_irrefl _)

theorem sum_active (p : ℕ) (active : List ℕ) (hn : active.Nodup) (hp : ∀ k ∈ active, k < p) (f : ℕ → ℝ) :
    ∑ l ∈ range p, (if l ∈ active then f l else 0) = (active.map f).sum := by
  rw [← List.sum_toFinset f hn, ← sum_filter]
  refine sum_congr ?_ fun _ _ => rfl
  ext k
  simp only [mem_filter, mem_range, List.mem_toFinset]
  exact ⟨fun h => h.2, fun h => ⟨hp k h, h⟩⟩

/-- **C243** The direction is equiangular: along it the correlations of the active variables all fall at the rate `A`. -/
theorem C243_direction (G : ℕ → ℕ → ℝ) (solve : List ℕ → (ℕ → ℝ) → ℕ → ℝ) (active : List ℕ) (s : ℕ → ℝ) (h : SolveOK G solve active s) (A : ℝ) :
    ∀ k ∈ active, larsAj G (fun l => solve active s l * A) active k = A * s k := by
  intro k hk
  rw [← h k hk, larsAj, ← List.sum_map_mul_left]
  refine congrArg List.sum (List.map_congr_left fun l _ => ?_)
  ring

/-- **C243** A step from a state on the path, every other correlation below the common one, leads to a state on the path at the lower level
`cj - gamma A`, which is not negative. -/
theorem C243_move_partial (big : ℝ) (hb : 0 < big) (p : ℕ) (G : ℕ → ℕ → ℝ) (hG : ∀ k l, G k l = G l k) (Xty : ℕ → ℝ)
    (solve : List ℕ → (ℕ → ℝ) → ℕ → ℝ) (cj : ℝ) (st : LarsState) (hst : OnPath p G Xty cj st) (hc : 0 < cj)
    (hlt : ∀ k ∈ st.ind, |st.C k| < cj) (hs : SolveOK G solve st.active st.s)
    (hpos : 0 < (st.active.map fun k => solve st.active st.s k * st.s k).sum) :
    ∃ c', 0 ≤ c' ∧ c' < cj ∧ OnPath p G Xty c' (larsMove big G solve cj st) := by
  set gi1 := solve st.active st.s with hgi
  set A := larsA st.s gi1 st.active with hAdef
  have hA : 0 < A := div_pos one_pos (Real.sqrt_pos.2 hpos)
  set w := fun k => gi1 k * A with hw
  set aj := larsAj G w st.active with haj
  set g := larsGamma big st.C cj A aj st.ind with hg
  obtain ⟨g0, g3, gk⟩ := C243_gamma_partial big hb st.C aj cj A st.ind hA hc hlt
  rw [le_div_iff₀ hA] at g3
  have hmv : larsMove big G solve cj st = { st with
      beta := fun k => if k ∈ st.active then st.beta k + g * w k else 0
      C := fun k => if k ∈ st.ind then st.C k - g * aj k else st.C k } := rfl
  have hnd := (List.nodup_append.1 hst.nodup).1
  have hact : ∀ k ∈ st.active, k < p := fun k hk => (hst.vars k).1 (List.mem_append_left _ hk)
  have hres : ∀ k, resCor p G Xty (fun k => if k ∈ st.active then st.beta k + g * w k else 0) k = resCor p G Xty st.beta k - g * aj k := by
    intro k
    have h1 : ∑ l ∈ range p, G k l * (if l ∈ st.active then st.beta l + g * w l else 0) =
        ∑ l ∈ range p, G k l * st.beta l + g * ∑ l ∈ range p, (if l ∈ st.active then G l k * w l else 0) := by
      rw [mul_sum, ← sum_add_distrib]
      refine sum_congr rfl fun l _ => ?_
      by_cases hl : l ∈ st.active
      · rw [if_pos hl, if_pos hl, hG l k]; ring
      · rw [if_neg hl, if_neg hl, hst.off l hl]; ring
    rw [resCor, h1, sum_active p st.active hnd hact, resCor, haj, larsAj]
    ring
  rw [hmv]
  refine ⟨cj - g * A, by linarith, by nlinarith, ⟨hst.nodup, hst.vars, fun k hk => if_neg hk, fun k hk => ?_, fun k hk => ?_, fun k hk => ?_⟩⟩
  · show resCor p G Xty (fun k => if k ∈ st.active then st.beta k + g * w k else 0) k = _
    rw [hres, hst.act k hk, haj, C243_direction G solve st.active st.s hs A k hk]
    show cj * st.s k - g * (A * st.s k) = (cj - g * A) * st.s k
    ring
  · show (if k ∈ st.ind then st.C k - g * aj k else st.C k) = _
    rw [if_pos hk]
    show _ = resCor p G Xty (fun k => if k ∈ st.active then st.beta k + g * w k else 0) k
    rw [hres, hst.cor k hk]
  · show |if k ∈ st.ind then st.C k - g * aj k else st.C k| ≤ _
    rw [if_pos hk]
    exact gk k hk

/-! ### Choosing the variable -/

theorem argmaxAbs_spec (l : List ℝ) (hl : l ≠ []) : argmaxAbs l < l.length ∧ ∀ b ∈ l, |b| ≤ |l.getD (argmaxAbs l) 0| := by
  classical
  induction l with
  | nil => exact absurd rfl hl
  | cons a l ih =>
    unfold argmaxAbs
    by_cases h : ∀ b ∈ l, |b| ≤ |a|
    · rw [if_pos h]
      refine ⟨by simp, fun b hb => ?_⟩
      rw [List.getD_cons_zero]
      rcases List.mem_cons.1 hb with rfl | hb
      · exact le_refl _
      · exact h b hb
    · rw [if_neg h]
      have hl' : l ≠ [] := fun e => h (by rw [e]; simp)
      obtain ⟨h1, h2⟩ := ih hl'
      refine ⟨by simpa using h1, fun b hb => ?_⟩
      rw [List.getD_cons_succ]
      rcases List.mem_cons.1 hb with rfl | hb
      · push Not at h
        obtain ⟨c, hc, hlt⟩ := h
        exact hlt.le.trans (h2 c hc)
      · exact h2 b hb

theorem sign_mul_abs (x : ℝ) : |x| * larsSign x = x := by
  unfold larsSign
  by_cases h : 0 < x
  · rw [if_pos h, abs_of_pos h, mul_one]
  · rw [if_neg h]
    by_cases h' : x < 0
    · rw [if_pos h', abs_of_neg h']; ring
    · rw [if_neg h']; linarith

/-- **C243** Adding the variable of greatest correlation to a state on the path at that level keeps it on the path. -/
theorem C243_add (p : ℕ) (G : ℕ → ℕ → ℝ) (Xty : ℕ → ℝ) (c : ℝ) (st : LarsState) (hst : OnPath p G Xty c st) (j : ℕ) (hj : j < st.ind.length)
    (hc : |st.C (st.ind.getD j 0)| = c) : OnPath p G Xty c (larsAdd st j) := by
  have hv : st.ind.getD j 0 = st.ind[j] := List.getD_eq_getElem _ _ hj
  set v := st.ind.getD j 0 with hvdef
  have hvm : v ∈ st.ind := by rw [hv]; exact List.getElem_mem _
  obtain ⟨n1, n2, n3⟩ := List.nodup_append.1 hst.nodup
  have hva : v ∉ st.active := fun h => n3 v h v hvm rfl
  have hperm : (v :: st.ind.eraseIdx j).Perm st.ind := by rw [hv]; exact List.getElem_cons_eraseIdx_perm hj
  have hsub : ∀ k ∈ st.ind.eraseIdx j, k ∈ st.ind := fun k hk => hperm.mem_iff.1 (List.mem_cons_of_mem _ hk)
  have hall : (st.active ++ [v] ++ st.ind.eraseIdx j).Perm (st.active ++ st.ind) := by
    rw [List.append_assoc]
    exact List.Perm.append_left _ hperm
  refine ⟨hall.nodup_iff.2 hst.nodup, fun k => hall.mem_iff.trans (hst.vars k), fun k hk => hst.off k fun h => hk (List.mem_append_left _ h),
    fun k hk => ?_, fun k hk => hst.cor k (hsub k hk), fun k hk => hst.le k (hsub k hk)⟩
  show resCor p G Xty st.beta k = c * Function.update st.s v (larsSign (st.C v)) k
  rcases List.mem_append.1 hk with h | h
  · have : k ≠ v := fun e => hva (e ▸ h)
    rw [Function.update_of_ne this]
    exact hst.act k h
  · rw [List.mem_singleton.1 h, Function.update_self, ← hc, sign_mul_abs]
    exact (hst.cor v hvm).symm

/-- **C243** A whole turn of the loop: from a state on the path at level `c`, reached by exactly one of the variables outside, to a state on
the path at a lower level; the recorded `lambda` is `c`. -/
theorem C243_turn_partial (big : ℝ) (hb : 0 < big) (p : ℕ) (G : ℕ → ℕ → ℝ) (hG : ∀ k l, G k l = G l k) (Xty : ℕ → ℝ)
    (solve : List ℕ → (ℕ → ℝ) → ℕ → ℝ) (c : ℝ) (st : LarsState) (hst : OnPath p G Xty c st) (hc : 0 < c) (v : ℕ) (hv : v ∈ st.ind) (hvc : |st.C v| = c)
    (huniq : ∀ k ∈ st.ind, |st.C k| = c → k = v)
    (active : List ℕ) (s : ℕ → ℝ) (hact : active = st.active ++ [v]) (hsv : s = Function.update st.s v (larsSign (st.C v)))
    (hs : SolveOK G solve active s) (hpos : 0 < (active.map fun k => solve active s k * s k).sum) :
    ∃ st' c', larsTurn big G solve st = some (c, st') ∧ 0 ≤ c' ∧ c' < c ∧ OnPath p G Xty c' st' := by
  have hne : st.ind ≠ [] := List.ne_nil_of_mem hv
  obtain ⟨h1, h2⟩ := argmaxAbs_spec (st.ind.map st.C) (by simpa using hne)
  rw [List.length_map] at h1
  have hget : (st.ind.map st.C).getD (argmaxAbs (st.ind.map st.C)) 0 = st.C (st.ind.getD (argmaxAbs (st.ind.map st.C)) 0) := by
    rw [List.getD_eq_getElem _ _ (by rw [List.length_map]; exact h1), List.getD_eq_getElem _ _ h1, List.getElem_map]
  rw [hget] at h2
  set j := argmaxAbs (st.ind.map st.C) with hj
  have hmem : st.ind.getD j 0 ∈ st.ind := by rw [List.getD_eq_getElem _ _ h1]; exact List.getElem_mem _
  have hcj : |st.C (st.ind.getD j 0)| = c := le_antisymm (hst.le _ hmem) (by rw [← hvc]; exact h2 _ (List.mem_map.2 ⟨v, hv, rfl⟩))
  have hjv := huniq _ hmem hcj
  have hadd := C243_add p G Xty c st hst j h1 hcj
  have hperm : (st.ind.getD j 0 :: st.ind.eraseIdx j).Perm st.ind := by
    rw [List.getD_eq_getElem _ _ h1]; exact List.getElem_cons_eraseIdx_perm h1
  have hnd : (st.ind.getD j 0 :: st.ind.eraseIdx j).Nodup := hperm.nodup_iff.2 (List.nodup_append.1 hst.nodup).2.1
  obtain ⟨c', h3, h4, h5⟩ := C243_move_partial big hb p G hG Xty solve c (larsAdd st j) hadd hc
    (fun k hk => by
      have hk' : k ∈ st.ind := hperm.mem_iff.1 (List.mem_cons_of_mem _ hk)
      refine lt_of_le_of_ne (hst.le k hk') fun e => ?_
      rw [huniq k hk' e, ← hjv] at hk
      exact (List.nodup_cons.1 hnd).1 hk)
    (by rw [hact, hsv, ← hjv] at hs; exact hs) (by rw [hact, hsv, ← hjv] at hpos; exact hpos)
  refine ⟨_, c', ?_, h3, h4, h5⟩
  rw [larsTurn, if_neg hne]
  simp only [← hj, hcj]

/-- **C243** The start is on the path at the greatest correlation. -/
theorem C243_start (p : ℕ) (G : ℕ → ℕ → ℝ) (Xty : ℕ → ℝ) (c : ℝ) (h : ∀ k < p, |Xty k| ≤ c) : OnPath p G Xty c (larsInit p Xty) := by
  refine ⟨by simpa [larsInit] using List.nodup_range, fun k => by simp [larsInit], fun k _ => rfl, fun k hk => by simp [larsInit] at hk,
    fun k _ => ?_, fun k hk => h k (by simpa [larsInit] using hk)⟩
  simp [larsInit, resCor]

/-! ### What the path is -/

/-- **C243** A state on the path at level `c` whose coefficients have the recorded signs is a minimiser of the lasso criterion with penalty
`c`. -/
theorem C243_lasso (p : ℕ) (G : ℕ → ℕ → ℝ) (hG : ∀ k l, G k l = G l k)
    (hpsd : ∀ b : ℕ → ℝ, 0 ≤ ∑ k ∈ range p, ∑ l ∈ range p, b k * G k l * b l) (Xty : ℕ → ℝ) (c : ℝ) (hc : 0 ≤ c)
    (st : LarsState) (hst : OnPath p G Xty c st) (hs : ∀ k ∈ st.active, |st.s k| ≤ 1) (hsgn : ∀ k ∈ st.active, st.s k * st.beta k = |st.beta k|) (b : ℕ → ℝ) :
    larsObj p G Xty c st.beta ≤ larsObj p G Xty c b := by
  set be := st.beta with hbe
  set g := resCor p G Xty be with hg
  have hgle : ∀ k ∈ range p, |g k| ≤ c := by
    intro k hk
    rcases List.mem_append.1 ((hst.vars k).2 (mem_range.1 hk)) with h | h
    · rw [hg, hst.act k h, abs_mul, abs_of_nonneg hc]
      exact mul_le_of_le_one_right hc (hs k h)
    · rw [hg, ← hst.cor k h]
      exact hst.le k h
  have hgbe : ∀ k ∈ range p, g k * be k = c * |be k| := by
    intro k hk
    by_cases h : k ∈ st.active
    · rw [hg, hst.act k h, ← hsgn k h]; ring
    · rw [hbe, hst.off k h]; simp
  have hgb : ∀ k ∈ range p, g k * b k ≤ c * |b k| := fun k hk => by
    calc g k * b k ≤ |g k * b k| := le_abs_self _
      _ = |g k| * |b k| := abs_mul _ _
      _ ≤ c * |b k| := mul_le_mul_of_nonneg_right (hgle k hk) (abs_nonneg _)
  have h1 : ∑ k ∈ range p, g k * (b k - be k) ≤ c * ∑ k ∈ range p, |b k| - c * ∑ k ∈ range p, |be k| := by
    rw [mul_sum, mul_sum, ← sum_sub_distrib]
    refine sum_le_sum fun k hk => ?_
    rw [mul_sub, hgbe k hk]
    linarith [hgb k hk]
  have h2 : ∑ k ∈ range p, g k * (b k - be k) = ∑ k ∈ range p, Xty k * b k - ∑ k ∈ range p, Xty k * be k -
      ∑ k ∈ range p, ∑ l ∈ range p, (b k * G k l * be l - be k * G k l * be l) := by
    rw [← sum_sub_distrib, ← sum_sub_distrib]
    refine sum_congr rfl fun k _ => ?_
    have : ∑ l ∈ range p, (b k * G k l * be l - be k * G k l * be l) = (b k - be k) * ∑ l ∈ range p, G k l * be l := by
      rw [mul_sum]; exact sum_congr rfl fun l _ => by ring
    rw [this, hg, resCor]; ring
  have h3 := hpsd fun k => b k - be k
  have hsym : ∑ k ∈ range p, ∑ l ∈ range p, be k * G k l * b l = ∑ k ∈ range p, ∑ l ∈ range p, b k * G k l * be l := by
    rw [sum_comm]
    exact sum_congr rfl fun k _ => sum_congr rfl fun l _ => by rw [hG l k]; ring
  have h4 : ∑ k ∈ range p, ∑ l ∈ range p, (b k - be k) * G k l * (b l - be l) =
      ∑ k ∈ range p, ∑ l ∈ range p, b k * G k l * b l - 2 * ∑ k ∈ range p, ∑ l ∈ range p, b k * G k l * be l +
        ∑ k ∈ range p, ∑ l ∈ range p, be k * G k l * be l := by
    have : ∑ k ∈ range p, ∑ l ∈ range p, (b k - be k) * G k l * (b l - be l) =
        ∑ k ∈ range p, ∑ l ∈ range p, b k * G k l * b l - ∑ k ∈ range p, ∑ l ∈ range p, b k * G k l * be l -
        ∑ k ∈ range p, ∑ l ∈ range p, be k * G k l * b l + ∑ k ∈ range p, ∑ l ∈ range p, be k * G k l * be l := by
      simp only [← sum_sub_distrib, ← sum_add_distrib]
      exact sum_congr rfl fun k _ => sum_congr rfl fun l _ => by ring
    rw [this, hsym]; ring
  have h5 : ∑ k ∈ range p, ∑ l ∈ range p, (b k * G k l * be l - be k * G k l * be l) =
      ∑ k ∈ range p, ∑ l ∈ range p, b k * G k l * be l - ∑ k ∈ range p, ∑ l ∈ range p, be k * G k l * be l := by
    simp only [← sum_sub_distrib]
  simp only [larsObj]
  rw [h4] at h3
  rw [h5] at h2
  linarith

/-! ### Ties -/

/-- Two orthogonal predictors of norm one. -/
def tieG (k l : ℕ) : ℝ := if k = l then 1 else 0

/-- Both have correlation one with the response. -/
def tieXty : ℕ → ℝ := fun _ => 1

/-- The solution of the equations: the Gram matrix is the identity. -/
def tieSolve (_ : List ℕ) (s : ℕ → ℝ) : ℕ → ℝ := s

theorem argmax_one : argmaxAbs [1] = 0 := by simp [argmaxAbs]

theorem argmax_two : argmaxAbs [1, 1] = 0 := by simp [argmaxAbs]

theorem tie_first (big : ℝ) (hb : 2 ≤ big) :
    larsTurn big tieG tieSolve (larsInit 2 tieXty) = some (1, ⟨fun k => if k ∈ [0] then 0 + 1 * (Function.update (fun _ => (0 : ℝ)) 0 1 k * 1) else 0,
      fun k => if k ∈ [1] then 1 - 1 * 0 else 1, [0], Function.update (fun _ => (0 : ℝ)) 0 1, [1]⟩) := by
  have hne : (larsInit 2 tieXty).ind ≠ [] := by simp [larsInit]
  have hind : (larsInit 2 tieXty).ind = [0, 1] := rfl
  have hj : argmaxAbs ((larsInit 2 tieXty).ind.map (larsInit 2 tieXty).C) = 0 := by
    rw [hind]; exact argmax_two
  rw [larsTurn, if_neg hne]
  simp only [hj]
  have hcj : |(larsInit 2 tieXty).C ((larsInit 2 tieXty).ind.getD 0 0)| = 1 := by
    show |(1 : ℝ)| = 1; simp
  rw [hcj]
  have hadd : larsAdd (larsInit 2 tieXty) 0 = ⟨fun _ => 0, fun _ => 1, [0], Function.update (fun _ => (0 : ℝ)) 0 1, [1]⟩ := by
    have : larsSign 1 = 1 := by simp [larsSign]
    simp only [larsAdd, larsInit, tieXty, this]
    rfl
  rw [hadd]
  have hA : larsA (Function.update (fun _ => (0 : ℝ)) 0 1) (tieSolve [0] (Function.update (fun _ => (0 : ℝ)) 0 1)) [0] = 1 := by
    simp [larsA, tieSolve]
  have haj : larsAj tieG (fun k => tieSolve [0] (Function.update (fun _ => (0 : ℝ)) 0 1) k * 1) [0] 1 = 0 := by
    simp [larsAj, tieG]
  have hgam : larsGamma big (fun _ => (1 : ℝ)) 1 1 (larsAj tieG (fun k => tieSolve [0] (Function.update (fun _ => (0 : ℝ)) 0 1) k * 1) [0]) [1] = 1 := by
    have h1 : tmin big [(1 - 1) / (1 - 0)] = big := by simp [tmin]
    have h2 : tmin big [(1 + 1) / (1 + 0)] = 2 := by
      have : ((1 : ℝ) + 1) / (1 + 0) = 2 := by norm_num
      rw [this]
      simp [tmin]
    simp only [larsGamma, List.map_cons, List.map_nil, haj, h1, h2]
    rw [div_one, min_eq_right (by norm_num : (1 : ℝ) ≤ 2), min_eq_right (by linarith)]
  simp only [larsMove, hA, hgam]
  congr 3
  funext k
  by_cases hk : k ∈ [1]
  · rw [if_pos hk, if_pos hk, List.mem_singleton.1 hk, haj]
  · rw [if_neg hk, if_neg hk]

theorem tie_second (big : ℝ) (hb : 2 ≤ big) :
    ∃ st1 st2, larsTurn big tieG tieSolve (larsInit 2 tieXty) = some (1, st1) ∧ larsTurn big tieG tieSolve st1 = some (1, st2) ∧
      st1.beta 0 = 1 ∧ st1.beta 1 = 0 ∧ st1.C 1 = 1 ∧ st2.beta 0 = 2 ∧ st2.beta 1 = 1 ∧ st2.active = [0, 1] := by
  refine ⟨_, larsMove big tieG tieSolve 1 ⟨fun k => if k ∈ [0] then 0 + 1 * (Function.update (fun _ => (0 : ℝ)) 0 1 k * 1) else 0,
      fun k => if k ∈ [1] then 1 - 1 * 0 else 1, [0, 1], Function.update (Function.update (fun _ => (0 : ℝ)) 0 1) 1 1, []⟩, tie_first big hb, ?_,
    by simp, by simp, by simp, ?_⟩
  · have hj : argmaxAbs [if 1 ∈ [1] then (1 : ℝ) - 1 * 0 else 1] = 0 := by simp [argmaxAbs]
    rw [larsTurn, if_neg (by simp)]
    simp only [List.map_cons, List.map_nil, hj]
    have hC : (if (1 : ℕ) ∈ [1] then (1 : ℝ) - 1 * 0 else 1) = 1 := by simp
    have h1 : larsSign 1 = 1 := by simp [larsSign]
    simp only [larsAdd, List.getD_cons_zero, hC, abs_one, h1]
    rfl
  · have hs0 : (1 : ℝ) / √2 ≠ 0 := by positivity
    have hsum : (([0, 1] : List ℕ).map fun k => tieSolve [0, 1] (Function.update (Function.update (fun _ => (0 : ℝ)) 0 1) 1 1) k *
        Function.update (Function.update (fun _ => (0 : ℝ)) 0 1) 1 1 k).sum = 2 := by
      simp [tieSolve]; norm_num
    have hA : larsA (Function.update (Function.update (fun _ => (0 : ℝ)) 0 1) 1 1)
        (tieSolve [0, 1] (Function.update (Function.update (fun _ => (0 : ℝ)) 0 1) 1 1)) [0, 1] = 1 / √2 := by
      rw [larsA, hsum]
    have hgam : ∀ (C aj : ℕ → ℝ), larsGamma big C 1 (1 / √2) aj [] = √2 := by
      intro C aj
      have h2 : √2 ≤ 2 := by
        rw [Real.sqrt_le_left (by norm_num)]; norm_num
      have h1 : tmin big [] = big := by simp [tmin]
      simp only [larsGamma, List.map_nil, h1, one_div_one_div]
      rw [min_eq_right (a := big) (b := √2) (by linarith), min_eq_right (by linarith)]
    have hm : √2 * (1 / √2) = 1 := by field_simp
    simp only [larsMove, hA, hgam]
    refine ⟨?_, ?_, trivial⟩
    · simp [tieSolve]; norm_num
    · simp [tieSolve]

/-- **C243** When two variables have the same correlation the second is forgotten: its quotient is zero, which the search for the least
positive one skips.  With two orthogonal predictors and `X'y = (1, 1)` the first step goes to `(1, 0)`, past the level of the second variable, and the
second ends at `(2, 1)`, whose residual still has correlation with the first; least squares, and the end of the path, is `(1, 1)`. -/
theorem C243_tie_violated (big : ℝ) (hb : 2 ≤ big) :
    ∃ st1 st2, larsTurn big tieG tieSolve (larsInit 2 tieXty) = some (1, st1) ∧ larsTurn big tieG tieSolve st1 = some (1, st2) ∧
      (∀ c, ¬ OnPath 2 tieG tieXty c st1) ∧ st2.beta 0 = 2 ∧ st2.beta 1 = 1 ∧ resCor 2 tieG tieXty st2.beta 0 = -1 ∧
      ∀ k < 2, resCor 2 tieG tieXty (fun _ => 1) k = 0 := by
  obtain ⟨st1, st2, h1, h2, b0, b1, hC, e0, e1, -⟩ := tie_second big hb
  refine ⟨st1, st2, h1, h2, fun c h => ?_, e0, e1, ?_, ?_⟩
  · have h1' := (tie_first big hb).symm.trans h1
    have he := (Prod.mk.inj (Option.some.inj h1')).2
    have ha := h.act 0 (by rw [← he]; simp)
    have hl := h.le 1 (by rw [← he]; simp)
    rw [resCor, sum_range_succ, sum_range_succ, sum_range_zero, b0, b1, ← he] at ha
    rw [hC, abs_one] at hl
    simp [tieG, tieXty] at ha
    linarith
  · rw [resCor, sum_range_succ, sum_range_succ, sum_range_zero, e0, e1]
    simp [tieG, tieXty]; norm_num
  · intro k hk
    have : k = 0 ∨ k = 1 := by omega
    rcases this with rfl | rfl <;> simp [resCor, tieG, tieXty]

/-- The hypotheses of `C243_turn_partial` can be met. -/
example : ∃ (st : LarsState) (v : ℕ), OnPath 1 tieG tieXty 1 st ∧ v ∈ st.ind ∧ |st.C v| = 1 ∧ (∀ k ∈ st.ind, |st.C k| = 1 → k = v) ∧
    SolveOK tieG tieSolve (st.active ++ [v]) (Function.update st.s v (larsSign (st.C v))) ∧
    0 < ((st.active ++ [v]).map fun k => tieSolve (st.active ++ [v]) (Function.update st.s v (larsSign (st.C v))) k *
      Function.update st.s v (larsSign (st.C v)) k).sum := by
  have h1 : larsSign 1 = 1 := by simp [larsSign]
  refine ⟨larsInit 1 tieXty, 0, C243_start 1 tieG tieXty 1 (by simp [tieXty]), by simp [larsInit], by simp [larsInit, tieXty], ?_, ?_, ?_⟩
  · intro k hk _; simpa [larsInit] using hk
  · intro k hk
    simp [larsInit] at hk
    subst hk
    simp [larsInit, tieSolve, tieG]
  · simp [larsInit, tieSolve, tieXty, h1]

end Verif.Eln
