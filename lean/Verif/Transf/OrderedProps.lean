import Verif.Transf.Ordered
import Verif.Transf.CovCorrProps
import Verif.Transf.CholCovProps
import Mathlib.Analysis.SpecialFunctions.Trigonometric.DerivHyp
/-! # C78, C79: ordered, logarithmic, hyperbolic and identity transforms -/
namespace Verif.Transf
open Verif.Np Verif.Index Verif.Vec Real

variable {q : ℕ}

/-- Strictly increasing arrays. -/
def Incr (q : ℕ) (x : ℕ → ℝ) : Prop := ∀ i, 1 ≤ i → i < q → x (i - 1) < x i

theorem cumsumN_eq (v : ℕ → ℝ) (k : ℕ) : cumsumN v k = ∑ l ∈ Finset.range (k + 1), v l := by
  induction k with
  | zero => simp [cumsumN]
  | succ k ih => rw [cumsumN, ih, ← Finset.sum_range_succ]

theorem ordRvs_eq (y : ℕ → ℝ) {i : ℕ} (hi : i < q) :
    ordRvs q y i = y 0 + ∑ l ∈ Finset.range i, exp (y (l + 1)) := by
  unfold ordRvs
  cases i with
  | zero => simp
  | succ i => rw [if_pos ⟨by omega, hi⟩, cumsumN_eq]; simp; ring

/-- C78: the reverse map returns strictly increasing sequences. -/
theorem C78_ord_range (y : ℕ → ℝ) : Incr q (ordRvs q y) := by
  intro i h1 hi
  obtain ⟨i, rfl⟩ : ∃ j, i = j + 1 := ⟨i - 1, by omega⟩
  rw [ordRvs_eq y hi, ordRvs_eq y (by omega), Nat.add_sub_cancel, Finset.sum_range_succ]
  have := exp_pos (y (i + 1))
  linarith

/-- C78: the forward map inverts the reverse map on every real vector. -/
theorem C78_ord_fwd_rvs (y : ℕ → ℝ) {i : ℕ} (hi : i < q) : ordFwd q (ordRvs q y) i = y i := by
  unfold ordFwd
  cases i with
  | zero => simp [ordRvs]
  | succ i =>
    rw [if_pos ⟨by omega, hi⟩, ordRvs_eq y hi, Nat.add_sub_cancel, ordRvs_eq y (by omega),
      Finset.sum_range_succ]
    rw [show ∀ a b c : ℝ, a + (b + c) - (a + b) = c by intros; ring, log_exp]

/-- C78: the reverse map inverts the forward map on increasing sequences. -/
theorem C78_ord_rvs_fwd (x : ℕ → ℝ) (hx : Incr q x) {i : ℕ} (hi : i < q) :
    ordRvs q (ordFwd q x) i = x i := by
  rw [ordRvs_eq _ hi]
  induction i with
  | zero => simp [ordFwd]
  | succ i ih =>
    rw [Finset.sum_range_succ, ← add_assoc, ih (by omega), ordFwd, if_pos ⟨by omega, hi⟩,
      Nat.add_sub_cancel, exp_log]
    · ring
    · have := hx (i + 1) (by omega) hi
      rw [Nat.add_sub_cancel] at this
      linarith

/-! ## the scattered Jacobian -/

theorem repeat_map {α β : Type*} (f : ℕ → α) (g : ℕ → List β) (c : ℕ → ℕ) (l : List ℕ)
    (h : ∀ k ∈ l, (g k).length = c k) :
    repeatL (l.map f) (l.map c) = l.flatMap fun k => (g k).map fun _ => f k := by
  induction l with
  | nil => rfl
  | cons a l ih =>
    rw [List.map_cons, List.map_cons, repeatL, List.zip_cons_cons, List.flatMap_cons, ← repeatL,
      ih fun k hk => h k (by simp [hk]), List.flatMap_cons, ← h a (by simp), List.map_const']

theorem trilIndices_zero (q : ℕ) : trilIndices q 0 true = lowerTri q 0 := by
  have := npTriu_eq q 0
  simp only [Nat.cast_zero] at this
  simp only [trilIndices, if_true, zero_mul, this, lowerTri, List.map_flatMap, List.map_map]
  rfl

theorem ordJacRvs_at (y : ℕ → ℝ) (p r : ℕ) :
    ordJacRvs q y p r = if r ≤ p ∧ p < q then (if r = 0 then 1 else exp (y r)) else 0 := by
  have e : repeatL (1 :: (List.range' 1 (q - 1)).map fun i => exp (y i))
      ((List.range q).map fun k => q - k) =
      (lowerTri q 0).map fun c => if c.2 = 0 then 1 else exp (y c.2) := by
    cases q with
    | zero => rfl
    | succ q =>
      have e1 : (1 :: (List.range' 1 (q + 1 - 1)).map fun i => exp (y i)) =
          (List.range (q + 1)).map fun c => if c = 0 then 1 else exp (y c) := by
        rw [List.range_succ_eq_map, List.map_cons, List.map_map, Nat.add_sub_cancel,
          List.range'_eq_map_range, List.map_map]
        simp [Function.comp_def, Nat.add_comm]
      rw [e1, repeat_map _ (fun s => (List.range' (s + 0) (q + 1 - (s + 0))).map fun r => (r, s)) _ _
        (fun k _ => by simp)]
      rw [lowerTri, List.map_flatMap]
      simp only [List.map_map]
      rfl
  simp only [ordJacRvs, trilIndices_zero]
  rw [e, scatter2_map]
  refine if_congr ?_ rfl rfl
  simp only [lowerTri, List.mem_flatMap, List.mem_range, List.mem_map, List.mem_range'_1,
    Prod.mk.injEq]
  constructor
  · rintro ⟨a, ha, b, hb, rfl, rfl⟩; omega
  · intro h; exact ⟨r, by omega, p, by omega, rfl, rfl⟩

/-- C78: `_jac_rvs` (scattered with repeated values) is the Jacobian of `_rvs`. -/
theorem C78_ord_jac_rvs (y : ℕ → ℝ) : IsJac q q (ordRvs q) (ordJacRvs q y) y := by
  intro Y y' hY h0 p hp'
  simp only [fun t => ordRvs_eq (Y t) hp']
  have h := (hY 0 (by omega)).fun_add (HasDerivAt.fun_sum (u := Finset.range p)
    (A := fun l t => exp (Y t (l + 1))) (A' := fun l => exp (y (l + 1)) * y' (l + 1)) (x := 0)
    fun l hl => by
      have := (hY (l + 1) (by have := Finset.mem_range.1 hl; omega)).exp
      rwa [h0] at this)
  refine h.congr_deriv ?_
  rw [dotN_sub (B := Finset.range (p + 1))]
  · rw [Finset.sum_range_succ', add_comm]
    congr 1
    · refine Finset.sum_congr rfl fun l hl => ?_
      rw [ordJacRvs_at, if_pos ⟨by have := Finset.mem_range.1 hl; omega, hp'⟩, if_neg (by omega)]
    · rw [ordJacRvs_at, if_pos ⟨by omega, hp'⟩, if_pos rfl, one_mul]
  · intro a ha; simp at ha ⊢; omega
  · intro a _ ha
    rw [ordJacRvs_at, if_neg]
    simp at ha; omega

theorem hessRvs_row (z : ℕ → ℝ) (i : ℕ) (l : List ℕ) (H : ℕ → ℕ → ℕ → ℝ) (a b c : ℕ) :
    l.foldl (fun H j => put3 H i j j (z j)) H a b c =
      if a = i ∧ b = c ∧ b ∈ l then z b else H a b c := by
  induction l generalizing H with
  | nil => simp
  | cons j l ih =>
    rw [List.foldl_cons, ih]
    simp only [put3, List.mem_cons]
    by_cases h : a = i ∧ b = c ∧ b ∈ l
    · rw [if_pos h, if_pos ⟨h.1, h.2.1, Or.inr h.2.2⟩]
    · rw [if_neg h]
      by_cases h2 : a = i ∧ b = j ∧ c = j
      · rw [if_pos h2, if_pos ⟨h2.1, h2.2.1.trans h2.2.2.symm, Or.inl h2.2.1⟩, h2.2.1]
      · rw [if_neg h2, if_neg]
        rintro ⟨h3, h4, h5 | h5⟩
        · exact h2 ⟨h3, h5, h4 ▸ h5⟩
        · exact h ⟨h3, h4, h5⟩

theorem ordHessRvs_at (y : ℕ → ℝ) (a b c : ℕ) : ordHessRvs q y a b c =
    if a < q ∧ b = c ∧ 1 ≤ b ∧ b ≤ a then exp (y b) else 0 := by
  unfold ordHessRvs
  have key : ∀ (l : List ℕ) (H : ℕ → ℕ → ℕ → ℝ), (l.foldl (fun H i =>
      (List.range' 1 i).foldl (fun H j => put3 H i j j (exp (y j))) H) H) a b c =
      if a ∈ l ∧ b = c ∧ 1 ≤ b ∧ b ≤ a then exp (y b) else H a b c := by
    intro l
    induction l with
    | nil => simp
    | cons i l ih =>
      intro H
      rw [List.foldl_cons, ih, hessRvs_row]
      simp only [List.mem_range'_1, List.mem_cons]
      by_cases h1 : a ∈ l ∧ b = c ∧ 1 ≤ b ∧ b ≤ a
      · rw [if_pos h1, if_pos ⟨Or.inr h1.1, h1.2⟩]
      · rw [if_neg h1]
        refine if_congr ?_ rfl rfl
        constructor
        · rintro ⟨rfl, h2, h3⟩; exact ⟨Or.inl rfl, h2, by omega⟩
        · rintro ⟨rfl | h2, h3⟩
          · exact ⟨rfl, h3.1, by omega⟩
          · exact absurd ⟨h2, h3⟩ h1
  rw [key]
  refine if_congr ?_ rfl rfl
  rw [List.mem_range'_1]
  constructor <;> (rintro ⟨h1, h2, h3⟩; exact ⟨by omega, h2, h3⟩)

/-- C78: `_hess_rvs` is the derivative of `_jac_rvs`. -/
theorem C78_ord_hess_rvs (y : ℕ → ℝ) : IsHess q q (ordJacRvs q) (ordHessRvs q y) y := by
  intro Y y' hY h0 r hr p hp'
  simp only [fun t => ordJacRvs_at (q := q) (Y t) p r]
  by_cases h : r ≤ p ∧ p < q
  · by_cases hr0 : r = 0
    · simp only [h, hr0, if_true, zero_le, and_self]
      refine (hasDerivAt_const _ _).congr_deriv ?_
      symm
      refine Finset.sum_eq_zero fun k _ => ?_
      rw [ordHessRvs_at, if_neg (by omega), zero_mul]
    · simp only [h, hr0, if_true, if_false, and_self]
      refine (hY r hr).exp.congr_deriv ?_
      rw [h0, dotN_sub (B := {r})]
      · rw [Finset.sum_singleton, ordHessRvs_at, if_pos ⟨hp', rfl, by omega, h.1⟩]
      · simpa using hr
      · intro k _ hk
        rw [ordHessRvs_at, if_neg, ]
        rintro ⟨_, rfl, _⟩; simp at hk
  · simp only [h, if_false]
    refine (hasDerivAt_const _ _).congr_deriv ?_
    symm
    refine Finset.sum_eq_zero fun k _ => ?_
    rw [ordHessRvs_at, if_neg (by omega), zero_mul]

theorem ordJacFwd_at (x : ℕ → ℝ) (p r : ℕ) : ordJacFwd q x p r =
    if 1 ≤ p ∧ p < q then (if r = p then 1 / (x p - x (p - 1)) else
      if r = p - 1 then -1 / (x p - x (p - 1)) else 0) else if p = 0 ∧ r = 0 then 1 else 0 := by
  have e : ∀ (a : ℕ → ℕ → ℝ) (g : ℕ → ℕ × ℕ) (v : ℕ → ℝ), (∀ i, (g i).1 = i) →
      scatter2 a ((List.range' 1 (q - 1)).map g) ((List.range' 1 (q - 1)).map v) p r =
      if 1 ≤ p ∧ p < q ∧ (g p).2 = r then v p else a p r := by
    intro a g v hg
    have e2 : (List.range' 1 (q - 1)).map v = ((List.range' 1 (q - 1)).map g).map fun z => v z.1 := by
      rw [List.map_map]; exact List.map_congr_left fun i _ => by simp [hg]
    rw [e2, scatter2_map]
    refine if_congr ?_ rfl rfl
    simp only [List.mem_map, List.mem_range'_1]
    constructor
    · rintro ⟨i, hi, hg'⟩
      have : i = p := by rw [← hg i, hg']
      subst this
      exact ⟨hi.1, by omega, by rw [hg']⟩
    · rintro ⟨h1, h2, h3⟩
      exact ⟨p, by omega, Prod.ext (hg p) h3⟩
  simp only [ordJacFwd]
  rw [e _ _ _ fun _ => rfl, e _ _ _ fun _ => rfl]
  simp only [scatter2, List.zip_cons_cons, List.zip_nil_right, List.foldl_cons, List.foldl_nil,
    Prod.mk.injEq]
  by_cases h : 1 ≤ p ∧ p < q
  · by_cases h1 : r = p
    · subst h1
      rw [if_neg (by omega), if_pos ⟨h.1, h.2, rfl⟩, if_pos h, if_pos rfl]
    · by_cases h2 : r = p - 1
      · rw [if_pos ⟨h.1, h.2, h2.symm⟩, if_pos h, if_neg h1, if_pos h2]
      · rw [if_neg (by omega), if_neg (by omega), if_neg (by omega), if_pos h, if_neg h1, if_neg h2]
  · rw [if_neg (by omega), if_neg (by omega), if_neg h]

/-- Two-term gradients. -/
theorem dotN_two {p : ℕ} {g : ℕ → ℝ} {c d : ℝ} (h1 : 1 ≤ p) (hp' : p < q)
    (hg : ∀ r, g r = if r = p then c else if r = p - 1 then d else 0) (v : ℕ → ℝ) :
    dotN q g v = c * v p + d * v (p - 1) := by
  rw [dotN_sub (B := {p, p - 1})]
  · rw [Finset.sum_pair (by omega), hg, hg, if_pos rfl, if_neg (by omega), if_pos rfl]
  · intro a ha; simp at ha ⊢; omega
  · intro a _ ha
    simp at ha
    rw [hg, if_neg ha.1, if_neg ha.2]

/-- C78: `_jac_fwd` is the Jacobian of `_fwd` at increasing sequences. -/
theorem C78_ord_jac_fwd (x : ℕ → ℝ) (hx : Incr q x) : IsJac q q (ordFwd q) (ordJacFwd q x) x := by
  intro X x' hX h0 p hp'
  by_cases h : 1 ≤ p ∧ p < q
  · simp only [ordFwd, h, and_self, if_true]
    have hd := hx p h.1 h.2
    have := ((hX p hp').fun_sub (hX (p - 1) (by omega))).log (by rw [h0]; linarith)
    refine this.congr_deriv ?_
    rw [dotN_two h.1 h.2 (fun r => by rw [ordJacFwd_at, if_pos h]), h0]
    have : x p - x (p - 1) ≠ 0 := by linarith
    field_simp
    ring
  · simp only [ordFwd, h, if_false]
    refine (hX p hp').congr_deriv ?_
    rw [diagJac_dot (c := 1) hp', one_mul]
    intro r
    rw [ordJacFwd_at, if_neg h]
    refine if_congr ?_ rfl rfl
    omega

/-- A loop whose step `i` only writes slab `i`, and reads only slab `i`. -/
theorem foldl_slab {α : Type*} (step : (ℕ → α) → ℕ → ℕ → α)
    (h1 : ∀ H i p, p ≠ i → step H i p = H p) (h2 : ∀ H H' i, H i = H' i → step H i i = step H' i i)
    (l : List ℕ) (hl : l.Nodup) (H : ℕ → α) (p : ℕ) :
    l.foldl step H p = if p ∈ l then step H p p else H p := by
  induction l generalizing H with
  | nil => simp
  | cons i l ih =>
    rw [List.nodup_cons] at hl
    rw [List.foldl_cons, ih hl.2]
    by_cases h : p = i
    · subst h
      rw [if_neg hl.1, if_pos (by simp)]
    · rw [h1 _ _ _ h]
      by_cases hp' : p ∈ l
      · rw [if_pos hp', if_pos (by simp [hp']), h2 _ H _ (h1 _ _ _ h)]
      · rw [if_neg hp', if_neg (by simp [h, hp'])]

theorem ordHessFwd_at (x : ℕ → ℝ) (p r s : ℕ) : ordHessFwd q x p r s =
    if 1 ≤ p ∧ p < q then
      (if r = p then (if s = p then -1 / (x p - x (p - 1)) ^ 2 else
          if s = p - 1 then 1 / (x p - x (p - 1)) ^ 2 else 0)
        else if r = p - 1 then (if s = p then 1 / (x p - x (p - 1)) ^ 2 else
          if s = p - 1 then -1 / (x p - x (p - 1)) ^ 2 else 0) else 0) else 0 := by
  unfold ordHessFwd
  have := foldl_slab (ordHessStep x)
    (fun H i p hp' => by funext a b; simp [ordHessStep, put3, hp'])
    (fun H H' i h => by
      have h' : ∀ a b, H i a b = H' i a b := fun a b => by rw [h]
      funext a b; simp only [ordHessStep, put3, h'])
    (List.range' 1 (q - 1)) List.nodup_range' (fun _ _ _ => 0) p
  rw [this]
  by_cases h : 1 ≤ p ∧ p < q
  · rw [if_pos (by rw [List.mem_range'_1]; omega), if_pos h]
    have e1 : p ≠ p - 1 := by omega
    have e2 : p - 1 ≠ p := by omega
    simp only [ordHessStep, put3, true_and]
    by_cases hr : r = p
    · by_cases hs : s = p
      · simp [hr, hs, e1]
      · by_cases hs' : s = p - 1
        · simp [hr, hs', e1, e2]
        · simp [hr, hs, hs']
    · by_cases hr' : r = p - 1
      · by_cases hs : s = p
        · simp [hr', hs, e1, e2]
        · by_cases hs' : s = p - 1
          · simp [hr', hs', e1, e2]
          · simp [hr', hs, hs']
      · simp [hr, hr']
  · rw [if_neg (by rw [List.mem_range'_1]; omega), if_neg h]

/-- C78: `_hess_fwd` is the derivative of `_jac_fwd` at increasing sequences. -/
theorem C78_ord_hess_fwd (x : ℕ → ℝ) (hx : Incr q x) :
    IsHess q q (ordJacFwd q) (ordHessFwd q x) x := by
  intro X x' hX h0 r hr p hp'
  simp only [fun t => ordJacFwd_at (q := q) (X t) p r]
  by_cases h : 1 ≤ p ∧ p < q
  · have hd := hx p h.1 h.2
    have hne : x p - x (p - 1) ≠ 0 := by linarith
    have hD := (hX p hp').fun_sub (hX (p - 1) (by omega))
    by_cases hr1 : r = p
    · subst hr1
      simp only [h, and_self, if_true]
      refine ((hasDerivAt_const (0 : ℝ) (1 : ℝ)).fun_div hD (by rw [h0]; exact hne)).congr_deriv ?_
      rw [dotN_two h.1 h.2 (fun s => by rw [ordHessFwd_at, if_pos h, if_pos rfl]), h0]
      field_simp; ring
    · by_cases hr2 : r = p - 1
      · simp only [h, hr1, hr2, and_self, if_true, if_false, show p - 1 ≠ p by omega]
        refine ((hasDerivAt_const (0 : ℝ) (-1 : ℝ)).fun_div hD (by rw [h0]; exact hne)).congr_deriv ?_
        rw [dotN_two h.1 h.2 (fun s => by
          rw [ordHessFwd_at, if_pos h, if_neg (by omega), if_pos rfl]), h0]
        field_simp; ring
      · simp only [h, hr1, hr2, and_self, if_true, if_false]
        refine (hasDerivAt_const _ _).congr_deriv ?_
        symm
        refine Finset.sum_eq_zero fun s _ => ?_
        rw [ordHessFwd_at, if_pos h, if_neg hr1, if_neg hr2, zero_mul]
  · simp only [h, if_false]
    refine (hasDerivAt_const _ _).congr_deriv ?_
    symm
    refine Finset.sum_eq_zero fun s _ => ?_
    rw [ordHessFwd_at, if_neg h, zero_mul]

/-! ## elementwise transforms -/

variable {n : ℕ}

theorem elem_jac {f g : ℝ → ℝ} {x : ℕ → ℝ} (h : ∀ k, k < n → HasDerivAt f (g (x k)) (x k)) :
    IsJac n n (fun x k => f (x k)) (npDiag n fun k => g (x k)) x := by
  intro X x' hX h0 p hp'
  have h1 : HasDerivAt f (g (x p)) (X 0 p) := by rw [h0]; exact h p hp'
  refine (h1.comp 0 (hX p hp')).congr_deriv ?_
  beta_reduce
  rw [diagJac_dot (c := g (x p)) hp']
  intro r
  simp only [npDiag, hp', and_true, eq_comm (a := p)]

theorem elem_hess {g w : ℝ → ℝ} {x : ℕ → ℝ} (h : ∀ k, k < n → HasDerivAt g (w (x k)) (x k)) :
    IsHess n n (fun x => npDiag n fun k => g (x k)) (hessDiag n fun k => w (x k)) x := by
  intro X x' hX h0 r hr p hp'
  beta_reduce
  rw [hessDiag, put3s_dot hp']
  simp only [npDiag, List.mem_range, hp', and_true, true_and]
  by_cases hrp : r = p
  · subst hrp
    simp only [if_true]
    have h1 : HasDerivAt g (w (x r)) (X 0 r) := by rw [h0]; exact h r hr
    exact h1.comp 0 (hX r hr)
  · rw [if_neg hrp]
    simp only [show p ≠ r from fun c => hrp c.symm, if_false]
    exact hasDerivAt_const _ _

/-- C78: `LogTransform`: inverses, Jacobians and Hessians. -/
theorem C78_log (x : ℕ → ℝ) :
    (∀ k, logFwd (logRvs x) k = x k) ∧ (∀ k, 0 < logRvs x k) ∧
    IsJac n n logRvs (logJacRvs n x) x ∧ IsHess n n (logJacRvs n) (logHessRvs n x) x ∧
    ((∀ k, k < n → 0 < x k) → (∀ k, k < n → logRvs (logFwd x) k = x k) ∧
      IsJac n n logFwd (logJacFwd n x) x ∧ IsHess n n (logJacFwd n) (logHessFwd n x) x) := by
  refine ⟨fun k => log_exp _, fun k => exp_pos _, elem_jac fun k _ => hasDerivAt_exp _,
    elem_hess fun k _ => hasDerivAt_exp _, fun hx => ⟨fun k hk => exp_log (hx k hk),
    elem_jac (g := fun z => 1 / z) fun k hk => ?_,
    elem_hess (g := fun z => 1 / z) (w := fun z => -1 / z ^ 2) fun k hk => ?_⟩⟩
  · simpa using hasDerivAt_log (hx k hk).ne'
  · simpa [neg_div] using hasDerivAt_inv (hx k hk).ne'

theorem hasDerivAt_tanh' (x : ℝ) : HasDerivAt tanh (1 - tanh x ^ 2) x := by
  have h := (hasDerivAt_sinh x).fun_div (hasDerivAt_cosh x) (cosh_pos x).ne'
  have e : (fun y => sinh y / cosh y) = tanh := by funext y; rw [tanh_eq_sinh_div_cosh]
  rw [e] at h
  refine h.congr_deriv ?_
  rw [tanh_eq_sinh_div_cosh]
  have := (cosh_pos x).ne'
  field_simp

theorem hasDerivAt_artanh' {x : ℝ} (hx : x ^ 2 < 1) : HasDerivAt artanh (1 / (1 - x ^ 2)) x := by
  obtain ⟨h1, h2⟩ := sq_lt_one_mem hx
  have a : 1 + x ≠ 0 := by linarith
  have b : 1 - x ≠ 0 := by linarith
  have c : 1 - x ^ 2 ≠ 0 := by linarith
  have h := (((((hasDerivAt_id x).const_add 1).fun_div ((hasDerivAt_id x).const_sub 1) b).log
    (by simp [a, b])).const_mul (1 / 2 : ℝ))
  have h' : HasDerivAt artanh _ x := h.congr_of_eventuallyEq (by
    filter_upwards [Ioo_mem_nhds h1 h2] with z hz
    exact artanh_eq_half_log ⟨hz.1.le, hz.2.le⟩)
  refine h'.congr_deriv ?_
  simp only [id]
  have d : 1 - x ^ 2 = (1 + x) * (1 - x) := by ring
  rw [d]
  field_simp
  ring

/-- C78: `TanhTransform`: inverses, Jacobians and Hessians. -/
theorem C78_tanh (x : ℕ → ℝ) :
    (∀ k, tanhFwd (tanhRvs x) k = x k) ∧ (∀ k, tanhRvs x k ^ 2 < 1) ∧
    IsJac n n tanhRvs (tanhJacRvs n x) x ∧ IsHess n n (tanhJacRvs n) (tanhHessRvs n x) x ∧
    ((∀ k, k < n → x k ^ 2 < 1) → (∀ k, k < n → tanhRvs (tanhFwd x) k = x k) ∧
      IsJac n n tanhFwd (tanhJacFwd n x) x ∧ IsHess n n (tanhJacFwd n) (tanhHessFwd n x) x) := by
  refine ⟨fun k => artanh_tanh _, fun k => tanh_sq _,
    elem_jac (g := fun z => 1 - tanh z ^ 2) fun k _ => hasDerivAt_tanh' _,
    elem_hess (g := fun z => 1 - tanh z ^ 2) (w := fun z => -2 * tanh z * (1 - tanh z ^ 2))
      fun k _ => ?_, fun hx => ⟨fun k hk => tanh_artanh (sq_lt_one_mem (hx k hk)),
    elem_jac (g := fun z => 1 / (1 - z ^ 2)) fun k hk => hasDerivAt_artanh' (hx k hk),
    elem_hess (g := fun z => 1 / (1 - z ^ 2)) (w := fun z => 2 * z / (1 - z ^ 2) ^ 2) fun k hk => ?_⟩⟩
  · refine (((hasDerivAt_tanh' (x k)).fun_pow 2).const_sub 1).congr_deriv ?_
    simp
  · have := ((((hasDerivAt_id (x k)).fun_pow 2).const_sub 1).fun_inv
      (by have := hx k hk; simp; linarith))
    simp only [one_div]
    refine this.congr_deriv ?_
    simp

/-- C78: `IdentityTransform`. -/
theorem C78_id (x : ℕ → ℝ) :
    idFwd (idFwd x) = x ∧ IsJac n n idFwd (idJac n x) x ∧ IsHess n n (idJac n) (idHess x) x := by
  refine ⟨rfl, elem_jac (f := fun z => z) (g := fun _ => 1) fun k _ => hasDerivAt_id _, ?_⟩
  intro X x' hX h0 r hr p hp'
  refine (hasDerivAt_const _ _).congr_deriv ?_
  simp [idHess, dotN]

/-! ## the wrapper -/

/-- C79: on floating point input the wrapper returns the method's value, row by row. -/
theorem C79_float_partial (func : (ℕ → ℝ) → ℕ → ℝ) :
    (∀ x, apply1 .float func x = func x) ∧
    ∀ (r : ℕ) (x : ℕ → ℕ → ℝ), 0 < r → ∃ res, apply2 .float func r x = some res ∧
      ∀ i, i < r → res i = func (x i) := by
  refine ⟨fun x => rfl, fun r x hr => ⟨_, by rw [apply2, if_neg (by omega)], fun i hi => ?_⟩⟩
  have := foldl_slab (fun (res : ℕ → ℕ → ℝ) i => fun a k =>
      if a = i then DType.float.store (func (x i) k) else res a k)
    (fun H i p hp' => by funext k; simp [hp']) (fun H H' i h => by funext k; simp)
    (List.range r) List.nodup_range (fun _ _ => 0) i
  rw [this, if_pos (List.mem_range.2 hi)]
  funext k
  simp [DType.store]

/-- C79 (finding): on integer arrays the result is truncated to integers, so `LogTransform().fwd` of
`[2]` is `0` and the round trip returns `1`. -/
theorem C79_integer_violated :
    apply1 .int logFwd (fun _ => 2) 0 = 0 ∧ logFwd (fun _ => 2) 0 = log 2 ∧ log 2 ≠ 0 ∧
    apply1 .int logRvs (apply1 .int logFwd fun _ => 2) 0 = 1 := by
  have h1 : apply1 .int logFwd (fun _ => 2) = fun _ => 0 := by
    funext k
    have a : (0 : ℝ) ≤ log 2 := log_nonneg (by norm_num)
    have b : log (2 : ℝ) < 1 := by
      have := log_lt_sub_one_of_pos (x := 2) (by norm_num) (by norm_num); linarith
    change DType.int.store (log 2) = 0
    rw [DType.store, if_pos a, Int.floor_eq_zero_iff.2 ⟨a, b⟩, Int.cast_zero]
  refine ⟨by rw [h1], rfl, (log_pos (by norm_num)).ne', ?_⟩
  rw [h1]
  simp [apply1, DType.store, logRvs]

/-- The hypotheses of the ordered theorems hold for `0, 1, 2`. -/
example : Incr 3 fun i => (i : ℝ) := fun i h _ => by
  have : ((i - 1 : ℕ) : ℝ) + 1 = i := by exact_mod_cast Nat.sub_add_cancel h
  linarith

end Verif.Transf
