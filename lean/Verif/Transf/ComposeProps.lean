import Verif.Transf.ComposeLemmas
/-! # C44: composition and concatenation of transforms -/
namespace Verif.Transf

/-- The six methods read only the first `m` cells of their argument. -/
def Local (m : ℕ) (f : (ℕ → ℝ) → ℕ → ℝ) : Prop :=
  ∀ x y : ℕ → ℝ, (∀ k, k < m → x k = y k) → ∀ k, k < m → f x k = f y k

/-! ## composition -/

/-- C44: the composed forward map applies the head first, the composed reverse map applies it last. -/
theorem C44_order (t : Tr) (ts : List Tr) (x : ℕ → ℝ) :
    compFwd [] x = x ∧ compRvs [] x = x ∧ compFwd (t :: ts) x = compFwd ts (t.fwd x) ∧
      compRvs (t :: ts) x = t.rvs (compRvs ts x) := by
  refine ⟨rfl, rfl, rfl, ?_⟩
  simp [compRvs]

/-- C44: if every stage inverts its own image point then the composed reverse map inverts the
composed forward map. -/
theorem C44_inverse (m : ℕ) (ts : List Tr) (x : ℕ → ℝ)
    (hl : ∀ t ∈ ts, Local m t.rvs)
    (h : ∀ j (hj : j < ts.length), ∀ k, k < m →
      ts[j].rvs (ts[j].fwd (compFwd (ts.take j) x)) k = compFwd (ts.take j) x k) :
    ∀ k, k < m → compRvs ts (compFwd ts x) k = x k := by
  induction ts generalizing x with
  | nil => intro k _; rfl
  | cons t ts ih =>
    intro k hk
    rw [(C44_order t ts _).2.2.2, (C44_order t ts _).2.2.1]
    have e := ih (t.fwd x) (fun t ht => hl t (by simp [ht])) (fun j hj k hk => by
      have := h (j + 1) (by simpa using hj) k hk
      simpa [compFwd] using this)
    rw [hl t (by simp) _ _ e k hk]
    have := h 0 (by simp) k hk
    simp only [List.getElem_cons_zero, List.take_zero] at this
    exact this

theorem IsJac.id (m : ℕ) (x : ℕ → ℝ) : IsJac m m (fun x => x) eyeN x := by
  intro X x' hX _ k hk
  refine (hX k hk).congr_deriv ?_
  simp [dotN, eyeN, hk]

theorem IsJac.congr {m r : ℕ} {f : (ℕ → ℝ) → ℕ → ℝ} {J J' : ℕ → ℕ → ℝ} {x : ℕ → ℝ}
    (h : IsJac m r f J x) (e : ∀ k p, k < r → p < m → J k p = J' k p) : IsJac m r f J' x := by
  intro X x' hX h0 k hk
  refine (h X x' hX h0 k hk).congr_deriv ?_
  exact Finset.sum_congr rfl fun p hp => by rw [e k p hk (Finset.mem_range.1 hp)]

theorem IsHess.congr {m r : ℕ} {J J' : (ℕ → ℝ) → ℕ → ℕ → ℝ} {H : ℕ → ℕ → ℕ → ℝ} {x : ℕ → ℝ}
    (h : IsHess m r J H x) (e : ∀ x k p, k < r → p < m → J x k p = J' x k p) :
    IsHess m r J' H x := by
  intro X x' hX h0 p hp k hk
  exact (h X x' hX h0 p hp k hk).congr_of_eventuallyEq (.of_forall fun t => (e _ k p hk hp).symm)

/-- Stage Jacobians and Hessians at the points reached. -/
def stJx (ts : List Stage) (x : ℕ → ℝ) : ℕ → ℕ → ℕ → ℝ := fun j => (ts.getD j stD).2.1 (ptN ts x j)

def stHx (ts : List Stage) (x : ℕ → ℝ) : ℕ → ℕ → ℕ → ℕ → ℝ :=
  fun j => (ts.getD j stD).2.2 (ptN ts x j)

theorem stage_chain (m : ℕ) (ts : List Stage) (x : ℕ → ℝ)
    (hJ : ∀ j (hj : j < ts.length), IsJac m m ts[j].1 (ts[j].2.1 (ptN ts x j)) (ptN ts x j)) (j : ℕ)
    (hj : j < ts.length) : IsJac m m (fun x => ptN ts x (j + 1)) (cumJ m (stJx ts x) j) x ∧
      ((∀ j (hj : j < ts.length), IsHess m m ts[j].2.1 (ts[j].2.2 (ptN ts x j)) (ptN ts x j)) →
        IsHess m m (fun x => cumJ m (stJx ts x) j) (cumH m (stJx ts x) (stHx ts x) j) x) := by
  induction j with
  | zero =>
    have e0 : ∀ x, ptN ts x 0 = x := fun x => rfl
    have e1 : (fun x => ptN ts x 1) = ts[0].1 := by
      funext x; exact (ptN_succ ts x hj).trans (by rw [e0])
    have e2 : ∀ x, cumJ m (stJx ts x) 0 = ts[0].2.1 x := fun x => by
      simp [cumJ, stJx, e0, hj]
    have e3 : cumH m (stJx ts x) (stHx ts x) 0 = ts[0].2.2 x := by
      simp [cumH, stHx, e0, hj]
    refine ⟨?_, fun hH => ?_⟩
    · rw [zero_add, e1, e2]; exact hJ 0 hj
    · rw [e3]; simp only [e2]; exact hH 0 hj
  | succ j ih =>
    obtain ⟨i1, i2⟩ := ih (by omega)
    have e1 : (fun x => ptN ts x (j + 1 + 1)) = fun x => ts[j + 1].1 (ptN ts x (j + 1)) := by
      funext x; exact ptN_succ ts x hj
    have e2 : ∀ x, stJx ts x (j + 1) = ts[j + 1].2.1 (ptN ts x (j + 1)) := fun x => by
      simp [stJx, hj]
    have e3 : stHx ts x (j + 1) = ts[j + 1].2.2 (ptN ts x (j + 1)) := by simp [stHx, hj]
    refine ⟨?_, fun hH => ?_⟩
    · rw [e1, cumJ, e2]
      exact i1.comp (hJ (j + 1) hj)
    · simp only [cumJ, cumH, e2, e3]
      exact IsHess.comp (f := fun x => ptN ts x (j + 1)) (Jf := fun x => cumJ m (stJx ts x) j)
        i1 (i2 hH) (hH (j + 1) hj)

theorem cumJ_stJ (m : ℕ) (ts : List Stage) (x : ℕ → ℝ) (j : ℕ) (hj : j < ts.length) (k p : ℕ)
    (hp : p < m) : cumJ m (stJx ts x) j k p = stJ m (ts.take (j + 1)) x k p := by
  induction j generalizing k p with
  | zero =>
    rw [List.take_succ_eq_append_getElem hj, stJ_snoc]
    simp [cumJ, stJx, ptN, mulN, stJ, eyeN, hj, hp]
  | succ j ih =>
    rw [List.take_succ_eq_append_getElem hj, stJ_snoc, cumJ]
    have e2 : stJx ts x (j + 1) = ts[j + 1].2.1 (stF (ts.take (j + 1)) x) := by
      simp [stJx, hj, ptN]
    rw [e2]
    unfold mulN
    exact Finset.sum_congr rfl fun q _ => by rw [ih (by omega) q p hp]

theorem stage_jac (m : ℕ) (ts : List Stage) (x : ℕ → ℝ)
    (hJ : ∀ j (hj : j < ts.length), IsJac m m ts[j].1 (ts[j].2.1 (ptN ts x j)) (ptN ts x j)) :
    IsJac m m (stF ts) (stJ m ts x) x := by
  by_cases h : ts.length = 0
  · rw [List.length_eq_zero_iff.1 h]
    exact IsJac.id m x
  · have h1 := (stage_chain m ts x hJ (ts.length - 1) (by omega)).1
    have e : (fun x => ptN ts x (ts.length - 1 + 1)) = stF ts := by
      funext x
      rw [ptN, show ts.length - 1 + 1 = ts.length by omega, List.take_length]
    rw [e] at h1
    refine h1.congr fun k p _ hp => ?_
    rw [cumJ_stJ m ts x _ (by omega) k p hp, show ts.length - 1 + 1 = ts.length by omega,
      List.take_length]

theorem stage_hess (m : ℕ) (ts : List Stage) (x : ℕ → ℝ) (h : ts ≠ [])
    (hJ : ∀ j (hj : j < ts.length), IsJac m m ts[j].1 (ts[j].2.1 (ptN ts x j)) (ptN ts x j))
    (hH : ∀ j (hj : j < ts.length), IsHess m m ts[j].2.1 (ts[j].2.2 (ptN ts x j)) (ptN ts x j)) :
    ∃ H, compHess m ts x = some H ∧ IsHess m m (stJ m ts) H x := by
  have hl : 0 < ts.length := List.length_pos_iff.2 h
  refine ⟨_, compHess_eq m ts x hl, ?_⟩
  refine IsHess.congr ((stage_chain m ts x hJ (ts.length - 1) (by omega)).2 hH) fun x k p _ hp => ?_
  rw [cumJ_stJ m ts x _ (by omega) k p hp, show ts.length - 1 + 1 = ts.length by omega,
    List.take_length]

theorem stF_map (ts : List Tr) (g : Tr → Stage) (x : ℕ → ℝ) :
    stF (ts.map g) x = ts.foldl (fun x t => (g t).1 x) x := by
  simp [stF, List.foldl_map]

/-- C44: the composed forward Jacobian is the Jacobian of the composed forward map, provided each
stage's is at the point where it is evaluated. -/
theorem C44_jac_fwd (m : ℕ) (ts : List Tr) (x : ℕ → ℝ)
    (hJ : ∀ j (hj : j < ts.length), IsJac m m ts[j].fwd
      (ts[j].jacF (compFwd (ts.take j) x)) (compFwd (ts.take j) x)) :
    IsJac m m (compFwd ts) (compJacFwd m ts x) x := by
  have := stage_jac m (ts.map fun t => (t.fwd, t.jacF, t.hessF)) x (fun j hj => by
    simp only [List.getElem_map, ptN, ← List.map_take, stF_map]
    exact hJ j (by simpa using hj))
  have e : stF (ts.map fun t => (t.fwd, t.jacF, t.hessF)) = compFwd ts := by
    funext x; rw [stF_map]; rfl
  rw [e] at this
  have e2 : stJ m (ts.map fun t => (t.fwd, t.jacF, t.hessF)) x = compJacFwd m ts x := by
    simp [stJ, compJacFwd, List.foldl_map]
  rwa [e2] at this

/-- C44: the composed reverse Jacobian is the Jacobian of the composed reverse map. The stages are
listed in the order of application, that is `ts.reverse`. -/
theorem C44_jac_rvs (m : ℕ) (ts : List Tr) (y : ℕ → ℝ)
    (hJ : ∀ j (hj : j < ts.reverse.length), IsJac m m ts.reverse[j].rvs
      (ts.reverse[j].jacR ((ts.reverse.take j).foldl (fun y t => t.rvs y) y))
      ((ts.reverse.take j).foldl (fun y t => t.rvs y) y)) :
    IsJac m m (compRvs ts) (compJacRvs m ts y) y := by
  have := stage_jac m (ts.reverse.map fun t => (t.rvs, t.jacR, t.hessR)) y (fun j hj => by
    simp only [List.getElem_map, ptN, ← List.map_take, stF_map]
    exact hJ j (by simpa using hj))
  have e : stF (ts.reverse.map fun t => (t.rvs, t.jacR, t.hessR)) = compRvs ts := by
    funext x; rw [stF_map]; rfl
  rw [e] at this
  have e2 : stJ m (ts.reverse.map fun t => (t.rvs, t.jacR, t.hessR)) y = compJacRvs m ts y := by
    simp only [stJ, compJacRvs, List.foldl_map]
  rwa [e2] at this

/-- C44: the composed forward Hessian is the second derivative for every non-empty list. -/
theorem C44_hess_fwd (m : ℕ) (ts : List Tr) (x : ℕ → ℝ) (h : ts ≠ [])
    (hJ : ∀ j (hj : j < ts.length), IsJac m m ts[j].fwd
      (ts[j].jacF (compFwd (ts.take j) x)) (compFwd (ts.take j) x))
    (hH : ∀ j (hj : j < ts.length), IsHess m m ts[j].jacF
      (ts[j].hessF (compFwd (ts.take j) x)) (compFwd (ts.take j) x)) :
    ∃ H, compHessFwd m ts x = some H ∧ IsHess m m (compJacFwd m ts) H x := by
  obtain ⟨H, e, hh⟩ := stage_hess m (ts.map fun t => (t.fwd, t.jacF, t.hessF)) x (by simpa using h)
    (fun j hj => by
      simp only [List.getElem_map, ptN, ← List.map_take, stF_map]
      exact hJ j (by simpa using hj))
    (fun j hj => by
      simp only [List.getElem_map, ptN, ← List.map_take, stF_map]
      exact hH j (by simpa using hj))
  refine ⟨H, e, hh.congr fun x k p _ _ => ?_⟩
  simp [stJ, compJacFwd, List.foldl_map]

/-- C44: the composed reverse Hessian is the second derivative for every non-empty list. -/
theorem C44_hess_rvs (m : ℕ) (ts : List Tr) (y : ℕ → ℝ) (h : ts ≠ [])
    (hJ : ∀ j (hj : j < ts.reverse.length), IsJac m m ts.reverse[j].rvs
      (ts.reverse[j].jacR ((ts.reverse.take j).foldl (fun y t => t.rvs y) y))
      ((ts.reverse.take j).foldl (fun y t => t.rvs y) y))
    (hH : ∀ j (hj : j < ts.reverse.length), IsHess m m ts.reverse[j].jacR
      (ts.reverse[j].hessR ((ts.reverse.take j).foldl (fun y t => t.rvs y) y))
      ((ts.reverse.take j).foldl (fun y t => t.rvs y) y)) :
    ∃ H, compHessRvs m ts y = some H ∧ IsHess m m (compJacRvs m ts) H y := by
  obtain ⟨H, e, hh⟩ := stage_hess m (ts.reverse.map fun t => (t.rvs, t.jacR, t.hessR)) y
    (by simpa using h)
    (fun j hj => by
      simp only [List.getElem_map, ptN, ← List.map_take, stF_map]
      exact hJ j (by simpa using hj))
    (fun j hj => by
      simp only [List.getElem_map, ptN, ← List.map_take, stF_map]
      exact hH j (by simpa using hj))
  refine ⟨H, e, hh.congr fun x k p _ _ => ?_⟩
  simp only [stJ, compJacRvs, List.foldl_map]

/-- C44 (finding): on the empty list the Hessian methods raise although forward map and Jacobian are
those of the identity. -/
theorem C44_empty_violated (m : ℕ) (x : ℕ → ℝ) :
    compFwd [] x = x ∧ compJacFwd m [] x = eyeN ∧ compHessFwd m [] x = none :=
  ⟨rfl, rfl, compHess_nil m x⟩

/-! ## concatenation -/

/-- Ranges in increasing order inside `[prev, m)`. -/
def Sorted (m : ℕ) : List ((ℕ × ℕ) × Tr) → ℕ → Prop
  | [], prev => prev ≤ m
  | b :: l, prev => prev ≤ b.1.1 ∧ b.1.1 ≤ b.1.2 ∧ Sorted m l b.1.2

/-- Position `p` belongs to block `b`. -/
def InB (b : (ℕ × ℕ) × Tr) (p : ℕ) : Prop := b.1.1 ≤ p ∧ p < b.1.2

theorem Sorted.ge {m : ℕ} {l : List ((ℕ × ℕ) × Tr)} {prev : ℕ} (h : Sorted m l prev) :
    prev ≤ m ∧ ∀ b ∈ l, prev ≤ b.1.1 ∧ b.1.1 ≤ b.1.2 ∧ b.1.2 ≤ m := by
  induction l generalizing prev with
  | nil => exact ⟨h, by simp⟩
  | cons a l ih =>
    obtain ⟨h1, h2, h3⟩ := h
    obtain ⟨i1, i2⟩ := ih h3
    refine ⟨by omega, fun b hb => ?_⟩
    rcases List.mem_cons.1 hb with rfl | hb
    · exact ⟨h1, h2, i1⟩
    · have := i2 b hb; omega

theorem Sorted.disjoint {m : ℕ} {l : List ((ℕ × ℕ) × Tr)} {prev : ℕ} (h : Sorted m l prev) :
    l.Pairwise fun a b => ∀ p, InB a p → ¬ InB b p := by
  induction l generalizing prev with
  | nil => exact List.Pairwise.nil
  | cons a l ih =>
    refine List.Pairwise.cons (fun b hb p h1 h2 => ?_) (ih h.2.2)
    have := h.2.2.ge.2 b hb
    unfold InB at h1 h2
    omega

theorem comb_loop {m : ℕ} (f : Tr → (ℕ → ℝ) → ℕ → ℝ) (x : ℕ → ℝ) (l : List ((ℕ × ℕ) × Tr))
    (r : ℕ → ℝ) (prev : ℕ) (h : Sorted m l prev) (p : ℕ) (hp : p < m) :
    let res := combFinish m x (l.foldl (combStep f x) (r, prev))
    (p < prev → res p = r p) ∧
      (∀ b ∈ l, InB b p → res p = f b.2 (sliceN x b.1.1) (p - b.1.1)) ∧
      (prev ≤ p → (∀ b ∈ l, ¬ InB b p) → res p = x p) := by
  induction l generalizing r prev with
  | nil =>
    change (p < prev → combFinish m x (r, prev) p = r p) ∧ _ ∧
      (prev ≤ p → _ → combFinish m x (r, prev) p = x p)
    unfold combFinish
    refine ⟨fun h1 => ?_, by simp, fun h1 _ => ?_⟩
    · split_ifs
      · simp [assign1, show ¬ prev ≤ p by omega]
      · rfl
    · rw [if_pos (show prev < m by omega)]
      simp [assign1, h1, hp, sliceN]
  | cons a l ih =>
    obtain ⟨h1, h2, h3⟩ := h
    have hge := h3.ge.2
    rw [List.foldl_cons]
    obtain ⟨i1, i2, i3⟩ := ih
      (assign1 (if prev < a.1.1 then assign1 r prev a.1.1 (sliceN x prev) else r) a.1.1 a.1.2
        (f a.2 (sliceN x a.1.1))) a.1.2 h3
    refine ⟨fun h4 => ?_, fun b hb hbp => ?_, fun h4 h5 => ?_⟩
    · refine (i1 (by omega)).trans ?_
      rw [assign1, if_neg (by omega)]
      split_ifs
      · rw [assign1, if_neg (by omega)]
      · rfl
    · rcases List.mem_cons.1 hb with rfl | hb
      · refine (i1 hbp.2).trans ?_
        rw [assign1, if_pos (show b.1.1 ≤ p ∧ p < b.1.2 from hbp)]
      · exact i2 b hb hbp
    · have h6 := h5 a (by simp)
      unfold InB at h6
      by_cases h7 : p < a.1.2
      · refine (i1 h7).trans ?_
        rw [assign1, if_neg (by omega), if_pos (by omega), assign1, if_pos (by omega)]
        simp [sliceN, h4]
      · exact i3 (by omega) fun b hb => h5 b (by simp [hb])

/-- C44: with ranges in increasing order each concatenated transform acts on its own slice and the
remaining cells are copied. -/
theorem C44_concat (m : ℕ) (f : Tr → (ℕ → ℝ) → ℕ → ℝ) (rts : List ((ℕ × ℕ) × Tr)) (x : ℕ → ℝ)
    (h : Sorted m rts 0) (p : ℕ) (hp : p < m) :
    (∀ b ∈ rts, InB b p → combApply m f rts x p = f b.2 (sliceN x b.1.1) (p - b.1.1)) ∧
      ((∀ b ∈ rts, ¬ InB b p) → combApply m f rts x p = x p) :=
  ⟨(comb_loop f x rts _ 0 h p hp).2.1, (comb_loop f x rts _ 0 h p hp).2.2 (Nat.zero_le _)⟩

/-- C44: on sorted ranges the concatenated reverse map inverts the concatenated forward map as soon
as each transform does on its slice. -/
theorem C44_concat_inverse (m : ℕ) (rts : List ((ℕ × ℕ) × Tr)) (x : ℕ → ℝ) (h : Sorted m rts 0)
    (hl : ∀ b ∈ rts, Local (b.1.2 - b.1.1) b.2.rvs)
    (hi : ∀ b ∈ rts, ∀ k, k < b.1.2 - b.1.1 →
      b.2.rvs (b.2.fwd (sliceN x b.1.1)) k = sliceN x b.1.1 k) (p : ℕ) (hp : p < m) :
    combApply m Tr.rvs rts (combApply m Tr.fwd rts x) p = x p := by
  by_cases hb : ∃ b ∈ rts, InB b p
  · obtain ⟨b, hb, hbp⟩ := hb
    have hge := h.ge.2 b hb
    rw [(C44_concat m _ rts _ h p hp).1 b hb hbp]
    rw [hl b hb _ (b.2.fwd (sliceN x b.1.1)) (fun k hk => by
      rw [sliceN, (C44_concat m _ rts _ h _ (by omega)).1 b hb ⟨by omega, by omega⟩,
        Nat.add_sub_cancel_left]) _ (by unfold InB at hbp; omega)]
    rw [hi b hb _ (by unfold InB at hbp; omega), sliceN, Nat.add_sub_cancel' hbp.1]
  · push Not at hb
    rw [(C44_concat m _ rts _ h p hp).2 hb, (C44_concat m _ rts _ h p hp).2 hb]

theorem combJac_none (f : Tr → (ℕ → ℝ) → ℕ → ℕ → ℝ) (l : List ((ℕ × ℕ) × Tr)) (x : ℕ → ℝ)
    (r : ℕ → ℕ → ℝ) (p q : ℕ) (h : ∀ b ∈ l, ¬ InB b p) :
    l.foldl (fun r p => assign2 r p.1.1 p.1.2 (f p.2 (sliceN x p.1.1))) r p q = r p q := by
  induction l generalizing r with
  | nil => rfl
  | cons a l ih =>
    rw [List.foldl_cons, ih _ fun b hb => h b (by simp [hb])]
    rw [assign2, if_neg]
    exact fun c => h a (by simp) ⟨c.1, c.2.1⟩

theorem combJac_block (f : Tr → (ℕ → ℝ) → ℕ → ℕ → ℝ) (l : List ((ℕ × ℕ) × Tr)) (x : ℕ → ℝ)
    (r : ℕ → ℕ → ℝ) (p q : ℕ) (hd : l.Pairwise fun a b => ∀ p, InB a p → ¬ InB b p)
    (b : (ℕ × ℕ) × Tr) (hb : b ∈ l) (hp : InB b p) :
    (InB b q → l.foldl (fun r p => assign2 r p.1.1 p.1.2 (f p.2 (sliceN x p.1.1))) r p q =
      f b.2 (sliceN x b.1.1) (p - b.1.1) (q - b.1.1)) ∧
    (¬ InB b q → l.foldl (fun r p => assign2 r p.1.1 p.1.2 (f p.2 (sliceN x p.1.1))) r p q =
      r p q) := by
  induction l generalizing r with
  | nil => simp at hb
  | cons a l ih =>
    rw [List.pairwise_cons] at hd
    rw [List.foldl_cons]
    rcases List.mem_cons.1 hb with rfl | hb
    · have := fun r => combJac_none f l x r p q fun c hc => hd.1 c hc p hp
      rw [this]
      unfold assign2
      unfold InB at hp ⊢
      constructor
      · intro hq; rw [if_pos ⟨hp.1, hp.2, hq⟩]
      · intro hq; rw [if_neg fun c => hq c.2.2]
    · obtain ⟨i1, i2⟩ := ih (assign2 r a.1.1 a.1.2 (f a.2 (sliceN x a.1.1))) hd.2 hb
      refine ⟨i1, fun hq => (i2 hq).trans ?_⟩
      rw [assign2, if_neg]
      exact fun c => hd.1 b hb p ⟨c.1, c.2.1⟩ hp

theorem PathN.slice {m : ℕ} {X : ℝ → ℕ → ℝ} {x' : ℕ → ℝ} (h : PathN m X x') {a b : ℕ} (hb : b ≤ m) :
    PathN (b - a) (fun t => sliceN (X t) a) (sliceN x' a) := fun k hk => h (a + k) (by omega)

theorem dotN_block {m a b : ℕ} (hab : a ≤ b) (hb : b ≤ m) (g g' v : ℕ → ℝ)
    (h1 : ∀ q, q < m → a ≤ q → q < b → g q = g' (q - a))
    (h2 : ∀ q, q < m → ¬ (a ≤ q ∧ q < b) → g q = 0) :
    dotN m g v = dotN (b - a) g' (sliceN v a) := by
  rw [dotN_sub (B := Finset.Ico a b) (fun q hq => by simp at hq ⊢; omega)
    (fun q hq hn => h2 q hq (by simpa using hn)), Finset.sum_Ico_eq_sum_range]
  refine Finset.sum_congr rfl fun k hk => ?_
  rw [Finset.mem_range] at hk
  rw [h1 (a + k) (by omega) (by omega) (by omega), Nat.add_sub_cancel_left]
  rfl

/-- C44: the concatenated Jacobian (`_jac_fwd` with `f = fwd`, `_jac_rvs` with `f = rvs`) is the
derivative of the concatenated map on sorted ranges. -/
theorem C44_concat_jac (m : ℕ) (f : Tr → (ℕ → ℝ) → ℕ → ℝ) (j : Tr → (ℕ → ℝ) → ℕ → ℕ → ℝ)
    (rts : List ((ℕ × ℕ) × Tr)) (x : ℕ → ℝ) (h : Sorted m rts 0)
    (hJ : ∀ b ∈ rts, IsJac (b.1.2 - b.1.1) (b.1.2 - b.1.1) (f b.2) (j b.2 (sliceN x b.1.1))
      (sliceN x b.1.1)) :
    IsJac m m (combApply m f rts) (combJac j rts x) x := by
  intro X x' hX h0 p hp
  by_cases hb : ∃ b ∈ rts, InB b p
  · obtain ⟨b, hb, hbp⟩ := hb
    have hge := h.ge.2 b hb
    simp only [fun t => (C44_concat m f rts (X t) h p hp).1 b hb hbp]
    have := hJ b hb _ _ (hX.slice (a := b.1.1) hge.2.2) (by simp [h0]) (p - b.1.1)
      (by unfold InB at hbp; omega)
    refine this.congr_deriv ?_
    symm
    refine dotN_block hge.2.1 hge.2.2 _ _ _ (fun q _ h1 h2 => ?_) (fun q _ hq => ?_)
    · exact (combJac_block j rts x eyeN p q h.disjoint b hb hbp).1 ⟨h1, h2⟩
    · rw [combJac, (combJac_block j rts x eyeN p q h.disjoint b hb hbp).2 hq, eyeN, if_neg]
      rintro rfl; exact hq hbp
  · push Not at hb
    simp only [fun t => (C44_concat m f rts (X t) h p hp).2 hb]
    refine (hX p hp).congr_deriv ?_
    simp only [combJac, dotN, combJac_none j rts x eyeN p _ hb, eyeN]
    simp [hp]

theorem combHess_none (f : Tr → (ℕ → ℝ) → ℕ → ℕ → ℕ → ℝ) (l : List ((ℕ × ℕ) × Tr)) (x : ℕ → ℝ)
    (r : ℕ → ℕ → ℕ → ℝ) (p q k : ℕ) (h : ∀ b ∈ l, ¬ InB b p) :
    l.foldl (fun r p => assign3 r p.1.1 p.1.2 (f p.2 (sliceN x p.1.1))) r p q k = r p q k := by
  induction l generalizing r with
  | nil => rfl
  | cons a l ih =>
    rw [List.foldl_cons, ih _ fun b hb => h b (by simp [hb])]
    rw [assign3, if_neg]
    exact fun c => h a (by simp) ⟨c.1, c.2.1⟩

theorem combHess_block (f : Tr → (ℕ → ℝ) → ℕ → ℕ → ℕ → ℝ) (l : List ((ℕ × ℕ) × Tr)) (x : ℕ → ℝ)
    (r : ℕ → ℕ → ℕ → ℝ) (p q k : ℕ) (hd : l.Pairwise fun a b => ∀ p, InB a p → ¬ InB b p)
    (b : (ℕ × ℕ) × Tr) (hb : b ∈ l) (hp : InB b p) :
    (InB b q → InB b k →
      l.foldl (fun r p => assign3 r p.1.1 p.1.2 (f p.2 (sliceN x p.1.1))) r p q k =
      f b.2 (sliceN x b.1.1) (p - b.1.1) (q - b.1.1) (k - b.1.1)) ∧
    (¬ (InB b q ∧ InB b k) →
      l.foldl (fun r p => assign3 r p.1.1 p.1.2 (f p.2 (sliceN x p.1.1))) r p q k = r p q k) := by
  induction l generalizing r with
  | nil => simp at hb
  | cons a l ih =>
    rw [List.pairwise_cons] at hd
    rw [List.foldl_cons]
    rcases List.mem_cons.1 hb with rfl | hb
    · have := fun r => combHess_none f l x r p q k fun c hc => hd.1 c hc p hp
      rw [this]
      unfold assign3
      unfold InB at hp ⊢
      constructor
      · intro hq hk; rw [if_pos ⟨hp.1, hp.2, hq.1, hq.2, hk⟩]
      · intro hq; rw [if_neg fun c => hq ⟨⟨c.2.2.1, c.2.2.2.1⟩, c.2.2.2.2⟩]
    · obtain ⟨i1, i2⟩ := ih (assign3 r a.1.1 a.1.2 (f a.2 (sliceN x a.1.1))) hd.2 hb
      refine ⟨i1, fun hq => (i2 hq).trans ?_⟩
      rw [assign3, if_neg]
      exact fun c => hd.1 b hb p ⟨c.1, c.2.1⟩ hp

/-- C44: the concatenated Hessian is the derivative of the concatenated Jacobian. -/
theorem C44_concat_hess (m : ℕ) (j : Tr → (ℕ → ℝ) → ℕ → ℕ → ℝ)
    (g : Tr → (ℕ → ℝ) → ℕ → ℕ → ℕ → ℝ) (rts : List ((ℕ × ℕ) × Tr)) (x : ℕ → ℝ) (h : Sorted m rts 0)
    (hH : ∀ b ∈ rts, IsHess (b.1.2 - b.1.1) (b.1.2 - b.1.1) (j b.2) (g b.2 (sliceN x b.1.1))
      (sliceN x b.1.1)) :
    IsHess m m (combJac j rts) (combHess g rts x) x := by
  intro X x' hX h0 q hq p hp
  by_cases hb : ∃ b ∈ rts, InB b p
  · obtain ⟨b, hb, hbp⟩ := hb
    have hge := h.ge.2 b hb
    by_cases hbq : InB b q
    · simp only [combJac, fun t => (combJac_block j rts (X t) eyeN p q h.disjoint b hb hbp).1 hbq]
      have := hH b hb _ _ (hX.slice (a := b.1.1) hge.2.2) (by simp [h0]) (q - b.1.1)
        (by unfold InB at hbq; omega) (p - b.1.1) (by unfold InB at hbp; omega)
      refine this.congr_deriv ?_
      symm
      refine dotN_block hge.2.1 hge.2.2 _ _ _ (fun k _ h1 h2 => ?_) (fun k _ hk => ?_)
      · exact (combHess_block g rts x _ p q k h.disjoint b hb hbp).1 hbq ⟨h1, h2⟩
      · rw [combHess, (combHess_block g rts x _ p q k h.disjoint b hb hbp).2 fun c => hk c.2]
    · simp only [combJac, fun t => (combJac_block j rts (X t) eyeN p q h.disjoint b hb hbp).2 hbq]
      refine (hasDerivAt_const _ _).congr_deriv ?_
      symm
      refine Finset.sum_eq_zero fun k _ => ?_
      rw [combHess, (combHess_block g rts x _ p q k h.disjoint b hb hbp).2 fun c => hbq c.1, zero_mul]
  · push Not at hb
    simp only [combJac, fun t => combJac_none j rts (X t) eyeN p q hb]
    refine (hasDerivAt_const _ _).congr_deriv ?_
    symm
    refine Finset.sum_eq_zero fun k _ => ?_
    rw [combHess, combHess_none g rts x _ p q k hb, zero_mul]

/-- Total length of a list of lengths. -/
def total (ks : List ℕ) : ℕ := ks.sum

/-- C44: index objects given as lengths produce consecutive ranges, which are always sorted. -/
theorem C44_lengths_sorted (ks : List ℕ) (ts : List Tr) (start m : ℕ) (h : start + ks.sum ≤ m) :
    Sorted m ((processIdx (ks.map .len) start).zip ts) start := by
  induction ks generalizing ts start with
  | nil => simpa [processIdx, Sorted] using h
  | cons k ks ih =>
    cases ts with
    | nil => simp [Sorted]; omega
    | cons t ts =>
      simp only [List.sum_cons] at h
      simp only [List.map_cons, processIdx, List.zip_cons_cons, Sorted]
      exact ⟨le_rfl, by omega, ih ts (start + k) (by omega)⟩

/-- Doubling, as a transform. -/
noncomputable def dbl : Tr where
  fwd := fun x k => 2 * x k
  rvs := fun y k => y k / 2
  jacF := fun _ i j => if i = j then 2 else 0
  jacR := fun _ i j => if i = j then 1 / 2 else 0
  hessF := fun _ _ _ _ => 0
  hessR := fun _ _ _ _ => 0

/-- C44 (finding): with disjoint ranges given out of order, the final copy of the "remaining" cells
overwrites slices already transformed. For ranges `(1, 2), (0, 1)` the forward map leaves cell 1
unchanged, while the reported Jacobian still has the transform's derivative there. -/
theorem C44_unsorted_violated :
    let rts := (processIdx [.pair 1 2, .pair 0 1] 0).zip [dbl, dbl]
    combApply 2 Tr.fwd rts (fun _ => 1) 1 = 1 ∧ dbl.fwd (fun _ => 1) 0 = 2 ∧
      combJac Tr.jacF rts (fun _ => 1) 1 1 = 2 := by
  refine ⟨?_, ?_, ?_⟩
  · simp [processIdx, combApply, combFinish, combStep, assign1, sliceN]
  · simp [dbl]
  · simp [processIdx, combJac, assign2, dbl]

/-! ## examples -/

theorem dbl_jac (m : ℕ) (x : ℕ → ℝ) : IsJac m m dbl.fwd (dbl.jacF x) x := by
  intro X x' hX _ k hk
  refine ((hX k hk).const_mul 2).congr_deriv ?_
  simp [dotN, dbl, hk]

theorem dbl_hess (m : ℕ) (x : ℕ → ℝ) : IsHess m m dbl.jacF (dbl.hessF x) x := by
  intro X x' _ _ p _ k _
  refine (hasDerivAt_const _ _).congr_deriv ?_
  simp [dotN, dbl]

/-- The stage conditions are satisfiable. -/
example (x : ℕ → ℝ) :
    ∃ H, compHessFwd 3 [dbl, dbl, dbl] x = some H ∧ IsHess 3 3 (compJacFwd 3 [dbl, dbl, dbl]) H x := by
  have a : ∀ t ∈ [dbl, dbl, dbl], t = dbl := by simp
  refine C44_hess_fwd 3 _ x (by simp) (fun j hj => ?_) (fun j hj => ?_)
  · rw [a _ (List.getElem_mem hj)]; exact dbl_jac 3 _
  · rw [a _ (List.getElem_mem hj)]; exact dbl_hess 3 _

example : Sorted 7 ((processIdx [.len 2, .pair 3 5, .len 1] 0).zip [dbl, dbl, dbl]) 0 := by
  simp [processIdx, Sorted]

end Verif.Transf
