import Verif.Sem.OldDefaults
import Verif.Sem.OldTableProps

namespace Verif.Sem.OldTable

/-- Adding the missing ones leaves at least one, and no second one. -/
theorem count_add {α : Type} [DecidableEq α] (p : α → Row → Bool) (mk : α → Row) (t : List Row) (l : List α) (hl : l.Nodup)
    (hmk : ∀ a ∈ l, ∀ b ∈ l, p a (mk b) = true ↔ a = b) (a : α) (ha : a ∈ l) :
    (t ++ (l.filter fun b => !t.any (p b)).map mk).countP (p a) = max 1 (t.countP (p a)) := by
  rw [List.countP_append, List.countP_map]
  by_cases h : t.any (p a) = true
  · have h1 : 0 < t.countP (p a) := by
      rw [List.countP_pos_iff]
      exact List.any_eq_true.1 h
    have h2 : (l.filter fun b => !t.any (p b)).countP (p a ∘ mk) = 0 := by
      rw [List.countP_eq_zero]
      intro b hb hp
      obtain ⟨hb1, hb2⟩ := List.mem_filter.1 hb
      rw [(hmk a ha b hb1).1 hp] at h
      rw [h] at hb2
      cases hb2
    omega
  · have h1 : t.countP (p a) = 0 := by
      rw [List.countP_eq_zero]
      intro r hr hp
      exact h (List.any_eq_true.2 ⟨r, hr, hp⟩)
    have h2 : (l.filter fun b => !t.any (p b)).countP (p a ∘ mk) = 1 := by
      have : (l.filter fun b => !t.any (p b)).countP (p a ∘ mk) = (l.filter fun b => !t.any (p b)).count a := by
        rw [List.count]
        refine List.countP_congr fun b hb => ?_
        rw [Function.comp_apply, hmk a ha b (List.mem_filter.1 hb).1, beq_iff_eq, eq_comm]
      rw [this]
      exact List.count_eq_one_of_mem (hl.filter _) (List.mem_filter.2 ⟨ha, by simpa using h⟩)
    omega

/-- Adding rows that do not match leaves the count. -/
theorem count_skip (p : Row → Bool) (t u : List Row) (h : ∀ r ∈ u, p r = false) : (t ++ u).countP p = t.countP p := by
  have h0 : u.countP p = 0 := List.countP_eq_zero.2 fun r hr => by rw [h r hr]; simp
  rw [List.countP_append, h0, Nat.add_zero]

/-- Fixing a loading changes no name. -/
theorem count_fixFirst (p : Row → Bool) (hp : ∀ r b v, p { r with fixed := b, fixedval := v } = p r) (t : List Row) : (fixFirst t).countP p = t.countP p := by
  have h : ∀ (c : Row → ℕ → Prop) [∀ r i, Decidable (c r i)] (l : List Row) (k : ℕ),
      ((l.zipIdx k).map fun (r, i) => if c r i then { r with fixed := true, fixedval := some 1 } else r).countP p = l.countP p := by
    intro c _ l
    induction l with
    | nil => intro k; rfl
    | cons a l ih =>
      intro k
      rw [List.zipIdx_cons, List.map_cons, List.countP_cons, List.countP_cons, ih (k + 1)]
      congr 2
      simp only
      split_ifs <;> simp_all
  exact h (fun r i => isLoad r.lhs r ∧ t.findIdx (isLoad r.lhs) = i ∧ ¬ t.any (fun s => isLoad r.lhs s && s.fixed)) t 0

theorem isVar_fix (v : String) (r : Row) (b : Bool) (w : Option ℚ) : isVar v { r with fixed := b, fixedval := w } = isVar v r := rfl
theorem isMean_fix (v : String) (r : Row) (b : Bool) (w : Option ℚ) : isMean v { r with fixed := b, fixedval := w } = isMean v r := rfl
theorem isCov_fix (x y : String) (r : Row) (b : Bool) (w : Option ℚ) : isCov x y { r with fixed := b, fixedval := w } = isCov x y r := rfl

theorem pairsOf_mem (l : List String) (q : String × String) (h : q ∈ pairsOf l) : q.1 ∈ l ∧ q.2 ∈ l := by
  induction l with
  | nil => cases h
  | cons c l ih =>
    rcases List.mem_append.1 h with h | h
    · obtain ⟨d, hd, rfl⟩ := List.mem_map.1 h
      exact ⟨List.mem_cons_of_mem _ hd, List.mem_cons_self⟩
    · exact ⟨List.mem_cons_of_mem _ (ih h).1, List.mem_cons_of_mem _ (ih h).2⟩

theorem pairsOf_ne (l : List String) (hl : l.Nodup) (q : String × String) (h : q ∈ pairsOf l) : q.1 ≠ q.2 ∧ (q.2, q.1) ∉ pairsOf l := by
  induction l with
  | nil => cases h
  | cons c l ih =>
    rw [List.nodup_cons] at hl
    rw [pairsOf, List.mem_append, List.mem_map] at *
    rcases h with ⟨d, hd, rfl⟩ | h
    · refine ⟨fun (e : d = c) => hl.1 (e ▸ hd), ?_⟩
      rintro (⟨d', hd', e⟩ | h')
      · simp only [Prod.mk.injEq] at e
        exact hl.1 (e.1 ▸ hd')
      · exact hl.1 (pairsOf_mem l _ h').1
    · refine ⟨(ih hl.2 h).1, ?_⟩
      rintro (⟨d', hd', e⟩ | h')
      · simp only [Prod.mk.injEq] at e
        exact hl.1 (e.2 ▸ (pairsOf_mem l q h).1)
      · exact (ih hl.2 h).2 h'

theorem pairsOf_nodup (l : List String) (hl : l.Nodup) : (pairsOf l).Nodup := by
  induction l with
  | nil => exact List.nodup_nil
  | cons c l ih =>
    rw [List.nodup_cons] at hl
    refine List.Nodup.append (hl.2.map fun a b e => by injection e) (ih hl.2) ?_
    intro q h1 h2
    obtain ⟨d, hd, rfl⟩ := List.mem_map.1 h1
    exact hl.1 (pairsOf_mem l _ h2).2

theorem pairsOf_total (l : List String) (x y : String) (hx : x ∈ l) (hy : y ∈ l) (h : x ≠ y) : (x, y) ∈ pairsOf l ∨ (y, x) ∈ pairsOf l := by
  induction l with
  | nil => cases hx
  | cons c l ih =>
    rw [pairsOf, List.mem_append, List.mem_append, List.mem_map, List.mem_map]
    rcases List.mem_cons.1 hx with hx' | hx'
    · rcases List.mem_cons.1 hy with hy' | hy'
      · exact absurd (hx'.trans hy'.symm) h
      · exact Or.inr (Or.inl ⟨y, hy', by rw [hx']⟩)
    · rcases List.mem_cons.1 hy with hy' | hy'
      · exact Or.inl (Or.inl ⟨x, hx', by rw [hy']⟩)
      · rcases ih hx' hy' with h | h
        · exact Or.inl (Or.inr h)
        · exact Or.inr (Or.inr h)

theorem isCov_comm (x y : String) : isCov x y = isCov y x := by
  funext r
  simp only [isCov, or_comm]

/-- The rows of one class of covariances. -/
def covRows (t : List Row) (f : Bool) (l : List String) : List Row := (missingCovs t l).map fun q => ⟨q.1, "~~", q.2, none, f, none⟩

theorem count_cov (t : List Row) (f : Bool) (l : List String) (hl : l.Nodup) (x y : String) (hx : x ∈ l) (hy : y ∈ l) (hxy : x ≠ y) :
    (t ++ covRows t f l).countP (isCov x y) = max 1 (t.countP (isCov x y)) := by
  have key : ∀ q ∈ pairsOf l, (t ++ covRows t f l).countP (isCov q.1 q.2) = max 1 (t.countP (isCov q.1 q.2)) := by
    intro q hq
    refine count_add (fun q => isCov q.1 q.2) (fun q : String × String => (⟨q.1, "~~", q.2, none, f, none⟩ : Row)) t (pairsOf l) (pairsOf_nodup l hl) ?_ q hq
    intro a ha b hb
    simp only [isCov, decide_eq_true_eq, true_and]
    constructor
    · rintro (⟨h1, h2⟩ | ⟨h1, h2⟩)
      · exact Prod.ext h1.symm h2.symm
      · exact absurd (by rw [← h1, ← h2]; exact hb) (pairsOf_ne l hl a ha).2
    · rintro rfl; exact Or.inl ⟨rfl, rfl⟩
  rcases pairsOf_total l x y hx hy hxy with h | h
  · exact key _ h
  · rw [isCov_comm x y]; exact key _ h

theorem covRows_skip (t : List Row) (f : Bool) (l : List String) (x y : String) (h : x ∉ l ∨ y ∉ l) : ∀ r ∈ covRows t f l, isCov x y r = false := by
  intro r hr
  obtain ⟨q, hq, rfl⟩ := List.mem_map.1 hr
  obtain ⟨h1, h2⟩ := pairsOf_mem l q (List.mem_filter.1 hq).1
  simp only [isCov, decide_eq_false_iff_not, true_and]
  rintro (⟨rfl, rfl⟩ | ⟨rfl, rfl⟩)
  · rcases h with h | h
    · exact h h1
    · exact h h2
  · rcases h with h | h
    · exact h h2
    · exact h h1

theorem covRows_var (t : List Row) (f : Bool) (l : List String) (hl : l.Nodup) (v : String) : ∀ r ∈ covRows t f l, isVar v r = false := by
  intro r hr
  obtain ⟨q, hq, rfl⟩ := List.mem_map.1 hr
  have := (pairsOf_ne l hl q (List.mem_filter.1 hq).1).1
  simp only [isVar, decide_eq_false_iff_not, true_and]
  rintro ⟨h1, h2⟩
  exact this (h1.trans h2.symm)

theorem addCovariances_eq (N : Names) (a b : Bool) (t : List Row) :
    addCovariances N a b t = t ++ covRows t true N.lox ++ (if a then covRows t false N.lvx else []) ++ (if b then covRows t false N.enx else []) := rfl

theorem mean_skip (N : Names) (b : Bool) (t : List Row) (p : Row → Bool) (hp : ∀ r, r.rel = "~" → p r = false) : (addMeanRows N b t).countP p = t.countP p := by
  refine count_skip p t _ fun r hr => ?_
  obtain ⟨v, -, rfl⟩ := List.mem_map.1 hr
  exact hp _ rfl

/-- **C248** Every variable ends with a variance: the one of the formula if it has one, otherwise one new row. -/
theorem C248_variance (N : Names) (k : Kws) (t : List Row) (hall : N.all.Nodup) (h1 : N.lox.Nodup) (h2 : N.lvx.Nodup) (h3 : N.enx.Nodup) (v : String)
    (hv : v ∈ N.all) : (processTable N k t).countP (isVar v) = max 1 (t.countP (isVar v)) := by
  rw [processTable, mean_skip N _ _ _ (fun r h => by simp [isVar, h]), addCovariances_eq, count_skip, count_skip, count_skip, count_fixFirst _ (isVar_fix v)]
  · refine count_add isVar _ t N.all hall (fun a _ b _ => ?_) v hv
    simp only [isVar, decide_eq_true_eq, true_and]
    exact ⟨fun h => h.1.symm, fun h => ⟨h.symm, h.symm⟩⟩
  · exact covRows_var _ _ _ h1 v
  · split_ifs
    · exact covRows_var _ _ _ h2 v
    · simp
  · split_ifs
    · exact covRows_var _ _ _ h3 v
    · simp

/-- **C248** And with a mean. -/
theorem C248_mean (N : Names) (k : Kws) (t : List Row) (hall : N.all.Nodup) (v : String) (hv : v ∈ N.all) :
    (processTable N k t).countP (isMean v) = max 1 (t.countP (isMean v)) := by
  have hc : ∀ s f l, ∀ r ∈ covRows s f l, isMean v r = false := by
    intro s f l r hr
    obtain ⟨q, -, rfl⟩ := List.mem_map.1 hr
    simp [isMean]
  have h0 : (addCovariances N (k.fixLvCov.getD true) (k.yCov.getD true) (fixFirst (addVariances N (k.fixLvCov.getD false) t))).countP (isMean v) = t.countP (isMean v) := by
    rw [addCovariances_eq, count_skip, count_skip, count_skip _ _ _ (hc _ _ _), count_fixFirst _ (isMean_fix v), addVariances, count_skip]
    · intro r hr
      obtain ⟨w, -, rfl⟩ := List.mem_map.1 hr
      simp [isMean]
    · split_ifs
      · exact hc _ _ _
      · simp
    · split_ifs
      · exact hc _ _ _
      · simp
  rw [processTable, ← h0]
  refine count_add isMean _ _ N.all hall (fun a _ b _ => ?_) v hv
  simp only [isMean, decide_eq_true_eq, true_and]
  exact eq_comm

/-- **C248** Two observed exogenous variables end with a covariance, and so do two endogenous ones; a covariance of the formula, in either
order, is not repeated. -/
theorem C248_covariance (N : Names) (k : Kws) (t : List Row) (h1 : N.lox.Nodup) (h2 : N.lvx.Nodup) (h3 : N.enx.Nodup)
    (d12 : ∀ v ∈ N.lox, v ∉ N.lvx) (d13 : ∀ v ∈ N.lox, v ∉ N.enx) (d23 : ∀ v ∈ N.lvx, v ∉ N.enx) (x y : String) (hxy : x ≠ y) :
    (x ∈ N.lox → y ∈ N.lox → (processTable N k t).countP (isCov x y) = max 1 (t.countP (isCov x y))) ∧
      (k.yCov.getD true = true → x ∈ N.enx → y ∈ N.enx → (processTable N k t).countP (isCov x y) = max 1 (t.countP (isCov x y))) ∧
      (k.fixLvCov.getD true = true → x ∈ N.lvx → y ∈ N.lvx → (processTable N k t).countP (isCov x y) = max 1 (t.countP (isCov x y))) := by
  set s := fixFirst (addVariances N (k.fixLvCov.getD false) t) with hs
  have hc : s.countP (isCov x y) = t.countP (isCov x y) := by
    rw [hs, count_fixFirst _ (isCov_fix x y), addVariances, count_skip]
    intro r hr
    obtain ⟨w, -, rfl⟩ := List.mem_map.1 hr
    simp only [isCov, decide_eq_false_iff_not, true_and]
    rintro (⟨rfl, rfl⟩ | ⟨rfl, rfl⟩) <;> exact hxy rfl
  have e : (processTable N k t).countP (isCov x y) = (s ++ covRows s true N.lox ++ (if k.fixLvCov.getD true then covRows s false N.lvx else []) ++
      (if k.yCov.getD true then covRows s false N.enx else [])).countP (isCov x y) := by
    rw [processTable, mean_skip N _ _ _ (fun r h => by simp [isCov, h]), addCovariances_eq]
  have skip : ∀ (b f : Bool) (l : List String), x ∉ l → ∀ r ∈ (if b then covRows s f l else []), isCov x y r = false := by
    intro b f l hx r hr
    split_ifs at hr
    · exact covRows_skip s f l x y (Or.inl hx) r hr
    · cases hr
  refine ⟨fun hx hy => ?_, fun hk hx hy => ?_, fun hk hx hy => ?_⟩
  · rw [e, count_skip _ _ _ (skip _ _ _ (d13 x hx)), count_skip _ _ _ (skip _ _ _ (d12 x hx)), count_cov s true N.lox h1 x y hx hy hxy, hc]
  · have n1 : x ∉ N.lox := fun h => d13 x h hx
    have n2 : x ∉ N.lvx := fun h => d23 x h hx
    have := count_cov s false N.enx h3 x y hx hy hxy
    rw [List.countP_append] at this
    rw [e, hk, if_pos rfl, List.countP_append, count_skip _ _ _ (skip _ _ _ n2), count_skip _ _ _ (covRows_skip s true N.lox x y (Or.inl n1)), this, hc]
  · have n1 : x ∉ N.lox := fun h => d12 x h hx
    have := count_cov s false N.lvx h2 x y hx hy hxy
    rw [List.countP_append] at this
    rw [e, count_skip _ _ _ (skip _ _ _ (d23 x hx)), hk, if_pos rfl, List.countP_append,
      count_skip _ _ _ (covRows_skip s true N.lox x y (Or.inl n1)), this, hc]

/-- Two factors with an indicator each. -/
def twoFactors : List Row := [⟨"f", "=~", "x1", none, false, none⟩, ⟨"g", "=~", "x2", none, false, none⟩]
def twoNames : Names := ⟨["f", "g", "x1", "x2"], ["f", "g"], [], ["f", "g"], []⟩

/-- **C248** The covariances of factors are switched by the wrong keyword: `lvx_cov=False` does nothing, and `fix_lv_cov=False`, which is what
`add_variances` assumes without it, removes them. -/
theorem C248_keyword_violated :
    processTable twoNames { lvxCov := some false } twoFactors = processTable twoNames {} twoFactors ∧
      (processTable twoNames {} twoFactors).countP (isCov "f" "g") = 1 ∧
      (processTable twoNames { fixLvCov := some false } twoFactors).countP (isCov "f" "g") = 0 := by
  refine ⟨rfl, ?_, ?_⟩ <;> decide +kernel

/-- **C248** Factor variances that are asked to be fixed have no value. -/
theorem C248_unset_violated : (⟨"f", "~~", "f", none, true, none⟩ : Row) ∈ processTable twoNames { fixLvCov := some true } twoFactors := by
  decide +kernel

/-! ### Sample values -/

/-- **C248** In every group the variances and means of the observed exogenous variables are fixed at the values of that group, and so are the
covariances that the formula does not fix. -/
theorem C248_stats (lox : List String) (n : ℕ) (cov : ℕ → String → String → ℚ) (hsym : ∀ g x y, cov g x y = cov g y x) (mean : ℕ → String → ℚ) (t : List GRow)
    (r : GRow) (hr : r ∈ t) (hg : r.group < n) :
    ∃ s ∈ fixStats lox n cov mean t, s.group = r.group ∧ s.row.lhs = r.row.lhs ∧ s.row.rel = r.row.rel ∧ s.row.rhs = r.row.rhs ∧
      (∀ v ∈ lox, isVar v r.row = true → s.row.fixed = true ∧ s.row.fixedval = some (cov r.group v v)) ∧
      (∀ v ∈ lox, isMean v r.row = true → s.row.fixed = true ∧ s.row.fixedval = some (mean r.group v)) ∧
      (∀ x ∈ lox, ∀ y ∈ lox, x ≠ y → isCov x y r.row = true → (∀ u ∈ t, isCov x y u.row = true → u.row.fixed = true → u.row.fixedval = none) →
        s.row.fixed = true ∧ s.row.fixedval = some (cov r.group x y)) := by
  refine ⟨_, List.mem_map.2 ⟨r, hr, rfl⟩, ?_⟩
  rw [if_pos hg]
  by_cases c1 : r.row.rel = "~~" ∧ r.row.lhs = r.row.rhs ∧ r.row.lhs ∈ lox
  · rw [if_pos c1]
    refine ⟨rfl, rfl, rfl, rfl, ?_, ?_, ?_⟩
    · intro v _ hv
      simp only [isVar, decide_eq_true_eq] at hv
      exact ⟨rfl, by rw [← hv.2.1]; rfl⟩
    · intro v _ hv
      simp only [isMean, decide_eq_true_eq] at hv
      rw [c1.1] at hv
      exact absurd hv.1 (by decide)
    · intro x _ y _ hxy hv
      simp only [isCov, decide_eq_true_eq] at hv
      exfalso
      rcases hv.2 with ⟨a, b⟩ | ⟨a, b⟩
      · exact hxy (a.symm.trans (c1.2.1.trans b))
      · exact hxy (b.symm.trans (c1.2.1.symm.trans a))
  · rw [if_neg c1]
    by_cases c2 : r.row.rel = "~" ∧ r.row.rhs = "1" ∧ r.row.lhs ∈ lox
    · rw [if_pos c2]
      refine ⟨rfl, rfl, rfl, rfl, ?_, ?_, ?_⟩
      · intro v _ hv
        simp only [isVar, decide_eq_true_eq] at hv
        rw [c2.1] at hv
        exact absurd hv.1 (by decide)
      · intro v _ hv
        simp only [isMean, decide_eq_true_eq] at hv
        exact ⟨rfl, by rw [← hv.2.2]; rfl⟩
      · intro x _ y _ _ hv
        simp only [isCov, decide_eq_true_eq] at hv
        rw [c2.1] at hv
        exact absurd hv.1 (by decide)
    · rw [if_neg c2]
      set pairs := missingCovs ((t.map GRow.row).filter fun r => r.fixed && r.fixedval.isSome) lox with hp
      have hvar : ∀ v ∈ lox, isVar v r.row = true → False := by
        intro v hv h
        simp only [isVar, decide_eq_true_eq] at h
        exact c1 ⟨h.1, h.2.1.trans h.2.2.symm, h.2.1 ▸ hv⟩
      have hmean : ∀ v ∈ lox, isMean v r.row = true → False := by
        intro v hv h
        simp only [isMean, decide_eq_true_eq] at h
        exact c2 ⟨h.1, h.2.1, h.2.2 ▸ hv⟩
      have hfind : ∀ x ∈ lox, ∀ y ∈ lox, x ≠ y → isCov x y r.row = true →
          (∀ u ∈ t, isCov x y u.row = true → u.row.fixed = true → u.row.fixedval = none) → ∃ q ∈ pairs, isCov q.1 q.2 r.row = true := by
        intro x hx y hy hxy hc hfree
        have key : ∀ q ∈ pairsOf lox, isCov q.1 q.2 = isCov x y → q ∈ pairs := by
          intro q hq he
          rw [hp, missingCovs, List.mem_filter]
          refine ⟨hq, ?_⟩
          simp only [Bool.not_eq_true', List.any_eq_false, he]
          intro u hu
          obtain ⟨hu1, hu2⟩ := List.mem_filter.1 hu
          obtain ⟨w, hw, rfl⟩ := List.mem_map.1 hu1
          intro hcu
          simp only [Bool.and_eq_true] at hu2
          rw [hfree w hw hcu hu2.1] at hu2
          exact absurd hu2.2 (by simp)
        rcases pairsOf_total lox x y hx hy hxy with h | h
        · exact ⟨_, key _ h rfl, hc⟩
        · exact ⟨_, key _ h (isCov_comm y x), by rw [isCov_comm]; exact hc⟩
      cases hf : pairs.find? fun q => isCov q.1 q.2 r.row with
      | none =>
        refine ⟨rfl, rfl, rfl, rfl, fun v hv h => (hvar v hv h).elim, fun v hv h => (hmean v hv h).elim, ?_⟩
        intro x hx y hy hxy hc hfree
        obtain ⟨q, hq, hqc⟩ := hfind x hx y hy hxy hc hfree
        exact absurd hqc (List.find?_eq_none.1 hf q hq)
      | some q =>
        refine ⟨rfl, rfl, rfl, rfl, fun v hv h => (hvar v hv h).elim, fun v hv h => (hmean v hv h).elim, ?_⟩
        intro x hx y hy hxy hc _
        refine ⟨rfl, ?_⟩
        have hq := List.find?_some hf
        simp only [isCov, decide_eq_true_eq] at hq hc
        show some (cov r.group q.1 q.2) = _
        rcases hq.2 with ⟨a, b⟩ | ⟨a, b⟩ <;> rcases hc.2 with ⟨a', b'⟩ | ⟨a', b'⟩
        · rw [← a, ← b, a', b']
        · rw [← a, ← b, a', b', hsym]
        · rw [← a, ← b, a', b', hsym]
        · rw [← a, ← b, a', b']

/-- **C248** A variance of the formula is replaced by the sample value, and a labelled covariance becomes fixed while it keeps its number among
the free parameters. -/
theorem C248_stats_violated :
    fixStats ["x", "z"] 1 (fun _ a b => if a = b then 9 else 4) (fun _ _ => 7)
      [⟨⟨"x", "~~", "x", none, true, some 2⟩, 0, 0⟩, ⟨⟨"x", "~~", "z", some "a", false, none⟩, 0, 3⟩] =
    [⟨⟨"x", "~~", "x", none, true, some 9⟩, 0, 0⟩, ⟨⟨"x", "~~", "z", some "a", true, some 4⟩, 0, 3⟩] := by
  decide +kernel

/-- **C248** A variance that is added is fixed for an observed exogenous variable, and for a latent variable when that is asked for; otherwise it is
free. -/
theorem C248_variance_fixed (N : Names) (b : Bool) (t : List Row) (v : String) (hv : v ∈ N.all) (hm : ∀ r ∈ t, isVar v r = false) :
    ∃ r ∈ addVariances N b t, isVar v r = true ∧ (r.fixed = true ↔ v ∈ N.lox ∨ (v ∈ N.nob ∧ b = true)) ∧ r.fixedval = none := by
  refine ⟨⟨v, "~~", v, none, decide (v ∈ N.lox) || (decide (v ∈ N.nob) && b), none⟩, ?_, by simp [isVar], by simp, rfl⟩
  rw [addVariances, List.mem_append]
  refine Or.inr (List.mem_map.2 ⟨v, ?_, rfl⟩)
  rw [missingVars, List.mem_filter]
  refine ⟨hv, ?_⟩
  rw [Bool.not_eq_true', List.any_eq_false]
  intro r hr
  rw [hm r hr]
  simp

end Verif.Sem.OldTable
