import Verif.Sem.BuilderProps
import Mathlib.Data.List.FinRange
/-! # C203: the numbers of the fixed rows, and the calls that raise -/
namespace Verif.Sem
variable {N R : Type*} [DecidableEq N] [DecidableEq R] [Field R]

theorem forall_modFirst {P : BRow N R → Prop} {p : BRow N R → Bool} {f : BRow N R → BRow N R}
    (hf : ∀ r, P r → P (f r)) {t : List (BRow N R)} (ht : ∀ r ∈ t, P r) :
    ∀ r ∈ modFirst p f t, P r := by
  induction t with
  | nil => simp [modFirst]
  | cons a t ih =>
    unfold modFirst
    have h1 := ht a List.mem_cons_self
    have h2 : ∀ r ∈ t, P r := fun r hr => ht r (List.mem_cons_of_mem _ hr)
    split_ifs
    · intro r hr
      rcases List.mem_cons.1 hr with rfl | hr
      · exact hf a h1
      · exact h2 r hr
    · intro r hr
      rcases List.mem_cons.1 hr with rfl | hr
      · exact h1
      · exact ih h2 r hr

theorem forall_loop {P : BRow N R → Prop} {c : N → Prop} [DecidablePred c]
    {f : BRow N R → BRow N R} (hf : ∀ r, P r → P (f r)) (vs : List N) {t : List (BRow N R)}
    (ht : ∀ r ∈ t, P r) : ∀ r ∈ loopFirst c f vs t, P r := by
  unfold loopFirst
  induction vs generalizing t with
  | nil => exact ht
  | cons v vs ih =>
    rw [List.foldl_cons]
    refine ih ?_
    split_ifs
    · exact forall_modFirst hf ht
    · exact ht

section
variable {enum srt : Finset N → List N} {one : N} {t : List (BRow N R)} {o : BOpts N}
  {T' : BTab N R}

/-- A fixed row has a number, or is a moment of the fixed exogenous variables. -/
def Backed (one : N) (vn : VNames N) (r : BRow N R) : Prop :=
  r.fixed = true → (∃ x, r.fixedval = Fv.num x) ∨
    (r.rel = R3.cov ∧ r.lhs ∈ vn.lox ∧ r.rhs ∈ vn.lox) ∨
    (r.rel = R3.reg ∧ r.rhs = one ∧ r.lhs ∈ vn.lox)

/-- Unless `fix_lv_var` is set, every fixed row has a number once the sample moments are filled in:
no `nan` reaches the parameter template. -/
theorem C203_fixed_values (he : Arr enum) (hs : Arr srt) {vars : List N} {cov : N → N → R}
    {mean : N → R} (hsym : ∀ v w, cov v w = cov w v)
    (hvars : ∀ v, v ∈ vars ↔ v ∈ (classify one t).lox)
    (ht : ∀ r ∈ t, r.fixed = true → ∃ x, r.fixedval = Fv.num x)
    (ho : o.fixLvVar.getD false = false)
    (h : addDefault enum srt one (classify one t) o { rows := t, hasStart := false } = some T') :
    ∀ r ∈ updStats one vars cov mean T'.rows, r.fixed = true →
      ∃ x, templateEntry r = Fv.num x := by
  obtain ⟨want, hw, hT⟩ := addDefault_parts he h
  dsimp only at hT
  rw [ho] at hT
  set b := o.fixLvMean.getD true
  have hB : ∀ r ∈ T'.rows, Backed one (classify one t) r := by
    rw [hT]
    refine forall_loop (P := Backed one (classify one t)) (c := startCond _) (f := setStart)
      (fun r hr => hr) _ ?_
    intro r hr
    unfold Parts.rows at hr
    rcases List.mem_append.1 hr with hr | hr
    rcases List.mem_append.1 hr with hr | hr
    rcases List.mem_append.1 hr with hr | hr
    · have : ∀ r ∈ (parts enum srt one (classify one t) false b want t).A,
          Backed one (classify one t) r := by
        refine forall_loop (f := setFixed) (fun r _ _ => Or.inl ⟨1, rfl⟩) _ ?_
        intro r hr
        rcases List.mem_append.1 hr with hr | hr
        · exact fun hf => Or.inl (ht r hr hf)
        · obtain ⟨v, -, rfl⟩ := List.mem_map.1 hr
          intro hf
          by_cases hv : v ∈ (classify one t).lox
          · exact Or.inr (Or.inl ⟨rfl, hv, hv⟩)
          · simp [varRow, hv] at hf
      exact this r hr
    · obtain ⟨p, -, ⟨h1, h2, rfl⟩ | rfl⟩ := mem_C want false b hs hr
      · exact fun _ => Or.inr (Or.inl ⟨rfl, h1, h2⟩)
      · exact fun hf => by simp [covRow] at hf
    · obtain ⟨v, -, rfl⟩ := List.mem_map.1 hr
      intro hf
      by_cases hv : v ∈ (classify one t).lox
      · exact Or.inr (Or.inr ⟨rfl, rfl, hv⟩)
      · by_cases h2 : b = true ∧ v ∈ (classify one t).nob
        · exact Or.inl ⟨0, by simp [meanRow, h2]⟩
        · simp [meanRow, hv, h2] at hf
    · obtain ⟨v, -, rfl⟩ := List.mem_map.1 hr
      exact fun _ => Or.inl ⟨1, rfl⟩
  rw [C203_sample_stats hsym]
  intro r hr hf
  obtain ⟨r0, hr0, rfl⟩ := List.mem_map.1 hr
  unfold templateEntry
  by_cases h1 : r0.rel = R3.cov ∧ r0.lhs ∈ vars ∧ r0.rhs ∈ vars
  · exact ⟨_, by rw [statRow, if_pos h1]⟩
  · by_cases h2 : r0.rel = R3.reg ∧ r0.rhs = one ∧ r0.lhs ∈ vars
    · exact ⟨_, by rw [statRow, if_neg h1, if_pos h2]⟩
    · have h3 : statRow one vars cov mean r0 = r0 := by rw [statRow, if_neg h1, if_neg h2]
      rw [h3] at hf ⊢
      rcases hB r0 hr0 hf with h4 | ⟨h4, h5, h6⟩ | ⟨h4, h5, h6⟩
      · exact h4
      · exact absurd ⟨h4, (hvars _).2 h5, (hvars _).2 h6⟩ h1
      · exact absurd ⟨h4, h5, (hvars _).2 h6⟩ h2

/-- `fix_lv_var=True` is documented to fix the variances of the latent variables at one.  The row it
adds is fixed but has no number, and none is filled in: `nan` reaches the parameter template. -/
theorem C203_fix_lv_var_violated (he : Arr enum) {vars : List N} {cov : N → N → R}
    {mean : N → R} (hsym : ∀ v w, cov v w = cov w v)
    (hvars : ∀ v, v ∈ vars ↔ v ∈ (classify one t).lox) (ho : o.fixLvVar = some true)
    (h : addDefault enum srt one (classify one t) o { rows := t, hasStart := false } = some T')
    {v : N} (hv : v ∈ (classify one t).nob) (h1 : v ≠ one) (hno : t.countP (isVar v) = 0) :
    ∃ r ∈ updStats one vars cov mean T'.rows, isVar v r = true ∧ r.fixed = true ∧
      templateEntry r = Fv.nan := by
  obtain ⟨want, hw, hT⟩ := addDefault_parts he h
  dsimp only at hT
  rw [ho] at hT
  set b := o.fixLvMean.getD true
  have hall : v ∈ (classify one t).all := by
    rw [nob_iff, List.any_eq_true] at hv
    obtain ⟨r, hr, h2⟩ := hv
    have h3 : r.lhs = v := (of_decide_eq_true h2).2
    simp only [classify, Finset.mem_sdiff, Finset.mem_union, List.mem_toFinset, List.mem_map,
      Finset.mem_singleton]
    exact ⟨Or.inl ⟨r, hr, h3⟩, h1⟩
  have hlox : v ∉ (classify one t).lox := fun h => lox_not_nob one t h hv
  have hrow : (varRow (classify one t) true v : BRow N R) ∈
      (parts enum srt one (classify one t) true b want t).V :=
    List.mem_map.2 ⟨v, ((he _).2 v).2 (mem_missVars.2 ⟨hall, hno⟩), rfl⟩
  have hA : (varRow (classify one t) true v : BRow N R) ∈
      (parts enum srt one (classify one t) true b want t).A := by
    have h2 : (varRow (classify one t) true v : BRow N R) ∈
        (parts enum srt one (classify one t) true b want t).A.filter (fun r => r.rel ≠ R3.mes) := by
      show _ ∈ (loopFirst _ setFixed _ (t ++ (parts enum srt one (classify one t) true b want t).V)).filter _
      rw [rest_loop keeps_setFixed]
      exact List.mem_filter.2 ⟨List.mem_append_right _ hrow, by simp [varRow]⟩
    exact (List.mem_filter.1 h2).1
  have hmem : (varRow (classify one t) true v : BRow N R) ∈ T'.rows := by
    have h2 : (varRow (classify one t) true v : BRow N R) ∈
        T'.rows.filter (fun r => r.rel ≠ R3.mes) := by
      rw [hT]
      show _ ∈ (loopFirst _ setStart _ (parts enum srt one (classify one t) true b want t).rows).filter _
      rw [rest_loop keeps_setStart]
      refine List.mem_filter.2 ⟨?_, by simp [varRow]⟩
      unfold Parts.rows
      exact List.mem_append_left _ (List.mem_append_left _ (List.mem_append_left _ hA))
    exact (List.mem_filter.1 h2).1
  have hnv : v ∉ vars := fun h => hlox ((hvars v).1 h)
  rw [C203_sample_stats hsym]
  refine ⟨varRow (classify one t) true v, List.mem_map.2 ⟨_, hmem, ?_⟩, ?_, ?_, ?_⟩
  · simp [statRow, varRow, hnv]
  · simp [isVar, varRow]
  · simp [varRow, hlox, hv]
  · simp [templateEntry, varRow]

/-- The call succeeds when `fix_first` is not `False` and some variable of the formula has no
variance of its own. -/
theorem C203_total (he : Arr enum) {want : N → Bool}
    (hw : wantOf (o.fixFirst.getD (FixArg.bool true)) = some want) {v : N}
    (hv : v ∈ (classify one t).all) (hno : t.countP (isVar v) = 0) :
    (addDefault enum srt one (classify one t) o { rows := t, hasStart := false }).isSome = true := by
  rw [addDefault_eq, hw, Option.bind_some]
  dsimp only
  set P := parts enum srt one (classify one t) (o.fixLvVar.getD false) (o.fixLvMean.getD true) want t
    with hP
  have hrow : (varRow (classify one t) (o.fixLvVar.getD false) v : BRow N R) ∈ P.V :=
    List.mem_map.2 ⟨v, ((he _).2 v).2 (mem_missVars.2 ⟨hv, hno⟩), rfl⟩
  have hne : P.V.isEmpty = false := by
    rw [List.isEmpty_eq_false_iff]
    exact List.ne_nil_of_mem hrow
  have hload : ((enum (classify one t).nob).any fun v => !(P.rows.any (isLoad v))) = false := by
    rw [List.any_eq_false]
    intro w hw'
    have h1 := ((he _).2 w).1 hw'
    rw [nob_iff] at h1
    have h2 : P.rows.any (isLoad w) = true := by
      rw [any_key (isLoad_key w), hP, rows_key, List.any_append, List.any_append, List.any_append,
        List.any_append, ← any_key (isLoad_key w), h1]
      simp
    simp [h2]
  unfold checkInit
  rw [hload, hne]
  simp

end

/-! ### Witnesses -/

/-- Names are numbers, `0` is "1", and sets are listed in order. -/
def enumN (s : Finset (Fin 5)) : List (Fin 5) := (List.finRange 5).filter (· ∈ s)

theorem arr_enumN : Arr enumN :=
  fun s => ⟨(List.nodup_finRange 5).filter _, fun v => by simp [enumN]⟩

/-- A free row of a formula. -/
def fr (l : Fin 5) (rel : R3) (r : Fin 5) : BRow (Fin 5) ℚ := BRow.mk l rel r none none false Fv.inf false

/-- `f =~ x`, with all variances and means spelled out: `KeyError: 'start'`. -/
theorem C203_complete_formula_raises_violated :
    let t := [fr 1 R3.mes 2, fr 1 R3.cov 1, fr 2 R3.cov 2, fr 1 R3.reg 0, fr 2 R3.reg 0]
    addDefault enumN enumN 0 (classify 0 t) {} (BTab.mk t false) = none := by
  decide +kernel

/-- `f =~ x + y; f ~ z`: the whole table. -/
example : (addDefault enumN enumN 0 (classify 0 [fr 1 R3.mes 2, fr 1 R3.mes 3, fr 1 R3.reg 4]) {}
    { rows := [fr 1 R3.mes 2, fr 1 R3.mes 3, fr 1 R3.reg 4], hasStart := false }).map BTab.rows =
    some ([BRow.mk 1 R3.mes 2 none (some (1 / 10)) true (Fv.num 1) false,
      fr 1 R3.mes 3, fr 1 R3.reg 4,
      BRow.mk 1 R3.cov 1 none (some 1) false Fv.nan false,
      BRow.mk 2 R3.cov 2 none (some 1) false Fv.nan false,
      BRow.mk 3 R3.cov 3 none (some 1) false Fv.nan false,
      BRow.mk 4 R3.cov 4 none (some 1) true Fv.nan false,
      BRow.mk 1 R3.reg 0 none (some 0) true (Fv.num 0) false,
      BRow.mk 2 R3.reg 0 none (some 0) false Fv.nan false,
      BRow.mk 3 R3.reg 0 none (some 0) false Fv.nan false,
      BRow.mk 4 R3.reg 0 none (some 0) true Fv.nan false,
      BRow.mk 4 R3.mes 4 none none true (Fv.num 1) true] : List (BRow (Fin 5) ℚ)) := by
  decide +kernel

/-- The hypotheses of `C203_fix_lv_var_violated` hold for `f =~ x`. -/
example : (addDefault enumN enumN 0 (classify 0 [fr 1 R3.mes 2]) { fixLvVar := some true }
    { rows := [fr 1 R3.mes 2], hasStart := false }).isSome = true ∧
    1 ∈ (classify 0 [fr 1 R3.mes 2]).nob ∧ [fr 1 R3.mes 2].countP (isVar 1) = 0 ∧
    ∀ v, v ∈ ([] : List (Fin 5)) ↔ v ∈ (classify 0 [fr 1 R3.mes 2]).lox := by
  refine ⟨by decide +kernel, by decide +kernel, by decide +kernel, ?_⟩
  have : (classify 0 [fr 1 R3.mes 2]).lox = ∅ := by decide +kernel
  rw [this]
  simp

/-- With two exogenous latent variables the covariance is added although `lvx_cov` is `False`. -/
example : (addDefault enumN enumN 0 (classify 0 [fr 1 R3.mes 3, fr 2 R3.mes 4])
    { lvxCov := some false, yCov := some false }
    { rows := [fr 1 R3.mes 3, fr 2 R3.mes 4], hasStart := false }).map
      (fun T => T.rows.countP (isCov 1 2)) = some 1 := by
  decide +kernel

end Verif.Sem
