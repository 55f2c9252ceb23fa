import Verif.Sem.BuilderLemmas
import Mathlib.Algebra.Field.Rat
/-!
# C203: default parameters of `pysem2/model_builder.py`

The table that `add_default_params` returns, for every table `t` that a formula can give: which rows
are added, which rows are fixed, and where the number of a fixed row comes from.
-/
namespace Verif.Sem
variable {N R : Type*} [DecidableEq N] [DecidableEq R] [Field R]

/-- Which latent variables an argument of `fix_first` selects; `none` = `ValueError`. -/
def wantOf : FixArg N → Option (N → Bool)
  | FixArg.none => some fun _ => true
  | FixArg.bool true => some fun _ => true
  | FixArg.dict d => some fun v => (d v).getD true
  | FixArg.bool false => none
  | FixArg.other => none

/-- The condition under which the first loading of `v` is fixed. -/
def fixCond (t : List (BRow N R)) (want : N → Bool) (v : N) : Prop :=
  want v = true ∧ t.any (isLoad v) = true ∧ ¬ t.any (fun r => isLoad v r && r.fixed) = true

instance (t : List (BRow N R)) (want : N → Bool) : DecidablePred (fixCond t want) := by
  intro v; unfold fixCond; infer_instance

/-- The condition under which the first loading of `v` gets a starting value. -/
def startCond (t : List (BRow N R)) (v : N) : Prop :=
  ¬ t.any (fun r => isLoad v r && (r.start.isSome && decide (r.start ≠ some 0))) = true

instance (t : List (BRow N R)) : DecidablePred (startCond t) := by
  intro v; unfold startCond; infer_instance

theorem fixFirst_eq (enum : Finset N → List N) (vn : VNames N) (arg : FixArg N) (T : BTab N R) :
    fixFirst enum vn arg T = (wantOf arg).map fun want =>
      { T with rows := loopFirst (fixCond T.rows want) setFixed (enum vn.nob) T.rows } := by
  rcases arg with _ | b | d | _
  · rfl
  · cases b <;> rfl
  · rfl
  · rfl

/-- The parts of the result. -/
structure Parts (N R : Type*) where
  V : List (BRow N R)
  A : List (BRow N R)
  C : List (BRow N R)
  M : List (BRow N R)
  D : List (BRow N R)

/-- The rows added by each step, and the rows `A` after `fix_first`. -/
def parts (enum srt : Finset N → List N) (one : N) (vn : VNames N) (fixLv fixMean : Bool)
    (want : N → Bool) (t : List (BRow N R)) : Parts N R :=
  let V := (enum (missVars t vn.all)).map (varRow vn fixLv)
  let A := loopFirst (fixCond (t ++ V) want) setFixed (enum vn.nob) (t ++ V)
  let C := (missCovs srt A vn.lox).map (covRow true) ++ ((missCovs srt A vn.lvx).map (covRow false) ++
    (missCovs srt A vn.enx).map (covRow false))
  let M := (enum (missMeans one (A ++ C) vn.all)).map (meanRow one vn fixMean)
  let D := (enum (missDummies (A ++ C ++ M) vn.lvo)).map dummyRow
  Parts.mk V A C M D

/-- The rows before the last step. -/
def Parts.rows (P : Parts N R) : List (BRow N R) := P.A ++ P.C ++ P.M ++ P.D

theorem truthy_invert (b : Bool) : truthy (pyInvert b) = true := by cases b <;> rfl

theorem addDefault_eq (enum srt : Finset N → List N) (one : N) (vn : VNames N) (o : BOpts N)
    (T : BTab N R) :
    addDefault enum srt one vn o T =
      (wantOf (o.fixFirst.getD (FixArg.bool true))).bind fun want =>
        let P := parts enum srt one vn (o.fixLvVar.getD false) (o.fixLvMean.getD true) want T.rows
        checkInit enum vn { rows := P.rows, hasStart := T.hasStart || !P.V.isEmpty || !P.C.isEmpty ||
          !P.M.isEmpty } := by
  unfold addDefault
  simp only [fixFirst_eq, truthy_invert, Option.bind_eq_bind]
  rcases wantOf (o.fixFirst.getD (FixArg.bool true)) with _ | want
  · rfl
  · simp only [Option.map_some, Option.bind_some]
    rfl

/-- The two flags for covariances are ignored: `~False` and `~True` are `-1` and `-2`. -/
theorem C203_flags_ignored_violated (enum srt : Finset N → List N) (one : N) (vn : VNames N)
    (o : BOpts N) (a b a' b' : Option Bool) (T : BTab N R) :
    addDefault enum srt one vn { o with lvxCov := a, yCov := b } T =
      addDefault enum srt one vn { o with lvxCov := a', yCov := b' } T := by
  rw [addDefault_eq, addDefault_eq]

/-- `fix_first=False`, a documented value, raises. -/
theorem C203_fix_first_false_raises_violated (enum srt : Finset N → List N) (one : N) (vn : VNames N)
    (o : BOpts N) (T : BTab N R) :
    addDefault enum srt one vn { o with fixFirst := some (FixArg.bool false) } T = none := by
  rw [addDefault_eq]
  rfl

section main
variable {enum srt : Finset N → List N} {one : N} {t : List (BRow N R)} {o : BOpts N}
  {T' : BTab N R}

/-- The result in terms of its parts. -/
theorem addDefault_parts (he : Arr enum)
    (h : addDefault enum srt one (classify one t) o { rows := t, hasStart := false } = some T') :
    ∃ want, wantOf (o.fixFirst.getD (FixArg.bool true)) = some want ∧
      let P := parts enum srt one (classify one t) (o.fixLvVar.getD false) (o.fixLvMean.getD true)
        want t
      T'.rows = loopFirst (startCond P.rows) setStart (enum (classify one t).nob) P.rows := by
  rw [addDefault_eq] at h
  obtain ⟨want, hw, h⟩ := Option.bind_eq_some_iff.1 h
  refine ⟨want, hw, ?_⟩
  dsimp only at h ⊢
  unfold checkInit at h
  split_ifs at h with h1 h2 h3
  · rw [Option.some.injEq] at h
    rw [← h]
    have h4 := List.isEmpty_iff.1 h2
    rw [h4]
    rfl
  · rw [Option.some.injEq] at h
    rw [← h]
    unfold loopFirst
    dsimp only
    congr 1
    funext t v
    unfold startCond
    simp only [ite_not]

variable (want : N → Bool) (a b : Bool)

/-- Shorthand for the parts with the classes of `t`. -/
local notation "PP" => parts enum srt one (classify one t) a b want t

theorem A_key : (PP).A.map key = (t ++ (PP).V).map key := map_key_loop keeps_setFixed _ _

theorem rows_key : (PP).rows.map key =
    t.map key ++ (PP).V.map key ++ (PP).C.map key ++ (PP).M.map key ++ (PP).D.map key := by
  unfold Parts.rows
  rw [List.map_append, List.map_append, List.map_append, A_key, List.map_append]

theorem mem_V {r : BRow N R} (h : r ∈ (PP).V) : ∃ v ∈ enum (missVars t (classify one t).all),
    r = varRow (classify one t) a v := by
  obtain ⟨v, hv, rfl⟩ := List.mem_map.1 h
  exact ⟨v, hv, rfl⟩

theorem V_count_var (he : Arr enum) (v : N) : (PP).V.countP (isVar v) =
    if v ∈ (classify one t).all ∧ t.countP (isVar v) = 0 then 1 else 0 := by
  show ((enum (missVars t (classify one t).all)).map (varRow (classify one t) a)).countP (isVar v) = _
  rw [countP_eq_nodup (he _).1 _ _ v (by intro w; simp [isVar, varRow])]
  simp [(he _).2, mem_missVars]

theorem V_count_cov {v w : N} (hvw : v ≠ w) : (PP).V.countP (isCov v w) = 0 := by
  apply countP_zero
  intro u _
  simp only [isCov, varRow, true_and, decide_eq_false_iff_not]
  rintro (⟨h1, h2⟩ | ⟨h1, h2⟩)
  · exact hvw (h1.symm.trans h2)
  · exact hvw (h2.symm.trans h1)

theorem V_count_mean (v : N) : (PP).V.countP (isMean one v) = 0 := by
  apply countP_zero
  intro u _
  simp [isMean, varRow]

theorem V_count_load (v : N) : (PP).V.countP (isLoad v) = 0 := by
  apply countP_zero
  intro u _
  simp [isLoad, varRow]

theorem mem_C {r : BRow N R} (hs : Arr srt) (h : r ∈ (PP).C) :
    ∃ p : N × N, p.1 ≠ p.2 ∧ ((p.1 ∈ (classify one t).lox ∧ p.2 ∈ (classify one t).lox ∧
      r = covRow true p) ∨ r = covRow false p) := by
  have h' : r ∈ (missCovs srt (PP).A (classify one t).lox).map (covRow true) ++
    ((missCovs srt (PP).A (classify one t).lvx).map (covRow false) ++
    (missCovs srt (PP).A (classify one t).enx).map (covRow false)) := h
  simp only [List.mem_append, List.mem_map] at h'
  rcases h' with ⟨p, hp, rfl⟩ | ⟨p, hp, rfl⟩ | ⟨p, hp, rfl⟩
  · have := (List.mem_filter.1 hp).1
    have h3 := lowPairs_mem p this
    rw [(hs _).2, (hs _).2] at h3
    exact ⟨p, lowPairs_ne (hs _).1 p this, Or.inl ⟨h3.1, h3.2, rfl⟩⟩
  · exact ⟨p, lowPairs_ne (hs _).1 p (List.mem_filter.1 hp).1, Or.inr rfl⟩
  · exact ⟨p, lowPairs_ne (hs _).1 p (List.mem_filter.1 hp).1, Or.inr rfl⟩

theorem C_zero (hs : Arr srt) (p : BRow N R → Bool)
    (hp : ∀ b q, q.1 ≠ q.2 → p (covRow b q) = false) : (PP).C.countP p = 0 := by
  rw [List.countP_eq_zero]
  intro r hr
  obtain ⟨q, hq, ⟨-, -, rfl⟩ | rfl⟩ := mem_C want a b hs hr <;> simp [hp _ _ hq]

theorem A_any_cov {v w : N} (hvw : v ≠ w) :
    (PP).A.any (isCov v w) = t.any (isCov v w) := by
  rw [any_key (isCov_key v w), A_key, ← any_key (isCov_key v w), List.any_append]
  have h := V_count_cov (R := R) (enum := enum) (srt := srt) (one := one) (t := t) want a b hvw
  rw [List.countP_eq_zero] at h
  have h2 : (PP).V.any (isCov v w) = false := by
    rw [List.any_eq_false]
    exact h
  rw [h2, Bool.or_false]

/-- Both variables are fixed exogenous, both are exogenous latent, or both are endogenous and not
explanatory: the pairs that get a default covariance. -/
def Paired (vn : VNames N) (v w : N) : Prop :=
  (v ∈ vn.lox ∧ w ∈ vn.lox) ∨ (v ∈ vn.lvx ∧ w ∈ vn.lvx) ∨ (v ∈ vn.enx ∧ w ∈ vn.enx)

instance (vn : VNames N) (v w : N) : Decidable (Paired vn v w) := by unfold Paired; infer_instance

omit [DecidableEq N] [DecidableEq R] [Field R] in
theorem any_false_iff (t : List (BRow N R)) (p : BRow N R → Bool) :
    t.any p = false ↔ t.countP p = 0 := by
  rw [List.any_eq_false, List.countP_eq_zero]

theorem C_count (hs : Arr srt) {v w : N} (hvw : v ≠ w) : (PP).C.countP (isCov v w) =
    if Paired (classify one t) v w ∧ t.countP (isCov v w) = 0 then 1 else 0 := by
  show ((missCovs srt (PP).A (classify one t).lox).map (covRow true) ++
    ((missCovs srt (PP).A (classify one t).lvx).map (covRow false) ++
    (missCovs srt (PP).A (classify one t).enx).map (covRow false))).countP (isCov v w) = _
  rw [List.countP_append, List.countP_append, countP_missCovs hs _ _ _ hvw,
    countP_missCovs hs _ _ _ hvw, countP_missCovs hs _ _ _ hvw, A_any_cov want a b hvw]
  simp only [any_false_iff]
  by_cases h : t.countP (isCov v w) = 0
  · simp only [h, and_true]
    unfold Paired
    by_cases h1 : v ∈ (classify one t).lox
    · simp [h1, lox_lvx one t h1, lox_enx one t h1]
    · by_cases h2 : v ∈ (classify one t).lvx
      · simp [h1, h2, lvx_enx one t h2]
      · simp [h1, h2]
  · simp [h]

theorem M_count (he : Arr enum) (hs : Arr srt) (v : N) : (PP).M.countP (isMean one v) =
    if v ∈ (classify one t).all ∧ t.countP (isMean one v) = 0 then 1 else 0 := by
  show ((enum (missMeans one ((PP).A ++ (PP).C) (classify one t).all)).map
    (meanRow one (classify one t) b)).countP (isMean one v) = _
  rw [countP_eq_nodup (he _).1 _ _ v (by intro w; simp [isMean, meanRow])]
  have h1 : ((PP).A ++ (PP).C).countP (isMean one v) = t.countP (isMean one v) := by
    rw [List.countP_append, C_zero want a b hs _ (by intro b q _; simp [isMean, covRow]), Nat.add_zero,
      countP_key (isMean_key one v), A_key, ← countP_key (isMean_key one v), List.countP_append,
      V_count_mean, Nat.add_zero]
  simp [(he _).2, mem_missMeans, h1]

theorem M_zero (p : BRow N R → Bool) (hp : ∀ v, p (meanRow one (classify one t) b v) = false) :
    (PP).M.countP p = 0 := countP_zero _ _ _ fun v _ => hp v

theorem D_zero (p : BRow N R → Bool) (hp : ∀ v, p (dummyRow v) = false) : (PP).D.countP p = 0 :=
  countP_zero _ _ _ fun v _ => hp v

theorem miss_dummies (hs : Arr srt) :
    missDummies ((PP).A ++ (PP).C ++ (PP).M) (classify one t).lvo = (classify one t).lvo := by
  unfold missDummies
  rw [Finset.filter_eq_self]
  intro v hv
  have h1 : ((PP).A ++ (PP).C ++ (PP).M).countP (isLoad v) = 0 := by
    rw [List.countP_append, List.countP_append,
      C_zero want a b hs _ (by intro b q _; simp [isLoad, covRow]),
      M_zero want a b _ (by intro v; simp [isLoad, meanRow]),
      countP_key (isLoad_key v), A_key, ← countP_key (isLoad_key v), List.countP_append, V_count_load]
    have h2 := lvo_not_nob one t hv
    rw [nob_iff, Bool.not_eq_true, any_false_iff] at h2
    rw [h2]
  rw [any_false_iff, List.countP_eq_zero]
  rw [List.countP_eq_zero] at h1
  intro r hr h3
  refine h1 r hr ?_
  simp only [isDummy, isLoad, decide_eq_true_eq] at h3 ⊢
  exact ⟨h3.2.2.1, h3.2.1⟩

theorem D_eq (hs : Arr srt) : (PP).D = (enum (classify one t).lvo).map dummyRow := by
  show (enum (missDummies ((PP).A ++ (PP).C ++ (PP).M) (classify one t).lvo)).map dummyRow = _
  rw [miss_dummies want a b hs]

/-- The naming columns of the result. -/
theorem result_key
    (hT : T'.rows = loopFirst (startCond (PP).rows) setStart (enum (classify one t).nob) (PP).rows) :
    T'.rows.map key = t.map key ++ (PP).V.map key ++ (PP).C.map key ++ (PP).M.map key ++
      (PP).D.map key := by
  rw [hT, map_key_loop keeps_setStart, rows_key]

theorem result_count {p : N × R3 × N → Bool} {q : BRow N R → Bool} (hq : ∀ r, q r = p (key r))
    (hT : T'.rows = loopFirst (startCond (PP).rows) setStart (enum (classify one t).nob) (PP).rows) :
    T'.rows.countP q = t.countP q + (PP).V.countP q + (PP).C.countP q + (PP).M.countP q +
      (PP).D.countP q := by
  rw [countP_key hq, result_key want a b hT]
  simp only [List.countP_append, ← countP_key hq]

end main

section claims
variable {enum srt : Finset N → List N} {one : N} {t : List (BRow N R)} {o : BOpts N}
  {T' : BTab N R}

/-- The rows of the formula keep their names and their order, and everything else is appended. -/
theorem C203_prefix (he : Arr enum)
    (h : addDefault enum srt one (classify one t) o { rows := t, hasStart := false } = some T') :
    t.map key <+: T'.rows.map key := by
  obtain ⟨want, -, hT⟩ := addDefault_parts he h
  rw [result_key want _ _ hT, List.append_assoc, List.append_assoc, List.append_assoc]
  exact List.prefix_append _ _

/-- Every variable has a variance: one row is added exactly when the formula has none. -/
theorem C203_variances (he : Arr enum) (hs : Arr srt)
    (h : addDefault enum srt one (classify one t) o { rows := t, hasStart := false } = some T')
    (v : N) :
    T'.rows.countP (isVar v) = if v ∈ (classify one t).all then max 1 (t.countP (isVar v))
      else t.countP (isVar v) := by
  obtain ⟨want, -, hT⟩ := addDefault_parts he h
  rw [result_count want _ _ (isVar_key v) hT, V_count_var _ _ _ he,
    C_zero _ _ _ hs _ (by
      intro b q hq
      simp only [isVar, covRow, true_and, decide_eq_false_iff_not]
      exact fun h => hq (h.1.trans h.2.symm)),
    M_zero _ _ _ _ (by intro v; simp [isVar, meanRow]),
    D_zero _ _ _ _ (by intro v; simp [isVar, dummyRow])]
  by_cases h1 : v ∈ (classify one t).all <;> simp only [h1, true_and, false_and, if_true, if_false]
  · split_ifs <;> omega
  · rfl

/-- Every variable has a mean. -/
theorem C203_means (he : Arr enum) (hs : Arr srt)
    (h : addDefault enum srt one (classify one t) o { rows := t, hasStart := false } = some T')
    (v : N) :
    T'.rows.countP (isMean one v) = if v ∈ (classify one t).all then max 1 (t.countP (isMean one v))
      else t.countP (isMean one v) := by
  obtain ⟨want, -, hT⟩ := addDefault_parts he h
  rw [result_count want _ _ (isMean_key one v) hT, V_count_mean, M_count _ _ _ he hs,
    C_zero _ _ _ hs _ (by intro b q hq; simp [isMean, covRow]),
    D_zero _ _ _ _ (by intro v; simp [isMean, dummyRow])]
  by_cases h1 : v ∈ (classify one t).all <;> simp only [h1, true_and, false_and, if_true, if_false]
  · split_ifs <;> omega
  · rfl

/-- Two variables of one class (fixed exogenous, exogenous latent, endogenous and not explanatory)
have a covariance, in one of the two orientations and only once; no other pair gets one. -/
theorem C203_covariances (he : Arr enum) (hs : Arr srt)
    (h : addDefault enum srt one (classify one t) o { rows := t, hasStart := false } = some T')
    {v w : N} (hvw : v ≠ w) :
    T'.rows.countP (isCov v w) =
      if Paired (classify one t) v w then max 1 (t.countP (isCov v w))
      else t.countP (isCov v w) := by
  obtain ⟨want, -, hT⟩ := addDefault_parts he h
  rw [result_count want _ _ (isCov_key v w) hT, V_count_cov _ _ _ hvw, C_count _ _ _ hs hvw,
    M_zero _ _ _ _ (by intro v; simp [isCov, meanRow]),
    D_zero _ _ _ _ (by intro v; simp [isCov, dummyRow])]
  by_cases h1 : Paired (classify one t) v w <;> simp only [h1, true_and, false_and, if_true, if_false]
  · split_ifs <;> omega
  · rfl

/-- What `check_initital_loadings` and `fix_first` do to the first loading. -/
def firstLoad (fix start : Bool) (r : BRow N R) : BRow N R :=
  let r := if fix then setFixed r else r
  if start then setStart r else r

/-- The loadings of a latent variable: its first one is fixed at one when it is to be fixed and no
loading of it is fixed by the formula, and it gets the starting value; the others are unchanged. -/
theorem C203_loadings (he : Arr enum) (hs : Arr srt) (hst : ∀ r ∈ t, r.start = none)
    (h : addDefault enum srt one (classify one t) o { rows := t, hasStart := false } = some T')
    {v : N} (hv : v ∈ (classify one t).nob) :
    ∃ want r rs, wantOf (o.fixFirst.getD (FixArg.bool true)) = some want ∧
      t.filter (isLoad v) = r :: rs ∧
      T'.rows.filter (isLoad v) =
        firstLoad (want v && !((r :: rs).any BRow.fixed)) true r :: rs := by
  obtain ⟨want, hw, hT⟩ := addDefault_parts he h
  dsimp only at hT
  set a := o.fixLvVar.getD false
  set b := o.fixLvMean.getD true
  have hmem : v ∈ enum (classify one t).nob := ((he _).2 v).2 hv
  have hne : t.filter (isLoad v) ≠ [] := by
    rw [nob_iff, List.any_eq_true] at hv
    obtain ⟨r, hr, h1⟩ := hv
    exact List.ne_nil_of_mem (List.mem_filter.2 ⟨hr, h1⟩)
  obtain ⟨r, rs, hrs⟩ := List.exists_cons_of_ne_nil hne
  refine ⟨want, r, rs, hw, hrs, ?_⟩
  set P := parts enum srt one (classify one t) a b want t with hP
  have nil_of_count : ∀ l : List (BRow N R), l.countP (isLoad v) = 0 → l.filter (isLoad v) = [] := by
    intro l hl
    rw [List.countP_eq_length_filter] at hl
    exact List.length_eq_zero_iff.1 hl
  have hV : P.V.filter (isLoad v) = [] := nil_of_count _ (V_count_load _ _ _ v)
  have hC : P.C.filter (isLoad v) = [] :=
    nil_of_count _ (C_zero _ _ _ hs _ (by intro b q _; simp [isLoad, covRow]))
  have hM : P.M.filter (isLoad v) = [] :=
    nil_of_count _ (M_zero _ _ _ _ (by intro v; simp [isLoad, meanRow]))
  have hD : P.D.filter (isLoad v) = [] := by
    refine nil_of_count _ ?_
    rw [hP, D_eq want a b hs]
    refine countP_zero _ _ _ ?_
    intro w hw'
    have h1 := lvo_not_nob one t (((he _).2 w).1 hw')
    simp only [isLoad, dummyRow, true_and, decide_eq_false_iff_not]
    rintro rfl
    exact h1 hv
  have htV : (t ++ P.V).filter (isLoad v) = r :: rs := by rw [List.filter_append, hV, hrs, List.append_nil]
  have hfix : fixCond (t ++ P.V) want v ↔ (want v && !((r :: rs).any BRow.fixed)) = true := by
    unfold fixCond
    have h1 : (t ++ P.V).any (isLoad v) = true := by
      rw [List.any_eq_true]
      have : r ∈ (t ++ P.V).filter (isLoad v) := by rw [htV]; exact List.mem_cons_self
      exact ⟨r, (List.mem_filter.1 this).1, (List.mem_filter.1 this).2⟩
    have h2 : (t ++ P.V).any (fun r => isLoad v r && r.fixed) = (r :: rs).any BRow.fixed := by
      rw [← htV, List.any_filter]
    rw [h1, h2]
    simp
  have hA : P.A.filter (isLoad v) = (if (want v && !((r :: rs).any BRow.fixed)) = true
      then setFixed r else r) :: rs := by
    show (loopFirst (fixCond (t ++ P.V) want) setFixed (enum (classify one t).nob) (t ++ P.V)).filter
      (isLoad v) = _
    rw [loads_loop keeps_setFixed (he _).1, htV]
    simp only [hmem, true_and, hfix]
    split_ifs <;> rfl
  have hrows : P.rows.filter (isLoad v) = (if (want v && !((r :: rs).any BRow.fixed)) = true
      then setFixed r else r) :: rs := by
    unfold Parts.rows
    rw [List.filter_append, List.filter_append, List.filter_append, hA, hC, hM, hD]
    simp
  have hstart : startCond P.rows v := by
    unfold startCond
    rw [← List.any_filter, hrows, List.any_eq_true]
    rintro ⟨x, hx, h1⟩
    have hin : ∀ y ∈ r :: rs, y.start = none := by
      intro y hy
      rw [← hrs] at hy
      exact hst y (List.mem_filter.1 hy).1
    have : x.start = none := by
      rcases List.mem_cons.1 hx with rfl | hx
      · split_ifs
        · exact hin r List.mem_cons_self
        · exact hin r List.mem_cons_self
      · exact hin x (List.mem_cons_of_mem _ hx)
    rw [this] at h1
    simp at h1
  rw [hT, loads_loop keeps_setStart (he _).1, hrows, if_pos ⟨hmem, hstart⟩]
  unfold firstLoad onHead
  simp

/-- An observed variable of the structural part gets one loading, on itself and fixed at one. -/
theorem C203_dummies (he : Arr enum) (hs : Arr srt)
    (h : addDefault enum srt one (classify one t) o { rows := t, hasStart := false } = some T')
    {v : N} (hv : v ∈ (classify one t).lvo) :
    T'.rows.filter (isLoad v) = [dummyRow v] := by
  obtain ⟨want, hw, hT⟩ := addDefault_parts he h
  dsimp only at hT
  set a := o.fixLvVar.getD false
  set b := o.fixLvMean.getD true
  have hnob := lvo_not_nob one t hv
  have hmem : v ∉ enum (classify one t).nob := fun h => hnob (((he _).2 v).1 h)
  rw [hT, loads_loop keeps_setStart (he _).1, if_neg (fun h => hmem h.1)]
  unfold Parts.rows
  rw [List.filter_append]
  have h1 : ((parts enum srt one (classify one t) a b want t).A ++
      (parts enum srt one (classify one t) a b want t).C ++
      (parts enum srt one (classify one t) a b want t).M).countP (isLoad v) = 0 := by
    rw [List.countP_append, List.countP_append,
      C_zero want a b hs _ (by intro b q _; simp [isLoad, covRow]),
      M_zero want a b _ (by intro v; simp [isLoad, meanRow]),
      countP_key (isLoad_key v), A_key, ← countP_key (isLoad_key v), List.countP_append, V_count_load]
    rw [nob_iff, Bool.not_eq_true, any_false_iff] at hnob
    rw [hnob]
  rw [List.countP_eq_length_filter] at h1
  rw [List.length_eq_zero_iff.1 h1, List.nil_append, D_eq want a b hs, List.filter_map]
  have h2 : (isLoad v ∘ (dummyRow : N → BRow N R)) = fun w => w == v := by
    funext w
    simp [isLoad, dummyRow, beq_eq_decide]
  rw [h2, List.filter_beq, List.count_eq_one_of_mem (he _).1 (((he _).2 v).2 hv)]
  rfl

/-- Only the first loading has a starting value.  When the formula fixes no loading and `fix_first` is
left alone, that row is the fixed one: no free loading has a starting value. -/
theorem C203_start_on_fixed_violated (he : Arr enum) (hs : Arr srt) (hst : ∀ r ∈ t, r.start = none)
    (h : addDefault enum srt one (classify one t) o { rows := t, hasStart := false } = some T')
    (ho : o.fixFirst = none) (hfree : ∀ r ∈ t, r.fixed = false) {v : N}
    (hv : v ∈ (classify one t).nob) :
    ∀ r ∈ T'.rows, isLoad v r = true → r.fixed = false → r.start = none := by
  obtain ⟨want, r, rs, hw, hrs, hT⟩ := C203_loadings he hs hst h hv
  rw [ho] at hw
  have hw' : want = fun _ => true := by
    have : some (fun _ : N => true) = some want := hw
    exact (Option.some.inj this).symm
  intro x hx hl hf
  have hx' : x ∈ T'.rows.filter (isLoad v) := List.mem_filter.2 ⟨hx, hl⟩
  have hin : ∀ y ∈ r :: rs, y.start = none ∧ y.fixed = false := by
    intro y hy
    rw [← hrs] at hy
    exact ⟨hst y (List.mem_filter.1 hy).1, hfree y (List.mem_filter.1 hy).1⟩
  have hany : (r :: rs).any BRow.fixed = false := by
    rw [List.any_eq_false]
    intro y hy
    simp [(hin y hy).2]
  rw [hT, hany, hw'] at hx'
  rcases List.mem_cons.1 hx' with rfl | hx'
  · simp [firstLoad, setStart, setFixed] at hf
  · exact (hin x (List.mem_cons_of_mem _ hx')).1

end claims

/-! ### Numbers of the fixed rows -/

section stats
variable {one : N} {vars : List N} {cov : N → N → R} {mean : N → R}

/-- What the loop does to one row. -/
def statStep (one : N) (cov : N → N → R) (mean : N → R) (r : BRow N R) (p : N × N) : BRow N R :=
  let r := if isCov p.1 p.2 r then { r with fixedval := Fv.num (cov p.1 p.2), fixed := true } else r
  if p.1 = p.2 then
    (if isMean one p.1 r then { r with fixedval := Fv.num (mean p.1), fixed := true } else r) else r

theorem updStats_map (t : List (BRow N R)) :
    updStats one vars cov mean t = t.map fun r => (lowDiag vars).foldl (statStep one cov mean) r := by
  unfold updStats
  induction lowDiag vars generalizing t with
  | nil => simp
  | cons p ps ih =>
    rw [List.foldl_cons, ih]
    simp only [List.foldl_cons]
    by_cases h : p.1 = p.2
    · simp only [h, if_true, updValue, List.map_map]
      refine List.map_congr_left fun r _ => ?_
      simp [statStep, h]
    · simp only [h, if_false, updValue, List.map_map]
      refine List.map_congr_left fun r _ => ?_
      simp [statStep, h]

theorem lowDiag_mem {l : List N} : ∀ p, p ∈ lowDiag l → p.1 ∈ l ∧ p.2 ∈ l := by
  induction l with
  | nil => simp [lowDiag]
  | cons v vs ih =>
    intro p hp
    unfold lowDiag at hp
    rcases List.mem_cons.1 hp with rfl | hp
    · exact ⟨List.mem_cons_self, List.mem_cons_self⟩
    rcases List.mem_append.1 hp with h | h
    · obtain ⟨w, hw, rfl⟩ := List.mem_map.1 h
      exact ⟨List.mem_cons_of_mem _ hw, List.mem_cons_self⟩
    · exact ⟨List.mem_cons_of_mem _ (ih p h).1, List.mem_cons_of_mem _ (ih p h).2⟩

theorem lowDiag_both {l : List N} {v w : N} (hv : v ∈ l) (hw : w ∈ l) :
    (v, w) ∈ lowDiag l ∨ (w, v) ∈ lowDiag l := by
  induction l with
  | nil => simp at hv
  | cons a vs ih =>
    unfold lowDiag
    rcases List.mem_cons.1 hv with h1 | h1
    · rcases List.mem_cons.1 hw with h2 | h2
      · left; rw [h1, h2]; exact List.mem_cons_self
      · right
        rw [h1]
        exact List.mem_cons_of_mem _ (List.mem_append_left _ (List.mem_map.2 ⟨w, h2, rfl⟩))
    · rcases List.mem_cons.1 hw with h2 | h2
      · left
        rw [h2]
        exact List.mem_cons_of_mem _ (List.mem_append_left _ (List.mem_map.2 ⟨v, h1, rfl⟩))
      · rcases ih h1 h2 with h | h
        · exact Or.inl (List.mem_cons_of_mem _ (List.mem_append_right _ h))
        · exact Or.inr (List.mem_cons_of_mem _ (List.mem_append_right _ h))

theorem lowDiag_diag {l : List N} {v : N} (hv : v ∈ l) : (v, v) ∈ lowDiag l := by
  rcases lowDiag_both hv hv with h | h <;> exact h

/-- A row that no step touches. -/
theorem fold_same (ps : List (N × N)) (r : BRow N R)
    (h : ∀ p ∈ ps, isCov p.1 p.2 r = false ∧ (p.1 = p.2 → isMean one p.1 r = false)) :
    ps.foldl (statStep one cov mean) r = r := by
  induction ps with
  | nil => rfl
  | cons p ps ih =>
    have h1 := h p List.mem_cons_self
    have h2 : statStep one cov mean r p = r := by
      unfold statStep
      rw [h1.1]
      simp only [Bool.false_eq_true, if_false]
      split_ifs with h3 h4
      · rw [h1.2 h3] at h4
        simp at h4
      · rfl
      · rfl
    rw [List.foldl_cons, h2]
    exact ih fun q hq => h q (List.mem_cons_of_mem _ hq)

/-- A covariance row. -/
theorem fold_cov (hsym : ∀ v w, cov v w = cov w v) (ps : List (N × N)) (r : BRow N R)
    (hr : r.rel = R3.cov) :
    ps.foldl (statStep one cov mean) r =
      if ps.any (samePair r.lhs r.rhs) then
        { r with fixedval := Fv.num (cov r.lhs r.rhs), fixed := true } else r := by
  induction ps generalizing r with
  | nil => rfl
  | cons p ps ih =>
    have hmean : ∀ (x : BRow N R), x.rel = R3.cov → isMean one p.1 x = false := by
      intro x hx
      simp [isMean, hx]
    have h2 : statStep one cov mean r p = if samePair r.lhs r.rhs p then
        { r with fixedval := Fv.num (cov r.lhs r.rhs), fixed := true } else r := by
      unfold statStep
      have hc : isCov p.1 p.2 r = samePair r.lhs r.rhs p := by
        rw [Bool.eq_iff_iff, samePair_iff]
        simp only [isCov, hr, true_and, decide_eq_true_eq]
        constructor
        · rintro (⟨h1, h2⟩ | ⟨h1, h2⟩)
          · exact Or.inl ⟨h1.symm, h2.symm⟩
          · exact Or.inr ⟨h2.symm, h1.symm⟩
        · rintro (⟨h1, h2⟩ | ⟨h1, h2⟩)
          · exact Or.inl ⟨h1.symm, h2.symm⟩
          · exact Or.inr ⟨h2.symm, h1.symm⟩
      rw [hc]
      by_cases hs : samePair r.lhs r.rhs p = true
      · have hval : cov p.1 p.2 = cov r.lhs r.rhs := by
          rcases samePair_iff.1 hs with ⟨h1, h2⟩ | ⟨h1, h2⟩
          · rw [h1, h2]
          · rw [h1, h2, hsym]
        simp only [hs, if_true, hval]
        rw [hmean _ (by exact hr)]
        simp
      · simp only [hs, if_false, Bool.false_eq_true]
        rw [hmean _ hr]
        simp
    rw [List.foldl_cons, h2]
    by_cases hs : samePair r.lhs r.rhs p = true
    · rw [if_pos hs, ih _ (by exact hr)]
      simp only [List.any_cons, hs, Bool.true_or, if_true]
      split_ifs <;> rfl
    · rw [if_neg hs, ih _ hr]
      have : samePair r.lhs r.rhs p = false := by simpa using hs
      simp only [List.any_cons, this, Bool.false_or]

/-- A mean row. -/
theorem fold_mean (ps : List (N × N)) (r : BRow N R) (hr : r.rel = R3.reg) (h1 : r.rhs = one) :
    ps.foldl (statStep one cov mean) r =
      if ps.any (fun p => decide (p = (r.lhs, r.lhs))) then
        { r with fixedval := Fv.num (mean r.lhs), fixed := true } else r := by
  induction ps generalizing r with
  | nil => rfl
  | cons p ps ih =>
    have h2 : statStep one cov mean r p = if decide (p = (r.lhs, r.lhs)) then
        { r with fixedval := Fv.num (mean r.lhs), fixed := true } else r := by
      unfold statStep
      have hc : isCov p.1 p.2 r = false := by simp [isCov, hr]
      rw [hc]
      simp only [Bool.false_eq_true, if_false, isMean, hr, h1, true_and]
      by_cases hp : p = (r.lhs, r.lhs)
      · simp [hp]
      · rw [decide_eq_false hp]
        by_cases h3 : p.1 = p.2
        · have h4 : r.lhs ≠ p.1 := fun h => hp (Prod.ext h.symm (by rw [← h3]; exact h.symm))
          simp [h3, h3 ▸ h4]
        · simp [h3]
    rw [List.foldl_cons, h2]
    by_cases hs : p = (r.lhs, r.lhs)
    · rw [if_pos (by simpa using hs), ih _ (by exact hr) (by exact h1)]
      simp only [List.any_cons, decide_eq_true hs, Bool.true_or, if_true]
      split_ifs <;> rfl
    · rw [if_neg (by simpa using hs), ih _ hr h1]
      simp only [List.any_cons, decide_eq_false hs, Bool.false_or]

/-- The update as a map: covariances and means of the listed variables become the sample moments,
all other rows stay. -/
def statRow (one : N) (vars : List N) (cov : N → N → R) (mean : N → R) (r : BRow N R) : BRow N R :=
  if r.rel = R3.cov ∧ r.lhs ∈ vars ∧ r.rhs ∈ vars then
    { r with fixedval := Fv.num (cov r.lhs r.rhs), fixed := true }
  else if r.rel = R3.reg ∧ r.rhs = one ∧ r.lhs ∈ vars then
    { r with fixedval := Fv.num (mean r.lhs), fixed := true }
  else r

/-- `_update_sample_stats` writes exactly the sample covariances and means. -/
theorem C203_sample_stats (hsym : ∀ v w, cov v w = cov w v) (t : List (BRow N R)) :
    updStats one vars cov mean t = t.map (statRow one vars cov mean) := by
  rw [updStats_map]
  refine List.map_congr_left fun r _ => ?_
  unfold statRow
  by_cases hr : r.rel = R3.cov
  · rw [fold_cov hsym _ _ hr]
    have h1 : (lowDiag vars).any (samePair r.lhs r.rhs) = true ↔ r.lhs ∈ vars ∧ r.rhs ∈ vars := by
      rw [List.any_eq_true]
      constructor
      · rintro ⟨p, hp, h⟩
        have hm := lowDiag_mem p hp
        rcases samePair_iff.1 h with ⟨h1, h2⟩ | ⟨h1, h2⟩
        · rw [h1, h2] at hm; exact hm
        · rw [h1, h2] at hm; exact ⟨hm.2, hm.1⟩
      · rintro ⟨h1, h2⟩
        rcases lowDiag_both h1 h2 with h | h
        · exact ⟨_, h, samePair_iff.2 (Or.inl ⟨rfl, rfl⟩)⟩
        · exact ⟨_, h, samePair_iff.2 (Or.inr ⟨rfl, rfl⟩)⟩
    simp only [h1, hr, true_and, reduceCtorEq, false_and, if_false]
  · by_cases hm : r.rel = R3.reg ∧ r.rhs = one
    · rw [fold_mean _ _ hm.1 hm.2]
      have h1 : (lowDiag vars).any (fun p => decide (p = (r.lhs, r.lhs))) = true ↔ r.lhs ∈ vars := by
        rw [List.any_eq_true]
        constructor
        · rintro ⟨p, hp, h⟩
          rw [of_decide_eq_true h] at hp
          exact (lowDiag_mem _ hp).1
        · intro h
          exact ⟨_, lowDiag_diag h, by simp⟩
      simp only [h1, hm.1, hm.2, true_and, reduceCtorEq, false_and, if_false]
    · rw [fold_same]
      · rw [if_neg (fun h => hr h.1), if_neg (fun h => hm ⟨h.1, h.2.1⟩)]
      · intro p _
        refine ⟨?_, fun _ => ?_⟩
        · simp [isCov, hr]
        · simp only [isMean, decide_eq_false_iff_not]
          exact fun h => hm ⟨h.1, h.2.1⟩

end stats
end Verif.Sem
