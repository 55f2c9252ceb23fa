import Verif.Lmm.Formula
import Mathlib.Tactic

/-!
# C235: a formula with random effects is taken apart into what it was made of
-/

namespace Verif.Lmm

open Verif.Gam

/-! ## Scans -/

theorem findR_skip (u l : List Char) : findR u.length (u ++ l) = findR 0 l := by
  induction u with
  | nil => rfl
  | cons c u ih => exact ih

theorem rem_skip (x u l : List Char) : remove x u.length (u ++ l) = remove x 0 l := by
  induction u with
  | nil => rfl
  | cons c u ih => exact ih

theorem matchR_none {c : Char} {l : List Char} (h : c ≠ '(') : matchR (c :: l) = none := by
  unfold matchR
  split
  · rename_i heq; exact absurd (List.cons.inj heq).1 h
  · rfl

theorem findR_word (u l : List Char) (hu : '(' ∉ u) : findR 0 (u ++ l) = findR 0 l := by
  induction u with
  | nil => rfl
  | cons c u ih =>
    rw [List.cons_append, findR, matchR_none (fun h => hu (by simp [h]))]
    exact ih fun h => hu (List.mem_cons_of_mem _ h)

theorem take_close (s l : List Char) (hs : ')' ∉ s) :
    (s ++ ')' :: l).takeWhile notClose = s ∧ (s ++ ')' :: l).dropWhile notClose = ')' :: l := by
  have : ∀ c ∈ s, notClose c = true := fun c hc => by
    simp only [notClose, bne_iff_ne]; rintro rfl; exact hs hc
  constructor
  · rw [List.takeWhile_append_of_pos this]; simp [notClose]
  · rw [List.dropWhile_append_of_pos this]; simp [notClose]

theorem findR_term (s l : List Char) (hs : ')' ∉ s) (hg : (groupsOf s).isSome) :
    findR 0 ('(' :: (s ++ ')' :: l)) = s :: findR 0 l := by
  have hm : matchR ('(' :: (s ++ ')' :: l)) = some s := by
    simp only [matchR, (take_close s l hs).1, (take_close s l hs).2, hg, if_true]
  rw [findR, hm]
  simp only
  have := findR_skip (s ++ [')']) l
  rw [List.length_append, List.length_singleton, List.append_assoc, List.singleton_append] at this
  rw [this]

theorem remove_text (x u l : List Char) (hx : x.head? = some '(') (hu : '(' ∉ u) : remove x 0 (u ++ l) = u ++ remove x 0 l := by
  induction u with
  | nil => rfl
  | cons c u ih =>
    rw [List.cons_append, remove, if_neg, ih fun h => hu (List.mem_cons_of_mem _ h), List.cons_append]
    cases x with
    | nil => simp at hx
    | cons a x =>
      simp only [List.head?_cons, Option.some.injEq] at hx
      subst hx
      simp only [List.isPrefixOf, Bool.and_eq_true, beq_iff_eq, not_and]
      intro h; exact absurd h (fun h => hu (by rw [h]; exact List.mem_cons_self))

theorem remove_term (s l : List Char) : remove ('(' :: (s ++ [')'])) 0 ('(' :: (s ++ ')' :: l)) = remove ('(' :: (s ++ [')'])) 0 l := by
  have hp : ('(' :: (s ++ [')'])).isPrefixOf ('(' :: (s ++ ')' :: l)) = true := by
    rw [List.isPrefixOf_iff_prefix]
    exact ⟨l, by simp⟩
  rw [remove, if_pos hp]
  have := rem_skip ('(' :: (s ++ [')'])) (s ++ [')']) l
  rw [List.append_assoc, List.singleton_append] at this
  simpa using this

theorem close_cancel : ∀ (i j : List Char), ')' ∉ i → ')' ∉ j → ∀ a b, i ++ ')' :: a = j ++ ')' :: b → i = j
  | [], [], _, _, _, _, _ => rfl
  | [], c :: j, _, hj, _, _, h => by
    simp only [List.nil_append, List.cons_append, List.cons.injEq] at h; exact absurd h.1 (fun e => hj (by rw [e]; exact List.mem_cons_self))
  | c :: i, [], hi, _, _, _, h => by
    simp only [List.nil_append, List.cons_append, List.cons.injEq] at h; exact absurd h.1.symm (fun e => hi (by rw [e]; exact List.mem_cons_self))
  | c :: i, d :: j, hi, hj, a, b, h => by
    simp only [List.cons_append, List.cons.injEq] at h
    rw [h.1, close_cancel i j (fun h => hi (List.mem_cons_of_mem _ h)) (fun h => hj (List.mem_cons_of_mem _ h)) a b h.2]

theorem remove_other_term {s t : List Char} (l : List Char) (hs : ')' ∉ s) (ht : ')' ∉ t) (ht' : '(' ∉ t) (hne : s ≠ t) :
    remove ('(' :: (s ++ [')'])) 0 ('(' :: (t ++ ')' :: l)) = '(' :: (t ++ ')' :: remove ('(' :: (s ++ [')'])) 0 l) := by
  have hp : ¬('(' :: (s ++ [')'])).isPrefixOf ('(' :: (t ++ ')' :: l)) = true := by
    rw [List.isPrefixOf_iff_prefix]
    rintro ⟨r, hr⟩
    simp only [List.cons_append, List.append_assoc, List.nil_append, List.cons.injEq, true_and] at hr
    exact hne (close_cancel s t hs ht _ _ hr)
  rw [remove, if_neg hp]
  have := remove_text ('(' :: (s ++ [')'])) (t ++ [')']) l rfl (by simp [ht'])
  rw [List.append_assoc, List.singleton_append, List.append_assoc, List.singleton_append] at this
  rw [this]

/-! ## The formula -/

/-- Inside of a term. -/
def segOf (t : List Char × List Char) : List Char := t.1 ++ " | ".toList ++ t.2

/-- The terms as written, those in `gone` already removed. -/
def tailText (gone : List (List Char)) (ts : List (List Char × List Char)) : List Char :=
  ts.flatMap fun t => " + ".toList ++ if segOf t ∈ gone then [] else '(' :: (segOf t ++ [')'])

/-- A part of a term: no parentheses or bars, no space around it. -/
structure Part (l : List Char) : Prop where
  open_ : '(' ∉ l
  close : ')' ∉ l
  bar : '|' ∉ l
  ne : l ≠ []
  first : ∀ c ∈ l.head?, c.isWhitespace = false
  last : ∀ c ∈ l.getLast?, c.isWhitespace = false

theorem seg_close {t : List Char × List Char} (h1 : Part t.1) (h2 : Part t.2) : ')' ∉ segOf t ∧ '(' ∉ segOf t := by
  simp only [segOf, List.mem_append, not_or]
  exact ⟨⟨⟨h1.close, by decide⟩, h2.close⟩, ⟨⟨h1.open_, by decide⟩, h2.open_⟩⟩

theorem splitBar_none {l : List Char} (h : '|' ∉ l) : splitBar l = none := by
  induction l with
  | nil => rfl
  | cons c l ih =>
    rw [splitBar, ih fun h' => h (List.mem_cons_of_mem _ h')]
    simp only
    rw [if_neg]
    rintro ⟨rfl, -⟩; exact h (by simp)

theorem splitBar_append (a b : List Char) (hb : '|' ∉ b) (hne : b ≠ []) : splitBar (a ++ '|' :: b) = some (a, b) := by
  induction a with
  | nil => rw [List.nil_append, splitBar, splitBar_none hb]; simp [hne]
  | cons c a ih => rw [List.cons_append, splitBar, ih]

theorem groups_seg {t : List Char × List Char} (h1 : Part t.1) (h2 : Part t.2) : groupsOf (segOf t) = some (t.1 ++ [' '], ' ' :: t.2) := by
  have e : segOf t = (t.1 ++ [' ']) ++ '|' :: (' ' :: t.2) := by simp [segOf]
  have hb : '|' ∉ ' ' :: t.2 := by
    simp only [List.mem_cons, not_or]; exact ⟨by decide, h2.bar⟩
  rw [groupsOf, e, splitBar_append _ _ hb (by simp)]
  simp

theorem dropWhile_self {l : List Char} {p : Char → Bool} (h : ∀ c ∈ l.head?, p c = false) : l.dropWhile p = l := by
  cases l with
  | nil => rfl
  | cons c l => rw [List.dropWhile_cons, h c (by simp)]; simp

theorem strip_part {l : List Char} (h : Part l) : strip (l ++ [' ']) = l ∧ strip (' ' :: l) = l ∧ strip l = l := by
  have hd : l.dropWhile Char.isWhitespace = l := dropWhile_self h.first
  have hr : l.reverse.dropWhile Char.isWhitespace = l.reverse := dropWhile_self fun c hc => h.last c (by rwa [List.head?_reverse] at hc)
  have hd' : (l ++ [' ']).dropWhile Char.isWhitespace = l ++ [' '] := by
    refine dropWhile_self fun c hc => h.first c ?_
    rwa [List.head?_append_of_ne_nil _ h.ne] at hc
  refine ⟨?_, ?_, ?_⟩
  · rw [strip, hd', List.reverse_append]
    simp only [List.reverse_singleton, List.singleton_append, List.dropWhile_cons, show Char.isWhitespace ' ' = true by decide, if_true]
    rw [hr, List.reverse_reverse]
  · rw [strip, List.dropWhile_cons, show Char.isWhitespace ' ' = true by decide, if_pos rfl, hd, hr, List.reverse_reverse]
  · rw [strip, hd, hr, List.reverse_reverse]

theorem findR_tail (ts : List (List Char × List Char)) (h : ∀ t ∈ ts, Part t.1 ∧ Part t.2) : findR 0 (tailText [] ts) = ts.map segOf := by
  induction ts with
  | nil => rfl
  | cons t ts ih =>
    obtain ⟨h1, h2⟩ := h t (by simp)
    have e : tailText [] (t :: ts) = " + ".toList ++ '(' :: (segOf t ++ ')' :: tailText [] ts) := by
      simp [tailText]
    rw [e, findR_word _ _ (by decide), findR_term _ _ (seg_close h1 h2).1 (by rw [groups_seg h1 h2]; rfl),
      ih fun t ht => h t (List.mem_cons_of_mem _ ht), List.map_cons]

theorem remove_tail (gone : List (List Char)) {s : List Char} (hs : ')' ∉ s) (ts : List (List Char × List Char)) (h : ∀ t ∈ ts, Part t.1 ∧ Part t.2) :
    remove ('(' :: (s ++ [')'])) 0 (tailText gone ts) = tailText (s :: gone) ts := by
  induction ts with
  | nil => rfl
  | cons t ts ih =>
    obtain ⟨h1, h2⟩ := h t (by simp)
    have ih := ih fun t ht => h t (List.mem_cons_of_mem _ ht)
    have e : ∀ g, tailText g (t :: ts) = " + ".toList ++ ((if segOf t ∈ g then [] else '(' :: (segOf t ++ [')'])) ++ tailText g ts) := by
      intro g; simp [tailText]
    rw [e, e, remove_text _ _ _ rfl (by decide)]
    congr 1
    by_cases hg : segOf t ∈ gone
    · rw [if_pos hg, if_pos (List.mem_cons_of_mem _ hg), List.nil_append, List.nil_append, ih]
    · rw [if_neg hg, List.cons_append, List.append_assoc, List.singleton_append]
      by_cases hst : s = segOf t
      · subst hst
        rw [remove_term, ih, if_pos (by simp), List.nil_append]
      · rw [remove_other_term _ hs (seg_close h1 h2).1 (seg_close h1 h2).2 hst, ih, if_neg (by simp [hg, Ne.symm hst])]
        simp

theorem remove_all (ss : List (List Char)) (hss : ∀ s ∈ ss, ')' ∉ s) (u : List Char) (hu : '(' ∉ u) (ts : List (List Char × List Char))
    (h : ∀ t ∈ ts, Part t.1 ∧ Part t.2) : ∀ gone, ss.foldl (fun f s => remove ('(' :: (s ++ [')'])) 0 f) (u ++ tailText gone ts) = u ++ tailText (ss.reverse ++ gone) ts := by
  induction ss with
  | nil => intro gone; rfl
  | cons s ss ih =>
    intro gone
    rw [List.foldl_cons, remove_text _ _ _ rfl hu, remove_tail gone (hss s (by simp)) ts h, ih (fun s hs => hss s (List.mem_cons_of_mem _ hs))]
    simp

/-! ## Operators -/

/-- No two operators next to each other. -/
def NoRun (l : List Char) : Prop := l.IsChain fun a b => ¬(isOp a && isOp b) = true

theorem collapse_noRun : ∀ {l : List Char}, NoRun l → collapse l = l
  | [], _ => rfl
  | [c], _ => rfl
  | c :: d :: l, h => by
    have h' := List.isChain_cons_cons.1 h
    rw [collapse, if_neg h'.1, collapse_noRun h'.2]

/-- The `+` and spaces left over from `k` terms. -/
def leftover (k : ℕ) : List Char := (List.replicate k " + ".toList).flatten

theorem tail_gone (gone : List (List Char)) (ts : List (List Char × List Char)) (h : ∀ t ∈ ts, segOf t ∈ gone) : tailText gone ts = leftover ts.length := by
  induction ts with
  | nil => rfl
  | cons t ts ih =>
    have : tailText gone (t :: ts) = " + ".toList ++ tailText gone ts := by simp [tailText, h t (by simp)]
    rw [this, ih fun t ht => h t (List.mem_cons_of_mem _ ht)]
    rfl

theorem noRun_leftover (k : ℕ) : NoRun (leftover k) ∧ ∀ c ∈ (leftover k).head?, c = ' ' := by
  induction k with
  | zero => exact ⟨List.IsChain.nil, by simp [leftover]⟩
  | succ k ih =>
    have e : leftover (k + 1) = " + ".toList ++ leftover k := rfl
    refine ⟨?_, by rw [e]; simp⟩
    rw [e, NoRun, List.isChain_append]
    refine ⟨?_, ih.1, ?_⟩
    · show List.IsChain _ [' ', '+', ' ']
      simp only [List.isChain_cons_cons, List.isChain_singleton]; decide
    · intro x hx y hy
      rw [ih.2 y hy]; simp [isOp]

theorem trim_leftover (l : List Char) (k : ℕ) (hl : ∀ c ∈ l.getLast?, (c == '+' || c.isWhitespace) = false) : trimPlus (l ++ leftover k) = l := by
  have h1 : ∀ c ∈ (leftover k).reverse, (c == '+' || c.isWhitespace) = true := by
    intro c hc
    rw [List.mem_reverse, leftover, List.mem_flatten] at hc
    obtain ⟨w, hw, hc⟩ := hc
    rw [List.mem_replicate] at hw
    rw [hw.2] at hc
    have : c ∈ [' ', '+', ' '] := hc
    simp only [List.mem_cons, List.not_mem_nil, or_false] at this
    rcases this with rfl | rfl | rfl <;> decide
  rw [trimPlus, List.reverse_append, List.dropWhile_append_of_pos h1, dropWhile_self, List.reverse_reverse]
  intro c hc; rw [List.head?_reverse] at hc; exact hl c hc

theorem splitAt_none {s : Char} {l : List Char} (h : s ∉ l) : splitAt s l = [l] := by
  induction l with
  | nil => rfl
  | cons c l ih =>
    rw [splitAt, if_neg (fun e => h (by simp [e])), ih fun h' => h (List.mem_cons_of_mem _ h')]

/-- A fixed part: no parentheses, tilde or runs of operators, no space around it. -/
structure Fixed (l : List Char) : Prop where
  part : Part l
  tilde : '~' ∉ l
  run : NoRun l
  plus : l.getLast? ≠ some '+'

/-- A response. -/
structure Resp (l : List Char) : Prop where
  part : Part l
  tilde : '~' ∉ l
  comma : ',' ∉ l
  run : NoRun l

/-- **C235** whatever `to_lme4_formula` writes, `parse_random_effects` reads back: response, fixed part and random effects in order. -/
theorem C235_roundtrip {y fe : List Char} (hy : Resp y) (hf : Fixed fe) {ts : List (List Char × List Char)} (hne : ts ≠ [])
    (ht : ∀ t ∈ ts, Part t.1 ∧ Part t.2) :
    ∃ i, parseRanef (toFormula y fe ts) = some i ∧ i.yVars = [y] ∧ i.feForm = fe ∧ i.reTerms = ts := by
  set u := y ++ " ~ ".toList ++ fe with hu
  have e0 : toFormula y fe ts = u ++ tailText [] ts := by
    simp [toFormula, tailText, segOf, hu]
  have hu0 : '(' ∉ u := by
    simp only [hu, List.mem_append, not_or]; exact ⟨⟨hy.part.open_, by decide⟩, hf.part.open_⟩
  have hfind : findR 0 (toFormula y fe ts) = ts.map segOf := by rw [e0, findR_word _ _ hu0, findR_tail ts ht]
  have hmap : (ts.map segOf).mapM (fun s => (groupsOf s).map fun g => (strip g.1, strip g.2)) = some ts := by
    clear hfind e0 hne
    induction ts with
    | nil => rfl
    | cons t ts ih =>
      obtain ⟨h1, h2⟩ := ht t (by simp)
      rw [List.map_cons, List.mapM_cons, groups_seg h1 h2, ih fun t h => ht t (List.mem_cons_of_mem _ h)]
      simp [(strip_part h1).1, (strip_part h2).2.1]
  have hrem : (ts.map segOf).foldl (fun f s => remove ('(' :: (s ++ [')'])) 0 f) (toFormula y fe ts) = u ++ leftover ts.length := by
    rw [e0, remove_all (ts.map segOf) ?_ u hu0 ts ht [], tail_gone]
    · intro t h; simp only [List.append_nil, List.mem_reverse, List.mem_map]; exact ⟨t, h, rfl⟩
    · intro s hs
      obtain ⟨t, h, rfl⟩ := List.mem_map.1 hs
      exact (seg_close (ht t h).1 (ht t h).2).1
  have hrun : NoRun (u ++ leftover ts.length) := by
    have h1 : NoRun (y ++ " ~ ".toList) := by
      rw [NoRun, List.isChain_append]
      refine ⟨hy.run, ?_, ?_⟩
      · show List.IsChain _ [' ', '~', ' ']
        simp only [List.isChain_cons_cons, List.isChain_singleton]; decide
      · intro a _ b hb
        have : b = ' ' := by simpa using hb.symm
        simp [this, isOp]
    have h2 : NoRun u := by
      rw [hu, NoRun, List.isChain_append]
      refine ⟨h1, hf.run, ?_⟩
      intro a ha b _
      have : a = ' ' := by
        rw [List.getLast?_append_of_ne_nil _ (by decide)] at ha
        simpa using ha.symm
      simp [this, isOp]
    rw [NoRun, List.isChain_append]
    refine ⟨h2, (noRun_leftover _).1, ?_⟩
    intro a _ b hb
    rw [(noRun_leftover _).2 b hb]; simp [isOp]
  have hl : '~' ∉ leftover ts.length := by
    intro h
    rw [leftover, List.mem_flatten] at h
    obtain ⟨w, hw, hc⟩ := h
    rw [List.mem_replicate] at hw
    rw [hw.2] at hc
    exact absurd hc (by decide)
  have hsplit : splitTilde (u ++ leftover ts.length) = some (y ++ [' '], ' ' :: (fe ++ leftover ts.length)) := by
    have e : u ++ leftover ts.length = (y ++ [' ']) ++ '~' :: (' ' :: (fe ++ leftover ts.length)) := by simp [hu]
    have hy' : ∀ c ∈ y ++ [' '], (c != '~') = true := by
      intro c hc
      rw [bne_iff_ne]; rintro rfl
      rw [List.mem_append] at hc
      rcases hc with h | h
      · exact hy.tilde h
      · exact absurd h (by decide)
    have hc : (u ++ leftover ts.length).count '~' = 1 := by
      rw [e, List.count_append, List.count_cons_self, List.count_eq_zero_of_not_mem, List.count_eq_zero_of_not_mem]
      · simp only [List.mem_cons, List.mem_append, not_or]; exact ⟨by decide, hf.tilde, hl⟩
      · intro h; exact absurd (hy' _ h) (by decide)
    rw [splitTilde, if_pos hc, e, List.takeWhile_append_of_pos hy', List.dropWhile_append_of_pos hy']
    simp
  have hfe : strip (trimPlus (' ' :: (fe ++ leftover ts.length))) = fe := by
    rw [← List.cons_append, trim_leftover, (strip_part hf.part).2.1]
    intro c hc
    rw [List.getLast?_cons_of_ne_nil hf.part.ne] at hc
    rw [Bool.or_eq_false_iff]
    refine ⟨?_, hf.part.last c hc⟩
    rw [beq_eq_false_iff_ne]; rintro rfl; exact hf.plus hc
  have hyv : (splitAt ',' ((y ++ [' ']).filter fun c => c != '(' && c != ')')).map strip = [y] := by
    have : (y ++ [' ']).filter (fun c => c != '(' && c != ')') = y ++ [' '] := by
      rw [List.filter_eq_self]
      intro c hc
      rw [List.mem_append] at hc
      rcases hc with h | h
      · simp only [Bool.and_eq_true, bne_iff_ne]
        exact ⟨fun e => hy.part.open_ (e ▸ h), fun e => hy.part.close (e ▸ h)⟩
      · have : c = ' ' := by simpa using h
        subst this; decide
    rw [this, splitAt_none, List.map_singleton, (strip_part hy.part).1]
    simp only [List.mem_append, not_or]; exact ⟨hy.comma, by decide⟩
  refine ⟨⟨[y], fe, ts, ((splitAt '+' fe ++ ts.flatMap fun t => splitAt '+' t.1).eraseDups).filter fun x => x ≠ ['0'] ∧ x ≠ ['1']⟩, ?_, rfl, rfl, rfl⟩
  unfold parseRanef
  simp only [hfind, hmap, hrem, collapse_noRun hrun, hsplit, Option.bind_eq_bind, Option.bind_some, hfe, hyv, if_neg hne]

/-- **C235** without random effects an error is raised. -/
theorem C235_none_violated (formula : List Char) (h : findR 0 formula = []) : parseRanef formula = none := by
  unfold parseRanef
  rw [h]
  simp only [List.mapM_nil, Option.pure_def, Option.bind_eq_bind, Option.bind_some, if_true]
  cases splitTilde (collapse formula) <;> simp

example : findR 0 "y ~ x".toList = [] := by decide +kernel

/-- **C235** names are taken apart at `+` without removing the spaces: the constant stays among the variables and the same variable occurs twice. -/
theorem C235_variables_violated : (parseRanef "y ~ 1 + x + (1 + x | g)".toList).map Info.xVars = some ["1 ".toList, " x".toList] ∧
    (parseRanef "y ~ x+z+(1+z | g)".toList).map Info.xVars = some ["x".toList, "z".toList] ∧
    (parseRanef "y ~ x + z + (1 + x | g)".toList).map Info.xVars = some ["x ".toList, " z".toList, "1 ".toList, " x".toList] := by decide +kernel

/-- **C235** a double bar, which asks for uncorrelated effects, leaves a bar in the formula of the effects. -/
theorem C235_double_bar_violated : (parseRanef "y ~ x + (x || g)".toList).map Info.reTerms = some [("x |".toList, "g".toList)] := by decide +kernel

/-- **C235** a function in the fixed part is harmless, one in a random effect is not: the term is no longer recognised as a whole. -/
theorem C235_function_violated :
    (parseRanef "y ~ log(x) + (1 | g)".toList).map (fun i => (i.feForm, i.reTerms)) = some ("log(x)".toList, [("1".toList, "g".toList)]) ∧
    parseRanef "y ~ x + (log(x) | g)".toList = none := by decide +kernel

/-- **C235** a minus before a term which is removed makes the fixed part end with an operator. -/
theorem C235_minus_violated : (parseRanef "y ~ x - (1 | g)".toList).map Info.feForm = some "x -".toList := by decide +kernel

/-- Only random effects: the fixed part is empty. -/
theorem C235_empty_violated : (parseRanef "y ~ (1 | g)".toList).map Info.feForm = some [] := by decide +kernel

example : Part "x + z".toList ∧ Fixed "1 + x".toList ∧ Resp "y".toList := by
  have p1 : Part "x + z".toList := ⟨by decide, by decide, by decide, by decide, by decide, by decide⟩
  have p2 : Part "1 + x".toList := ⟨by decide, by decide, by decide, by decide, by decide, by decide⟩
  have p3 : Part "y".toList := ⟨by decide, by decide, by decide, by decide, by decide, by decide⟩
  refine ⟨p1, ⟨p2, by decide, ?_, by decide⟩, ⟨p3, by decide, by decide, ?_⟩⟩
  · show List.IsChain _ ['1', ' ', '+', ' ', 'x']
    simp only [List.isChain_cons_cons, List.isChain_singleton]; decide
  · exact List.isChain_singleton _

end Verif.Lmm
