import Verif.Sem.FormulaSpec
import Mathlib.Data.List.TakeWhile
/-!
# C28: parsing model formulas
-/
namespace Verif.Sem

/-! ### Outer stripping only changes padding -/

theorem render_ne_nil {t : Padded} (h : t.WF) : t.render ≠ [] := by
  unfold Padded.render
  intro h0
  simp only [List.append_eq_nil_iff] at h0
  exact h.2.2.1 h0.1.2

/-- Dropping leading whitespace of a text gives a text with the same rows. -/
theorem text_lstrip {V : Type} (pyFloat : List Char → Option V) (ls : List Line)
    (hw : ∀ l ∈ ls, l.WF) : ∃ ls' : List Line, (∀ l ∈ ls', l.WF) ∧
      ls'.flatMap (Line.rows pyFloat) = ls.flatMap (Line.rows pyFloat) ∧
      text ls' = (text ls).dropWhile isWs := by
  induction ls with
  | nil => exact ⟨[], by simp, rfl, rfl⟩
  | cons l ls ih =>
    obtain ⟨ls', h1, h2, h3⟩ := ih (fun x hx => hw x (List.mem_cons_of_mem _ hx))
    have hl := hw l (by simp)
    cases l with
    | blank p =>
      have hp : ∀ c ∈ p, isWs c = true := fun c hc => (hl c hc).1
      refine ⟨ls', h1, by simpa [Line.rows] using h2, ?_⟩
      by_cases hls : ls = []
      · subst hls
        rw [h3]
        show _ = p.dropWhile isWs
        rw [dropWhile_all p hp]; rfl
      · have : text (Line.blank p :: ls) = (p ++ ['\n']) ++ text ls := by
          unfold text
          rw [List.map_cons, joinWith_cons _ _ _ (by simpa using hls)]; rfl
        rw [this, dropWhile_pad _ _ (by
          intro c hc
          rw [List.mem_append, List.mem_singleton] at hc
          rcases hc with hc | rfl
          · exact hp c hc
          · decide), h3]
    | eqn e =>
      have he : e.WF := hl
      obtain ⟨t, ts, hts⟩ := List.exists_cons_of_ne_nil he.1
      have ht : t.WF := he.2.2.1 t (by rw [hts]; simp)
      let t' : Padded := Padded.mk [] t.body t.post
      let e' : Eqn := Eqn.mk (t' :: ts) e.rel e.rhs
      have ht' : t'.WF := ⟨by simp [t'], ht.2.1, ht.2.2⟩
      have he' : e'.WF := by
        refine ⟨by simp [e'], he.2.1, ?_, he.2.2.2⟩
        intro x hx
        rcases List.mem_cons.1 hx with rfl | hx
        · exact ht'
        · exact he.2.2.1 x (by rw [hts]; exact List.mem_cons_of_mem _ hx)
      -- splitting off the first word
      have hleft : ∃ s, e.left = t.render ++ s ∧ e'.left = t'.render ++ s := by
        by_cases h0 : ts = []
        · refine ⟨[], ?_, ?_⟩ <;> simp [Eqn.left, hts, e', h0, joinWith]
        · refine ⟨['+'] ++ joinWith ['+'] (ts.map Padded.render), ?_, ?_⟩
          · rw [Eqn.left, hts, List.map_cons, joinWith_cons _ _ _ (by simpa using h0)]; simp
          · rw [Eqn.left, List.map_cons, joinWith_cons _ _ _ (by simpa using h0)]; simp
      obtain ⟨s, hs, hs'⟩ := hleft
      have htext : ∃ s2, text (Line.eqn e :: ls) = t.render ++ s2 ∧
          text (Line.eqn e' :: ls) = t'.render ++ s2 := by
        by_cases h0 : ls = []
        · refine ⟨s ++ e.rel.render ++ e.right, ?_, ?_⟩
          · subst h0; show e.left ++ e.rel.render ++ e.right = _; rw [hs]; simp
          · subst h0; show e'.left ++ e.rel.render ++ e.right = _; rw [hs']; simp
        · refine ⟨s ++ e.rel.render ++ e.right ++ ['\n'] ++ text ls, ?_, ?_⟩
          · unfold text
            rw [List.map_cons, joinWith_cons _ _ _ (by simpa using h0)]
            show e.left ++ e.rel.render ++ e.right ++ ['\n'] ++ _ = _
            rw [hs]; simp
          · unfold text
            rw [List.map_cons, joinWith_cons _ _ _ (by simpa using h0)]
            show e'.left ++ e.rel.render ++ e.right ++ ['\n'] ++ _ = _
            rw [hs']; simp
      obtain ⟨s2, h4, h5⟩ := htext
      refine ⟨Line.eqn e' :: ls, ?_, ?_, ?_⟩
      · intro x hx
        rcases List.mem_cons.1 hx with rfl | hx
        · exact he'
        · exact hw x (List.mem_cons_of_mem _ hx)
      · simp only [List.flatMap_cons, Line.rows, Eqn.rows, e', hts]
        congr 1
      · rw [h4, h5]
        unfold Padded.render
        rw [List.append_assoc t.pre, List.append_assoc t.pre, List.append_assoc t.body,
          dropWhile_pad _ _ (fun c hc => (ht.1 c hc).1),
          dropWhile_body _ _ ht.2.2.1 (fun c hc => (ht.2.2.2 c hc).1)]
        simp [t']

/-- Dropping trailing whitespace of a text gives a text with the same rows. -/
theorem text_rstrip {V : Type} (pyFloat : List Char → Option V) (ls : List Line)
    (hw : ∀ l ∈ ls, l.WF) : ∃ ls' : List Line, (∀ l ∈ ls', l.WF) ∧
      ls'.flatMap (Line.rows pyFloat) = ls.flatMap (Line.rows pyFloat) ∧
      text ls' = ((text ls).reverse.dropWhile isWs).reverse := by
  induction ls using List.reverseRecOn with
  | nil => exact ⟨[], by simp, rfl, rfl⟩
  | append_singleton ls l ih =>
    obtain ⟨ls', h1, h2, h3⟩ := ih (fun x hx => hw x (List.mem_append_left _ hx))
    have hl := hw l (by simp)
    cases l with
    | blank p =>
      have hp : ∀ c ∈ p, isWs c = true := fun c hc => (hl c hc).1
      refine ⟨ls', h1, by simpa [Line.rows] using h2, ?_⟩
      by_cases hls : ls = []
      · subst hls
        rw [h3]
        show _ = (p.reverse.dropWhile isWs).reverse
        rw [dropWhile_all p.reverse (by intro c hc; exact hp c (List.mem_reverse.1 hc))]; rfl
      · have : text (ls ++ [Line.blank p]) = text ls ++ (['\n'] ++ p) := by
          unfold text
          rw [List.map_append, List.map_singleton, joinWith_concat _ _ _ (by simpa using hls)]
          simp [Line.render]
        rw [this, List.reverse_append, dropWhile_pad _ _ (by
          intro c hc
          rw [List.mem_reverse, List.mem_append, List.mem_singleton] at hc
          rcases hc with rfl | hc
          · decide
          · exact hp c hc), h3]
    | eqn e =>
      have he : e.WF := hl
      obtain ⟨ts, t, hts⟩ : ∃ ts t, e.rhs = ts ++ [t] :=
        ⟨_, _, (List.dropLast_append_getLast he.2.1).symm⟩
      have ht : t.WF := he.2.2.2 t (by rw [hts]; simp)
      let t' : Term := Term.mk t.mod (Padded.mk t.name.pre t.name.body [])
      let e' : Eqn := Eqn.mk e.lhs e.rel (ts ++ [t'])
      have ht' : t'.WF := ⟨⟨ht.1.1, fun c hc => absurd hc List.not_mem_nil, ht.1.2.2⟩, ht.2⟩
      have he' : e'.WF := by
        refine ⟨he.1, by simp [e'], he.2.2.1, ?_⟩
        intro x hx
        rcases List.mem_append.1 hx with hx | hx
        · exact he.2.2.2 x (by rw [hts]; exact List.mem_append_left _ hx)
        · rw [List.mem_singleton.1 hx]; exact ht'
      have hterm : ∃ s, t.render = s ++ (t.name.body ++ t.name.post) ∧
          t'.render = s ++ t.name.body := by
        unfold Term.render
        rcases hm : t.mod with _ | m
        · exact ⟨t.name.pre, by simp [Padded.render], by simp [t', hm, Padded.render]⟩
        · exact ⟨m.render ++ ['*'] ++ t.name.pre, by simp [Padded.render],
            by simp [t', hm, Padded.render]⟩
      obtain ⟨s0, hs0, hs0'⟩ := hterm
      have hright : ∃ s, e.right = s ++ (t.name.body ++ t.name.post) ∧
          e'.right = s ++ t.name.body := by
        by_cases h0 : ts = []
        · refine ⟨s0, ?_, ?_⟩
          · simp [Eqn.right, hts, h0, joinWith, hs0]
          · simp [Eqn.right, e', h0, joinWith, hs0']
        · refine ⟨joinWith ['+'] (ts.map Term.render) ++ ['+'] ++ s0, ?_, ?_⟩
          · rw [Eqn.right, hts, List.map_append, List.map_singleton,
              joinWith_concat _ _ _ (by simpa using h0), hs0]; simp
          · rw [Eqn.right, List.map_append, List.map_singleton,
              joinWith_concat _ _ _ (by simpa using h0), hs0']; simp
      obtain ⟨s, hs, hs'⟩ := hright
      have htext : ∃ s2, text (ls ++ [Line.eqn e]) = s2 ++ (t.name.body ++ t.name.post) ∧
          text (ls ++ [Line.eqn e']) = s2 ++ t.name.body := by
        by_cases h0 : ls = []
        · refine ⟨e.left ++ e.rel.render ++ s, ?_, ?_⟩
          · subst h0; show e.left ++ e.rel.render ++ e.right = _; rw [hs]; simp
          · subst h0; show e.left ++ e.rel.render ++ e'.right = _; rw [hs']; simp
        · refine ⟨text ls ++ ['\n'] ++ e.left ++ e.rel.render ++ s, ?_, ?_⟩
          · unfold text
            rw [List.map_append, List.map_singleton, joinWith_concat _ _ _ (by simpa using h0)]
            show _ ++ ['\n'] ++ (e.left ++ e.rel.render ++ e.right) = _
            rw [hs]; simp
          · unfold text
            rw [List.map_append, List.map_singleton, joinWith_concat _ _ _ (by simpa using h0)]
            show _ ++ ['\n'] ++ (e.left ++ e.rel.render ++ e'.right) = _
            rw [hs']; simp
      obtain ⟨s2, h4, h5⟩ := htext
      refine ⟨ls ++ [Line.eqn e'], ?_, ?_, ?_⟩
      · intro x hx
        rcases List.mem_append.1 hx with hx | hx
        · exact hw x (List.mem_append_left _ hx)
        · rw [List.mem_singleton.1 hx]; exact he'
      · rw [List.flatMap_append, List.flatMap_append]
        congr 1
        simp only [List.flatMap_cons, List.flatMap_nil, Line.rows, Eqn.rows, e', hts,
          List.map_append, List.map_singleton, List.append_nil]
        apply List.flatMap_congr
        intro x _
        congr 1
      · rw [h4, h5, List.reverse_append, List.reverse_append, List.append_assoc,
          dropWhile_pad _ _ (by intro c hc; exact (ht.1.2.1 c (List.mem_reverse.1 hc)).1),
          dropWhile_body _ _ (by simpa using ht.1.2.2.1)
            (by intro c hc; exact (ht.1.2.2.2 c (List.mem_reverse.1 hc)).1)]
        simp

theorem text_no_hash (ls : List Line) (hw : ∀ l ∈ ls, l.WF) : '#' ∉ text ls := by
  intro h
  rcases mem_joinWith _ _ _ h with h | ⟨p, hp, h⟩
  · simp at h
  · obtain ⟨l, hl, rfl⟩ := List.mem_map.1 hp
    have := hw l hl
    cases l with
    | blank p => exact absurd (this _ h).1 (by decide)
    | eqn e => exact e.not_mem this '#' (by simp) h

theorem line_no_nl (l : Line) (hw : l.WF) : '\n' ∉ l.render := by
  cases l with
  | blank p => exact fun h => (hw _ h).2 rfl
  | eqn e => exact e.not_mem hw '\n' (by simp)

theorem strip_empty_iff (l : Line) (hw : l.WF) :
    (strip l.render).isEmpty = match l with | .blank _ => true | .eqn _ => false := by
  cases l with
  | blank p =>
    show (strip p).isEmpty = true
    rw [strip_blank p (fun c hc => (hw c hc).1)]; rfl
  | eqn e =>
    show (strip e.render).isEmpty = false
    have he : e.WF := hw
    -- the relation symbol is not blank, so stripping cannot remove it
    rw [Bool.eq_false_iff]
    intro h
    have h0 : strip e.render = [] := List.isEmpty_iff.1 h
    unfold strip at h0
    rw [List.reverse_eq_nil_iff, List.dropWhile_eq_nil_iff] at h0
    have hall : ∀ c ∈ e.render.dropWhile isWs, isWs c = true :=
      fun c hc => h0 c (List.mem_reverse.2 hc)
    have hall2 : ∀ c ∈ e.render, isWs c = true := by
      intro c hc
      rw [← List.takeWhile_append_dropWhile (p := isWs) (l := e.render), List.mem_append] at hc
      rcases hc with hc | hc
      · exact List.mem_takeWhile_imp hc
      · exact hall c hc
    have : '~' ∈ e.render := by
      unfold Eqn.render
      rcases e.rel <;> simp [Rel.render]
    exact absurd (hall2 _ this) (by decide)

theorem mapM_lines {V : Type} (pyFloat : List Char → Option V) (ls : List Line)
    (hw : ∀ l ∈ ls, l.WF) :
    (((ls.map Line.render).filter fun e => !(strip e).isEmpty).mapM
      (unpackEquation pyFloat)).map List.flatten = some (ls.flatMap (Line.rows pyFloat)) := by
  induction ls with
  | nil => rfl
  | cons l ls ih =>
    have ih' := ih (fun x hx => hw x (List.mem_cons_of_mem _ hx))
    have hl := hw l (by simp)
    rw [List.map_cons, List.filter_cons, strip_empty_iff l hl]
    cases l with
    | blank p => simpa [Line.rows] using ih'
    | eqn e =>
      simp only [Bool.not_false, if_true]
      rw [List.mapM_cons]
      have hu := unpack_spec pyFloat e hl
      show Option.map List.flatten (do
        let r ← unpackEquation pyFloat e.render
        let rs ← List.mapM (unpackEquation pyFloat) _
        pure (r :: rs)) = _
      rw [hu]
      rcases hm : List.mapM (unpackEquation pyFloat)
        ((ls.map Line.render).filter fun e => !(strip e).isEmpty) with _ | rs
      · rw [hm] at ih'; simp at ih'
      · rw [hm] at ih'
        simp only [Option.map_some, Option.some.injEq] at ih'
        simp [Line.rows, ← ih']

/-- C28: a model text — lines that are blank or an equation `a + b rel [mod*]c + ...` with any
blank padding — parses to exactly one row per (left name, right term) pair, in order, carrying the
stated relation, names and modifier. -/
theorem C28_parse {V : Type} (pyFloat : List Char → Option V) (ls : List Line)
    (hw : ∀ l ∈ ls, l.WF) :
    parseFormula pyFloat (text ls) = some (ls.flatMap (Line.rows pyFloat)) := by
  unfold parseFormula
  simp only
  rw [strip_none _ (text_no_hash ls hw)]
  obtain ⟨l1, w1, r1, t1⟩ := text_lstrip pyFloat ls hw
  obtain ⟨l2, w2, r2, t2⟩ := text_rstrip pyFloat l1 w1
  have hs : strip (text ls) = text l2 := by rw [t2, t1]; rfl
  rw [hs, ← r1, ← r2]
  by_cases h0 : l2 = []
  · subst h0; rfl
  · have : splitOn ['\n'] (text l2) = l2.map Line.render := by
      apply splitOn_join
      · simpa using h0
      · intro p hp
        obtain ⟨l, hl, rfl⟩ := List.mem_map.1 hp
        exact line_no_nl l (w2 l hl)
    rw [this]
    exact mapM_lines pyFloat l2 w2

/-- A text made of segments: `#`-free code not ending in a blank, then comments. -/
def commented (segs : List (List Char × List (List Char × List Char))) : List Char :=
  segs.flatMap fun s => s.1 ++ s.2.flatMap fun c => c.1 ++ '#' :: c.2

/-- Comment chunks are (blanks, text without line break), and a comment is followed by a line break
(possibly as the first blank of the next comment) or the end. -/
def commentsWF : List (List Char × List (List Char × List Char)) → Prop
  | [] => True
  | (e, cs) :: segs => '#' ∉ e ∧ (∀ c, e.getLast? = some c → isWs c = false) ∧
      (∀ c ∈ cs, (∀ x ∈ c.1, isWs x = true) ∧ '\n' ∉ c.2) ∧
      (∀ c ∈ cs.tail, ∃ w, c.1 = '\n' :: w) ∧
      (cs ≠ [] → segs = [] ∨ ∃ e' cs' rest, segs = ('\n' :: e', cs') :: rest) ∧ commentsWF segs

/-- C28: comments are removed and nothing else. -/
theorem C28_comments (segs : List (List Char × List (List Char × List Char)))
    (h : commentsWF segs) : stripComments (commented segs) = segs.flatMap fun s => s.1 := by
  induction segs with
  | nil => rfl
  | cons s segs ih =>
    obtain ⟨e, cs⟩ := s
    obtain ⟨h1, h2, h3, h4, h5, h6⟩ := h
    have hcs : stripComments ((cs.flatMap fun c => c.1 ++ '#' :: c.2) ++ commented segs) =
        stripComments (commented segs) := by
      have hrest : cs ≠ [] → commented segs = [] ∨ ∃ r, commented segs = '\n' :: r := by
        intro hne
        rcases h5 hne with rfl | ⟨e', cs', rest, rfl⟩
        · left; rfl
        · right; exact ⟨_, rfl⟩
      clear h5 ih h6
      induction cs with
      | nil => rfl
      | cons c cs ihc =>
        have hc := h3 c (by simp)
        rw [List.flatMap_cons, List.append_assoc, strip_comment c.1 c.2 _ hc.1 hc.2]
        · apply ihc
          · exact fun x hx => h3 x (List.mem_cons_of_mem _ hx)
          · intro x hx; exact h4 x (List.mem_of_mem_tail hx)
          · intro _; exact hrest (by simp)
        · cases cs with
          | nil => exact hrest (by simp)
          | cons d ds =>
            obtain ⟨w, hd⟩ := h4 d (by simp)
            right
            exact ⟨_, by rw [List.flatMap_cons, hd]; rfl⟩
    show stripComments ((e ++ cs.flatMap fun c => c.1 ++ '#' :: c.2) ++ commented segs) = _
    rw [List.append_assoc, strip_keep e _ h1 h2, hcs, ih h6]
    rfl

/-! ### Concrete instances -/

/-- `float` on the numerals used below. -/
def demoFloat (s : List Char) : Option ℕ := if s = "1".toList then some 1 else none

example : parseFormula demoFloat "f =~ 1*x1 + a*x2  # loadings\n\n y + z ~ f\n".toList =
    some [PRow.mk "f".toList "=~".toList "x1".toList (some "1".toList) none (some 1) true false,
      PRow.mk "f".toList "=~".toList "x2".toList (some "a".toList) (some "a".toList) none false false,
      PRow.mk "y".toList "~".toList "f".toList none none none false false,
      PRow.mk "z".toList "~".toList "f".toList none none none false false] := by
  decide +kernel

/-- The hypotheses of `C28_parse` are satisfiable. -/
example : ∀ l ∈ [Line.blank [' '], Line.eqn (Eqn.mk [Padded.mk [] ['f'] [' ']] Rel.measure
    [Term.mk (some (Padded.mk [' '] ['a'] [])) (Padded.mk [] ['x', '1'] [])])], l.WF := by
  intro l hl
  simp only [List.mem_cons, List.not_mem_nil, or_false] at hl
  rcases hl with rfl | rfl
  · show ∀ c ∈ [' '], isBlank c
    unfold isBlank; decide
  · refine ⟨by decide, by simp, ?_, ?_⟩
    · intro t ht
      rw [List.mem_singleton.1 ht]
      unfold Padded.WF isBlank isWordChar; decide
    · intro t ht
      rw [List.mem_singleton.1 ht]
      refine ⟨?_, ?_⟩
      · unfold Padded.WF isBlank isWordChar; decide
      · intro m hm
        simp only [Option.some.injEq] at hm
        subst hm
        unfold Padded.WF isBlank isWordChar; decide

/-- C28: outside the well-formed texts a second `*` is silently dropped: `2*a*x` is read as the
fixed loading `2` of a variable called `a`. -/
theorem C28_double_star_violated :
    getVarPair (fun s => if s = ['2'] then some 2 else none) ['f'] "2*a*x".toList ['=', '~'] =
      PRow.mk ['f'] ['=', '~'] ['a'] (some ['2']) none (some 2) true false := by
  decide +kernel

/-- The dummy latents are exactly the observed variables on either side of a regression; together
with the true latents, from which they are disjoint, they are all variables of the structural
part. -/
theorem C28_classes {V : Type} (d : List (PRow V)) {v : List Char} (hv : v ≠ ['1']) :
    (isLvo d v ↔ isObs d v ∧ ∃ r ∈ d, r.rel = ['~'] ∧ r.rhs ≠ ['1'] ∧ (r.lhs = v ∨ r.rhs = v)) ∧
    ¬ (isLvo d v ∧ isNob d v) ∧ (isLav d v ↔ isReg d v ∨ isNob d v) ∧
    (isAll d v ↔ isObs d v ∨ isNob d v) := by
  have hreg : isReg d v ↔ ∃ r ∈ d, r.rel = ['~'] ∧ r.rhs ≠ ['1'] ∧ (r.lhs = v ∨ r.rhs = v) := by
    unfold isReg isEnd isExo
    constructor
    · rintro (⟨r, hr, ⟨h1, h2⟩, h3⟩ | ⟨⟨r, hr, ⟨h1, h2⟩, h3⟩, -⟩)
      · exact ⟨r, hr, h1, h2, Or.inl h3⟩
      · exact ⟨r, hr, h1, h2, Or.inr h3⟩
    · rintro ⟨r, hr, h1, h2, h3 | h3⟩
      · exact Or.inl ⟨r, hr, ⟨h1, h2⟩, h3⟩
      · exact Or.inr ⟨⟨r, hr, ⟨h1, h2⟩, h3⟩, hv⟩
  have hall : isReg d v → isAll d v := by
    rw [hreg]
    rintro ⟨r, hr, -, -, h3⟩
    exact ⟨⟨r, hr, h3⟩, hv⟩
  have hnob : isNob d v → isAll d v := by
    rintro ⟨r, hr, -, h⟩
    exact ⟨⟨r, hr, Or.inl h⟩, hv⟩
  refine ⟨?_, ?_, ?_, ?_⟩
  · rw [← hreg]
    unfold isLvo isObs
    exact ⟨fun h => ⟨⟨hall h.1, h.2⟩, h.1⟩, fun h => ⟨h.2, h.1.2⟩⟩
  · unfold isLvo; exact fun h => h.1.2 h.2
  · unfold isLav isLvo
    by_cases h : isNob d v <;> simp [h]
  · unfold isObs
    by_cases h : isNob d v <;> simp [h]
    exact hnob h

end Verif.Sem
