import Verif.Sem.FormulaLemmas
/-!
# Specification of model formulas: abstract syntax with arbitrary blank padding

`text` writes a list of lines out; `rows` is the intended parameter table.
-/
namespace Verif.Sem

/-- A word with blanks on either side. -/
structure Padded where
  pre : List Char
  body : List Char
  post : List Char

def Padded.render (t : Padded) : List Char := t.pre ++ t.body ++ t.post

/-- Blank but not a line break. -/
def isBlank (c : Char) : Prop := isWs c = true ∧ c ≠ '\n'

/-- Characters a name, label or number may use. -/
def isWordChar (c : Char) : Prop :=
  isWs c = false ∧ c ≠ '+' ∧ c ≠ '*' ∧ c ≠ '~' ∧ c ≠ '=' ∧ c ≠ '#'

def Padded.WF (t : Padded) : Prop :=
  (∀ c ∈ t.pre, isBlank c) ∧ (∀ c ∈ t.post, isBlank c) ∧ t.body ≠ [] ∧ ∀ c ∈ t.body, isWordChar c

/-- A right-hand term `[mod *] name`. -/
structure Term where
  mod : Option Padded
  name : Padded

def Term.render (t : Term) : List Char :=
  match t.mod with
  | none => t.name.render
  | some m => m.render ++ ['*'] ++ t.name.render

def Term.WF (t : Term) : Prop := t.name.WF ∧ ∀ m, t.mod = some m → m.WF

inductive Rel | measure | cov | reg

def Rel.render : Rel → List Char
  | .measure => ['=', '~']
  | .cov => ['~', '~']
  | .reg => ['~']

structure Eqn where
  lhs : List Padded
  rel : Rel
  rhs : List Term

def Eqn.left (e : Eqn) : List Char := joinWith ['+'] (e.lhs.map Padded.render)
def Eqn.right (e : Eqn) : List Char := joinWith ['+'] (e.rhs.map Term.render)
def Eqn.render (e : Eqn) : List Char := e.left ++ e.rel.render ++ e.right

def Eqn.WF (e : Eqn) : Prop :=
  e.lhs ≠ [] ∧ e.rhs ≠ [] ∧ (∀ t ∈ e.lhs, t.WF) ∧ ∀ t ∈ e.rhs, t.WF

/-- A line: blank, or one equation. -/
inductive Line
  | blank (p : List Char)
  | eqn (e : Eqn)

def Line.render : Line → List Char
  | .blank p => p
  | .eqn e => e.render

def Line.WF : Line → Prop
  | .blank p => ∀ c ∈ p, isBlank c
  | .eqn e => e.WF

def text (ls : List Line) : List Char := joinWith ['\n'] (ls.map Line.render)

/-- The row one left/right pair should produce. -/
def specRow {V : Type} (pyFloat : List Char → Option V) (l : Padded) (rel : Rel) (t : Term) :
    PRow V :=
  match t.mod with
  | none => PRow.mk l.body rel.render t.name.body none none none false false
  | some m =>
    match pyFloat m.body with
    | some v => PRow.mk l.body rel.render t.name.body (some m.body) none (some v) true false
    | none =>
      PRow.mk l.body rel.render t.name.body (some m.body) (some m.body) none false false

def Eqn.rows {V : Type} (pyFloat : List Char → Option V) (e : Eqn) : List (PRow V) :=
  e.lhs.flatMap fun l => e.rhs.map fun t => specRow pyFloat l e.rel t

def Line.rows {V : Type} (pyFloat : List Char → Option V) : Line → List (PRow V)
  | .blank _ => []
  | .eqn e => e.rows pyFloat

/-! ## Lemmas -/

theorem mem_joinWith (sep : List Char) (parts : List (List Char)) (c : Char)
    (h : c ∈ joinWith sep parts) : c ∈ sep ∨ ∃ p ∈ parts, c ∈ p := by
  induction parts with
  | nil => simp [joinWith] at h
  | cons p ps ih =>
    by_cases hp : ps = []
    · subst hp; right; exact ⟨p, by simp, h⟩
    · rw [joinWith_cons _ _ _ hp, List.mem_append, List.mem_append] at h
      rcases h with (h | h) | h
      · right; exact ⟨p, by simp, h⟩
      · left; exact h
      · rcases ih h with h | ⟨q, hq, hc⟩
        · left; exact h
        · right; exact ⟨q, List.mem_cons_of_mem _ hq, hc⟩

/-- Every character of a padded word is blank or a word character. -/
theorem Padded.chars {t : Padded} (h : t.WF) (c : Char) (hc : c ∈ t.render) :
    isBlank c ∨ isWordChar c := by
  unfold Padded.render at hc
  rw [List.mem_append, List.mem_append] at hc
  rcases hc with (hc | hc) | hc
  · exact Or.inl (h.1 c hc)
  · exact Or.inr (h.2.2.2 c hc)
  · exact Or.inl (h.2.1 c hc)

theorem Padded.not_mem {t : Padded} (h : t.WF) (x : Char)
    (hx : x = '+' ∨ x = '*' ∨ x = '~' ∨ x = '=' ∨ x = '#' ∨ x = '\n') : x ∉ t.render := by
  intro hc
  rcases t.chars h x hc with hb | hw
  · unfold isBlank at hb
    rcases hx with rfl | rfl | rfl | rfl | rfl | rfl <;> revert hb <;> decide
  · unfold isWordChar at hw
    rcases hx with rfl | rfl | rfl | rfl | rfl | rfl <;> revert hw <;> decide

theorem Term.not_mem {t : Term} (h : t.WF) (x : Char)
    (hx : x = '+' ∨ x = '~' ∨ x = '=' ∨ x = '#' ∨ x = '\n') : x ∉ t.render := by
  have hx' : x = '+' ∨ x = '*' ∨ x = '~' ∨ x = '=' ∨ x = '#' ∨ x = '\n' := by
    rcases hx with h | h | h | h | h <;> simp [h]
  unfold Term.render
  rcases hm : t.mod with _ | m
  · exact t.name.not_mem h.1 x hx'
  · simp only [List.mem_append, List.mem_singleton, not_or]
    refine ⟨⟨m.not_mem (h.2 m hm) x hx', ?_⟩, t.name.not_mem h.1 x hx'⟩
    rcases hx with rfl | rfl | rfl | rfl | rfl <;> decide

theorem Eqn.left_not_mem {e : Eqn} (h : e.WF) (x : Char)
    (hx : x = '~' ∨ x = '=' ∨ x = '#' ∨ x = '\n') : x ∉ e.left := by
  intro hc
  rcases mem_joinWith _ _ _ hc with hc | ⟨p, hp, hc⟩
  · rcases hx with rfl | rfl | rfl | rfl <;> simp at hc
  · obtain ⟨t, ht, rfl⟩ := List.mem_map.1 hp
    exact t.not_mem (h.2.2.1 t ht) x (by rcases hx with h | h | h | h <;> simp [h]) hc

theorem Eqn.right_not_mem {e : Eqn} (h : e.WF) (x : Char)
    (hx : x = '~' ∨ x = '=' ∨ x = '#' ∨ x = '\n') : x ∉ e.right := by
  intro hc
  rcases mem_joinWith _ _ _ hc with hc | ⟨p, hp, hc⟩
  · rcases hx with rfl | rfl | rfl | rfl <;> simp at hc
  · obtain ⟨t, ht, rfl⟩ := List.mem_map.1 hp
    exact t.not_mem (h.2.2.2 t ht) x (by rcases hx with h | h | h | h <;> simp [h]) hc

theorem Eqn.not_mem {e : Eqn} (h : e.WF) (x : Char) (hx : x = '#' ∨ x = '\n') : x ∉ e.render := by
  have hx' : x = '~' ∨ x = '=' ∨ x = '#' ∨ x = '\n' := by rcases hx with h | h <;> simp [h]
  unfold Eqn.render
  simp only [List.mem_append, not_or]
  refine ⟨⟨e.left_not_mem h x hx', ?_⟩, e.right_not_mem h x hx'⟩
  rcases hx with rfl | rfl <;> cases e.rel <;> decide

theorem Padded.strip {t : Padded} (h : t.WF) : strip t.render = t.body :=
  strip_pad _ _ _ (fun c hc => (h.1 c hc).1) (fun c hc => (h.2.1 c hc).1) h.2.2.1
    (fun c hc => (h.2.2.2 c hc).1)

/-- Stripping a two-part text trims the outer pads only. -/
theorem strip_two (m n : Padded) (hm : m.WF) (hn : n.WF) :
    strip (m.render ++ ['*'] ++ n.render) =
      (m.body ++ m.post) ++ ['*'] ++ (n.pre ++ n.body) := by
  unfold strip Padded.render
  have h1 : (m.pre ++ m.body ++ m.post ++ ['*'] ++ (n.pre ++ n.body ++ n.post)).dropWhile isWs =
      m.body ++ (m.post ++ ['*'] ++ (n.pre ++ n.body ++ n.post)) := by
    have := dropWhile_pad m.pre (m.body ++ (m.post ++ ['*'] ++ (n.pre ++ n.body ++ n.post)))
      (fun c hc => (hm.1 c hc).1)
    rw [dropWhile_body m.body _ hm.2.2.1 (fun c hc => (hm.2.2.2 c hc).1)] at this
    rw [← this]; simp
  rw [h1]
  have h2 : (m.body ++ (m.post ++ ['*'] ++ (n.pre ++ n.body ++ n.post))).reverse =
      n.post.reverse ++ (n.body.reverse ++ (n.pre.reverse ++ ['*'] ++ m.post.reverse ++
        m.body.reverse)) := by simp
  rw [h2, dropWhile_pad _ _ (by intro c hc; exact (hn.2.1 c (List.mem_reverse.1 hc)).1),
    dropWhile_body _ _ (by simpa using hn.2.2.1)
      (by intro c hc; exact (hn.2.2.2 c (List.mem_reverse.1 hc)).1)]
  simp

theorem getVarPair_spec {V : Type} (pyFloat : List Char → Option V) (l : Padded) (rel : Rel)
    (t : Term) (hl : l.WF) (ht : t.WF) :
    getVarPair pyFloat l.render t.render rel.render = specRow pyFloat l rel t := by
  unfold getVarPair specRow Term.render
  rcases hm : t.mod with _ | m
  · simp only
    rw [t.name.strip ht.1, l.strip hl]
    have hstar : '*' ∉ t.name.body := by
      intro h
      exact (ht.1.2.2.2 _ h).2.2.1 rfl
    have h1 := splitOn_join '*' [t.name.body] (by simp) (by simpa using hstar)
    simp only [joinWith] at h1
    rw [h1]
    simp only
    have h2 := strip_pad [] t.name.body [] (by simp) (by simp) ht.1.2.2.1
      (fun c hc => (ht.1.2.2.2 c hc).1)
    simp only [List.nil_append, List.append_nil] at h2
    rw [h2]
  · have hmw := ht.2 m hm
    simp only
    rw [strip_two m t.name hmw ht.1, l.strip hl]
    have ha : '*' ∉ m.body ++ m.post := by
      intro h
      exact m.not_mem hmw '*' (by simp) (by
        unfold Padded.render; rw [List.append_assoc]; exact List.mem_append_right _ h)
    have hb : '*' ∉ t.name.pre ++ t.name.body := by
      intro h
      exact t.name.not_mem ht.1 '*' (by simp) (by
        unfold Padded.render; exact List.mem_append_left _ h)
    have h1 := splitOn_join '*' [m.body ++ m.post, t.name.pre ++ t.name.body] (by simp)
      (by intro p hp; simp only [List.mem_cons, List.not_mem_nil, or_false] at hp
          rcases hp with rfl | rfl <;> assumption)
    simp only [joinWith] at h1
    rw [h1]
    simp only
    have h2 := strip_pad [] m.body m.post (by simp) (fun c hc => (hmw.2.1 c hc).1) hmw.2.2.1
      (fun c hc => (hmw.2.2.2 c hc).1)
    have h3 := strip_pad t.name.pre t.name.body [] (fun c hc => (ht.1.1 c hc).1) (by simp)
      ht.1.2.2.1 (fun c hc => (ht.1.2.2.2 c hc).1)
    simp only [List.nil_append, List.append_nil] at h2 h3
    rw [h2, h3]
    rcases pyFloat m.body with _ | v <;> rfl

theorem findRel_spec (e : Eqn) (h : e.WF) : findRel e.render = e.rel.render := by
  have l1 := e.left_not_mem h '~' (by simp)
  have l2 := e.left_not_mem h '=' (by simp)
  have r1 := e.right_not_mem h '~' (by simp)
  have r2 := e.right_not_mem h '=' (by simp)
  have hr : e.render = e.left ++ e.rel.render ++ e.right := rfl
  unfold findRel
  rcases h3 : e.rel with _ | _ | _
  · have c1 : containsStr ['=', '~'] e.render = true := by
      rw [hr, h3]; exact contains_mid _ _ _
    rw [if_pos c1]; rfl
  · have c1 : containsStr ['=', '~'] e.render = false := by
      rw [hr, h3]; exact contains_false '=' ['~'] _ (by simp [l2, r2, Rel.render])
    have c2 : containsStr ['~', '~'] e.render = true := by
      rw [hr, h3]; exact contains_mid _ _ _
    rw [if_neg (by simp [c1]), if_pos c2]; rfl
  · have c1 : containsStr ['=', '~'] e.render = false := by
      rw [hr, h3]; exact contains_false '=' ['~'] _ (by simp [l2, r2, Rel.render])
    have c2 : containsStr ['~', '~'] e.render = false := by
      rw [hr, h3]; exact contains_tilde_false _ _ l1 r1
    rw [if_neg (by simp [c1]), if_neg (by simp [c2])]; rfl

theorem flatMap_map' {α β γ : Type*} (f : α → β) (g : β → List γ) (l : List α) :
    (l.map f).flatMap g = l.flatMap fun a => g (f a) := by
  induction l with
  | nil => rfl
  | cons a l ih => simp [ih]

theorem unpack_spec {V : Type} (pyFloat : List Char → Option V) (e : Eqn) (h : e.WF) :
    unpackEquation pyFloat e.render = some (e.rows pyFloat) := by
  unfold unpackEquation
  simp only [findRel_spec e h]
  have hsplit : splitOn e.rel.render e.render = [e.left, e.right] := by
    unfold Eqn.render
    have l1 := e.left_not_mem h '~' (by simp)
    have l2 := e.left_not_mem h '=' (by simp)
    have r1 := e.right_not_mem h '~' (by simp)
    have r2 := e.right_not_mem h '=' (by simp)
    rcases e.rel with _ | _ | _
    · exact splitOn_two _ '=' ['~'] rfl _ _ l2 r2
    · exact splitOn_two _ '~' ['~'] rfl _ _ l1 r1
    · exact splitOn_two _ '~' [] rfl _ _ l1 r1
  rw [hsplit]
  simp only
  have hl : splitOn ['+'] e.left = e.lhs.map Padded.render := by
    apply splitOn_join
    · simpa using h.1
    · intro p hp
      obtain ⟨t, ht, rfl⟩ := List.mem_map.1 hp
      exact t.not_mem (h.2.2.1 t ht) '+' (by simp)
  have hr : splitOn ['+'] e.right = e.rhs.map Term.render := by
    apply splitOn_join
    · simpa using h.2.1
    · intro p hp
      obtain ⟨t, ht, rfl⟩ := List.mem_map.1 hp
      exact t.not_mem (h.2.2.2 t ht) '+' (by simp)
  rw [hl, hr]
  congr 1
  unfold Eqn.rows
  rw [flatMap_map']
  apply List.flatMap_congr
  intro l hl
  rw [List.map_map]
  apply List.map_congr_left
  intro t ht
  exact getVarPair_spec pyFloat l e.rel t (h.2.2.1 l hl) (h.2.2.2 t ht)

end Verif.Sem
