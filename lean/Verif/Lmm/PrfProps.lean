import Verif.Lmm.Prf
import Verif.Lmm.ReparamProps
import Mathlib.Tactic.IntervalCases
/-!
# C143: `VarCorrReparam` of the profile likelihood
-/
namespace Verif.Lmm.Prf
open Verif.Np Real

/-- Row and column of the `k`-th parameter, and the positions of the two variances. -/
def rc (n k : ℕ) : ℕ × ℕ := (npTriu n 0).getD k (0, 0)
def da (n k : ℕ) : ℕ := pos n (rc n k).1 (rc n k).1
def db (n k : ℕ) : ℕ := pos n (rc n k).2 (rc n k).2

/-- What `transform` should do to one term. -/
noncomputable def locF (n : ℕ) (x : ℕ → ℝ) (k : ℕ) : ℝ :=
  if (rc n k).1 = (rc n k).2 then x k else artanh (√(1 / x (db n k)) * x k * √(1 / x (da n k)))

/-- What `inverse_transform` should do to one term. -/
noncomputable def locI (n : ℕ) (x : ℕ → ℝ) (k : ℕ) : ℝ :=
  if (rc n k).1 = (rc n k).2 then √(x k) * √(x k) else √(x (db n k)) * tanh (x k) * √(x (da n k))

theorem fwdTerm_eq {n : ℕ} (hn : n ≤ 3) (s : ℕ) (x tau : ℕ → ℝ) (j : ℕ) :
    fwdTerm s n x tau j = if s ≤ j ∧ j < s + npar n then locF n x (j - s) else tau j := by
  by_cases h : s ≤ j ∧ j < s + npar n
  · rw [if_pos h]
    obtain ⟨k, rfl⟩ := Nat.exists_eq_add_of_le h.1
    have hk : k < npar n := by omega
    rw [Nat.add_sub_cancel_left]
    interval_cases n
    · exact absurd hk (Nat.not_lt_zero k)
    · change k < 1 at hk
      interval_cases k
      simp [fwdTerm, scatter1, show tixR 1 = [] from rfl, show tixV 1 = [0] from rfl, show List.range 1 = [0] from rfl, gmat,
        show pos 1 0 0 = 0 from rfl, locF, show rc 1 0 = (0, 0) from rfl]
    · change k < 3 at hk
      interval_cases k <;>
      simp [fwdTerm, scatter1, show tixR 2 = [1] from rfl, show tixV 2 = [0, 2] from rfl, show gixR 2 = [(1, 0)] from rfl, gmat,
        show List.range 2 = [0, 1] from rfl, locF, show rc 2 0 = (0, 0) from rfl, show rc 2 1 = (0, 1) from rfl, show rc 2 2 = (1, 1) from rfl,
        da, db, show pos 2 0 0 = 0 from rfl, show pos 2 1 1 = 2 from rfl, show pos 2 1 0 = 1 from rfl]
    · change k < 6 at hk
      interval_cases k <;>
      simp [fwdTerm, scatter1, show tixR 3 = [1, 2, 4] from rfl, show tixV 3 = [0, 3, 5] from rfl,
        show gixR 3 = [(1, 0), (2, 0), (2, 1)] from rfl, gmat,
        show List.range 3 = [0, 1, 2] from rfl, locF, show rc 3 0 = (0, 0) from rfl, show rc 3 1 = (0, 1) from rfl, show rc 3 2 = (0, 2) from rfl,
        show rc 3 3 = (1, 1) from rfl, show rc 3 4 = (1, 2) from rfl, show rc 3 5 = (2, 2) from rfl,
        da, db, show pos 3 0 0 = 0 from rfl, show pos 3 1 1 = 3 from rfl, show pos 3 2 2 = 5 from rfl, show pos 3 1 0 = 1 from rfl,
        show pos 3 2 0 = 2 from rfl, show pos 3 2 1 = 4 from rfl]
  · rw [if_neg h]
    interval_cases n
    · rfl
    · have h' : ¬ (s ≤ j ∧ j < s + 1) := h
      have e : fwdTerm s 1 x tau j = if j = s + 0 then x 0 else tau j := rfl
      rw [e, if_neg (by omega)]
    · have h' : ¬ (s ≤ j ∧ j < s + 3) := h
      simp only [fwdTerm, scatter1, show tixR 2 = [1] from rfl, show tixV 2 = [0, 2] from rfl, show gixR 2 = [(1, 0)] from rfl,
        show List.range 2 = [0, 1] from rfl, List.map, List.zip, List.zipWith, List.foldl]
      rw [if_neg (by omega), if_neg (by omega), if_neg (by omega)]
    · have h' : ¬ (s ≤ j ∧ j < s + 6) := h
      simp only [fwdTerm, scatter1, show tixR 3 = [1, 2, 4] from rfl, show tixV 3 = [0, 3, 5] from rfl,
        show gixR 3 = [(1, 0), (2, 0), (2, 1)] from rfl,
        show List.range 3 = [0, 1, 2] from rfl, List.map, List.zip, List.zipWith, List.foldl]
      rw [if_neg (by omega), if_neg (by omega), if_neg (by omega), if_neg (by omega), if_neg (by omega), if_neg (by omega)]

theorem rvsTerm_eq {n : ℕ} (hn : n ≤ 3) (s : ℕ) (x th : ℕ → ℝ) (j : ℕ) :
    rvsTerm s n x th j = if s ≤ j ∧ j < s + npar n then locI n x (j - s) else th j := by
  by_cases h : s ≤ j ∧ j < s + npar n
  · rw [if_pos h]
    obtain ⟨k, rfl⟩ := Nat.exists_eq_add_of_le h.1
    have hk : k < npar n := by omega
    rw [Nat.add_sub_cancel_left]
    interval_cases n
    · exact absurd hk (Nat.not_lt_zero k)
    · change k < 1 at hk
      interval_cases k
      simp [rvsTerm, scatter1, scatter2, show npar 1 = 1 from rfl, show List.range 1 = [0] from rfl, show npTriu 1 0 = [(0, 0)] from rfl,
        show gixR 1 = [] from rfl, gmat, show pos 1 0 0 = 0 from rfl, locI, show rc 1 0 = (0, 0) from rfl]
    · change k < 3 at hk
      interval_cases k <;>
      simp [rvsTerm, scatter1, scatter2, show npar 2 = 3 from rfl, show gixR 2 = [(1, 0)] from rfl, gmat, show npTriu 2 0 = [(0, 0), (0, 1), (1, 1)] from rfl,
        show List.range 3 = [0, 1, 2] from rfl, show List.range 2 = [0, 1] from rfl, locI, show rc 2 0 = (0, 0) from rfl, show rc 2 1 = (0, 1) from rfl, show rc 2 2 = (1, 1) from rfl,
        da, db, show pos 2 0 0 = 0 from rfl, show pos 2 1 1 = 2 from rfl, show pos 2 1 0 = 1 from rfl]
    · change k < 6 at hk
      interval_cases k <;>
      simp [rvsTerm, scatter1, scatter2, show npar 3 = 6 from rfl, show npTriu 3 0 = [(0, 0), (0, 1), (0, 2), (1, 1), (1, 2), (2, 2)] from rfl,
        show gixR 3 = [(1, 0), (2, 0), (2, 1)] from rfl, gmat, show List.range 6 = [0, 1, 2, 3, 4, 5] from rfl,
        show List.range 3 = [0, 1, 2] from rfl, locI, show rc 3 0 = (0, 0) from rfl, show rc 3 1 = (0, 1) from rfl, show rc 3 2 = (0, 2) from rfl,
        show rc 3 3 = (1, 1) from rfl, show rc 3 4 = (1, 2) from rfl, show rc 3 5 = (2, 2) from rfl,
        da, db, show pos 3 0 0 = 0 from rfl, show pos 3 1 1 = 3 from rfl, show pos 3 2 2 = 5 from rfl, show pos 3 1 0 = 1 from rfl,
        show pos 3 2 0 = 2 from rfl, show pos 3 2 1 = 4 from rfl]
  · rw [if_neg h]
    interval_cases n
    · rfl
    · have h' : ¬ (s ≤ j ∧ j < s + 1) := h
      simp only [rvsTerm, scatter1, show npar 1 = 1 from rfl, show List.range 1 = [0] from rfl, show npTriu 1 0 = [(0, 0)] from rfl,
        List.map, List.zip, List.zipWith, List.foldl]
      rw [if_neg (by omega)]
    · have h' : ¬ (s ≤ j ∧ j < s + 3) := h
      simp only [rvsTerm, scatter1, show npar 2 = 3 from rfl, show List.range 3 = [0, 1, 2] from rfl, show npTriu 2 0 = [(0, 0), (0, 1), (1, 1)] from rfl,
        List.map, List.zip, List.zipWith, List.foldl]
      rw [if_neg (by omega), if_neg (by omega), if_neg (by omega)]
    · have h' : ¬ (s ≤ j ∧ j < s + 6) := h
      simp only [rvsTerm, scatter1, show npar 3 = 6 from rfl, show List.range 6 = [0, 1, 2, 3, 4, 5] from rfl,
        show npTriu 3 0 = [(0, 0), (0, 1), (0, 2), (1, 1), (1, 2), (2, 2)] from rfl, List.map, List.zip, List.zipWith, List.foldl]
      rw [if_neg (by omega), if_neg (by omega), if_neg (by omega), if_neg (by omega), if_neg (by omega), if_neg (by omega)]

/-- The derivatives of one term: rows are parameters of `tau`, columns parameters of `theta`. -/
noncomputable def locJ (n : ℕ) (x tau : ℕ → ℝ) (a k : ℕ) : ℝ :=
  if (rc n k).1 = (rc n k).2 then (if a = k then 1 else 0)
  else if a = k then √(x (db n k)) * √(x (da n k)) * (1 - tanh (tau k) ^ 2)
  else if a = da n k then tanh (tau k) * √(x (db n k)) / (√(x (da n k)) * 2)
  else if a = db n k then tanh (tau k) * √(x (da n k)) / (√(x (db n k)) * 2)
  else 0

set_option maxHeartbeats 2000000 in
theorem jacTerm_in {n : ℕ} (hn : n ≤ 3) (s : ℕ) (x tau : ℕ → ℝ) (J : ℕ → ℕ → ℝ) {a k : ℕ} (ha : a < npar n) (hk : k < npar n)
    (hJ : J (s + a) (s + k) = 0) : jacTerm s n x tau J (s + a) (s + k) = locJ n x tau a k := by
  interval_cases n
  · exact absurd hk (Nat.not_lt_zero k)
  · change k < 1 at hk
    change a < 1 at ha
    interval_cases k; interval_cases a
    simp [jacTerm, put2, show tixR 1 = [] from rfl, show tixV 1 = [0] from rfl, locJ, show rc 1 0 = (0, 0) from rfl]
  · change k < 3 at hk
    change a < 3 at ha
    interval_cases k <;> interval_cases a <;> (try simp only [Nat.add_zero] at hJ) <;>
    simp [jacTerm, put2, show tixR 2 = [1] from rfl, show tixV 2 = [0, 2] from rfl, show dix 2 = [(1, 0)] from rfl, gmat, hJ,
      locJ, show rc 2 0 = (0, 0) from rfl, show rc 2 1 = (0, 1) from rfl, show rc 2 2 = (1, 1) from rfl,
      da, db, show pos 2 0 0 = 0 from rfl, show pos 2 1 1 = 2 from rfl, show pos 2 1 0 = 1 from rfl]
  · change k < 6 at hk
    change a < 6 at ha
    interval_cases k <;> interval_cases a <;> (try simp only [Nat.add_zero] at hJ) <;>
    simp [jacTerm, put2, show tixR 3 = [1, 2, 4] from rfl, show tixV 3 = [0, 3, 5] from rfl, hJ,
      show dix 3 = [(1, 0), (2, 0), (2, 1)] from rfl, gmat,
      locJ, show rc 3 0 = (0, 0) from rfl, show rc 3 1 = (0, 1) from rfl, show rc 3 2 = (0, 2) from rfl,
      show rc 3 3 = (1, 1) from rfl, show rc 3 4 = (1, 2) from rfl, show rc 3 5 = (2, 2) from rfl,
      da, db, show pos 3 0 0 = 0 from rfl, show pos 3 1 1 = 3 from rfl, show pos 3 2 2 = 5 from rfl, show pos 3 1 0 = 1 from rfl,
      show pos 3 2 0 = 2 from rfl, show pos 3 2 1 = 4 from rfl]

theorem jacTerm_out {n : ℕ} (hn : n ≤ 3) (s : ℕ) (x tau : ℕ → ℝ) (J : ℕ → ℕ → ℝ) {i j : ℕ}
    (h : ¬ ((s ≤ i ∧ i < s + npar n) ∧ (s ≤ j ∧ j < s + npar n))) : jacTerm s n x tau J i j = J i j := by
  interval_cases n
  · rfl
  · have h' : ¬ ((s ≤ i ∧ i < s + 1) ∧ (s ≤ j ∧ j < s + 1)) := h
    have e : jacTerm s 1 x tau J i j = if i = s + 0 ∧ j = s + 0 then 1 else J i j := rfl
    rw [e, if_neg (by omega)]
  · have h' : ¬ ((s ≤ i ∧ i < s + 3) ∧ (s ≤ j ∧ j < s + 3)) := h
    simp only [jacTerm, put2, show tixR 2 = [1] from rfl, show tixV 2 = [0, 2] from rfl, show dix 2 = [(1, 0)] from rfl,
      List.map, List.zip, List.zipWith, List.foldl, List.getD_cons_zero, List.getD_cons_succ]
    rw [if_neg (by omega), if_neg (by omega), if_neg (by omega), if_neg (by omega), if_neg (by omega)]
  · have h' : ¬ ((s ≤ i ∧ i < s + 6) ∧ (s ≤ j ∧ j < s + 6)) := h
    simp only [jacTerm, put2, show tixR 3 = [1, 2, 4] from rfl, show tixV 3 = [0, 3, 5] from rfl,
      show dix 3 = [(1, 0), (2, 0), (2, 1)] from rfl, List.map, List.zip, List.zipWith, List.foldl, List.getD_cons_zero, List.getD_cons_succ]
    rw [if_neg (by omega), if_neg (by omega), if_neg (by omega), if_neg (by omega), if_neg (by omega), if_neg (by omega),
      if_neg (by omega), if_neg (by omega), if_neg (by omega), if_neg (by omega), if_neg (by omega), if_neg (by omega)]

/-- The term (start and number of variables) to which the parameter `j` belongs. -/
def blk : ℕ → List ℕ → ℕ → Option (ℕ × ℕ)
  | _, [], _ => none
  | s, n :: ns, j => if s ≤ j ∧ j < s + npar n then some (s, n) else blk (s + npar n) ns j

def total (s : ℕ) (dims : List ℕ) : ℕ := dims.foldl (fun s n => s + npar n) s

theorem mono (ns : List ℕ) : ∀ s : ℕ, s ≤ total s ns := by
  induction ns with
  | nil => exact fun s => le_refl _
  | cons m ns ih => intro s; exact (Nat.le_add_right _ _).trans (ih (s + npar m))

theorem blk_lt (ns : List ℕ) : ∀ (s j : ℕ), j < s → blk s ns j = none := by
  induction ns with
  | nil => exact fun _ _ _ => rfl
  | cons n ns ih =>
    intro s j h
    rw [blk, if_neg (by omega)]
    exact ih _ _ (by omega)

theorem blk_some (ns : List ℕ) : ∀ (s j b n : ℕ), blk s ns j = some (b, n) →
    n ∈ ns ∧ s ≤ b ∧ b ≤ j ∧ j < b + npar n ∧ b + npar n ≤ total s ns ∧ ∀ k < npar n, blk s ns (b + k) = some (b, n) := by
  induction ns with
  | nil => intro s j b n h; simp [blk] at h
  | cons m ns ih =>
    intro s j b n h
    rw [blk] at h
    by_cases hs : s ≤ j ∧ j < s + npar m
    · rw [if_pos hs] at h
      obtain ⟨rfl, rfl⟩ : s = b ∧ m = n := by simpa using h
      refine ⟨List.mem_cons_self, le_refl _, hs.1, hs.2, mono ns _, fun k hk => ?_⟩
      rw [blk, if_pos (by omega)]
    · rw [if_neg hs] at h
      obtain ⟨h1, h2, h3, h4, h5, h6⟩ := ih _ _ _ _ h
      refine ⟨List.mem_cons_of_mem _ h1, by omega, h3, h4, h5, fun k hk => ?_⟩
      rw [blk, if_neg (by omega)]
      exact h6 k hk

theorem blk_none (ns : List ℕ) : ∀ (s j : ℕ), s ≤ j → (blk s ns j = none ↔ total s ns ≤ j) := by
  induction ns with
  | nil => intro s j h; simpa [blk, total] using h
  | cons m ns ih =>
    intro s j h
    rw [blk]
    by_cases hs : s ≤ j ∧ j < s + npar m
    · rw [if_pos hs]
      have := mono ns (s + npar m)
      constructor
      · intro e; simp at e
      · intro e
        change total (s + npar m) ns ≤ j at e
        omega
    · rw [if_neg hs]
      exact ih _ _ (by omega)

theorem fwdLoop_eq (th : ℕ → ℝ) (ns : List ℕ) (hn : ∀ n ∈ ns, n ≤ 3) : ∀ (s : ℕ) (tau : ℕ → ℝ) (j : ℕ),
    fwdLoop th s ns tau j = match blk s ns j with
      | some (b, n) => locF n (fun k => th (b + k)) (j - b)
      | none => tau j := by
  induction ns with
  | nil => exact fun _ _ _ => rfl
  | cons n ns ih =>
    intro s tau j
    rw [fwdLoop, ih (fun m hm => hn m (List.mem_cons_of_mem _ hm)), blk]
    by_cases h : s ≤ j ∧ j < s + npar n
    · rw [if_pos h, blk_lt ns _ _ h.2]
      simp only
      rw [fwdTerm_eq (hn n List.mem_cons_self), if_pos h]
    · rw [if_neg h]
      rcases blk (s + npar n) ns j with _ | ⟨b, m⟩
      · simp only
        rw [fwdTerm_eq (hn n List.mem_cons_self), if_neg h]
      · rfl

theorem rvsLoop_eq (tau : ℕ → ℝ) (ns : List ℕ) (hn : ∀ n ∈ ns, n ≤ 3) : ∀ (s : ℕ) (th : ℕ → ℝ) (j : ℕ),
    rvsLoop tau s ns th j = match blk s ns j with
      | some (b, n) => locI n (fun k => tau (b + k)) (j - b)
      | none => th j := by
  induction ns with
  | nil => exact fun _ _ _ => rfl
  | cons n ns ih =>
    intro s th j
    rw [rvsLoop, ih (fun m hm => hn m (List.mem_cons_of_mem _ hm)), blk]
    by_cases h : s ≤ j ∧ j < s + npar n
    · rw [if_pos h, blk_lt ns _ _ h.2]
      simp only
      rw [rvsTerm_eq (hn n List.mem_cons_self), if_pos h]
    · rw [if_neg h]
      rcases blk (s + npar n) ns j with _ | ⟨b, m⟩
      · simp only
        rw [rvsTerm_eq (hn n List.mem_cons_self), if_neg h]
      · rfl

theorem jacLoop_eq (th tau : ℕ → ℝ) (ns : List ℕ) (hn : ∀ n ∈ ns, n ≤ 3) : ∀ (s : ℕ) (J : ℕ → ℕ → ℝ)
    (_ : ∀ i j, s ≤ i → J i j = 0) (i j : ℕ),
    jacLoop th tau s ns J i j = match blk s ns j with
      | some (b, n) => if b ≤ i ∧ i < b + npar n then locJ n (fun k => th (b + k)) (fun k => tau (b + k)) (i - b) (j - b) else J i j
      | none => if i = total s ns ∧ j = total s ns then 1 else J i j := by
  induction ns with
  | nil => exact fun _ _ _ _ _ => rfl
  | cons n ns ih =>
    intro s J hJ i j
    have hn0 := hn n List.mem_cons_self
    rw [jacLoop]
    have hJ' : ∀ i j, s + npar n ≤ i → jacTerm s n (fun k => th (s + k)) (fun k => tau (s + k)) J i j = 0 := by
      intro i j hi
      rw [jacTerm_out hn0 _ _ _ _ (by omega)]
      exact hJ i j (by omega)
    rw [ih (fun m hm => hn m (List.mem_cons_of_mem _ hm)) _ _ hJ', blk]
    have hm := mono ns (s + npar n)
    by_cases h : s ≤ j ∧ j < s + npar n
    · rw [if_pos h, blk_lt ns _ _ h.2]
      simp only
      rw [if_neg (by omega)]
      by_cases hi : s ≤ i ∧ i < s + npar n
      · rw [if_pos hi]
        obtain ⟨a, rfl⟩ := Nat.exists_eq_add_of_le hi.1
        obtain ⟨k, rfl⟩ := Nat.exists_eq_add_of_le h.1
        rw [jacTerm_in hn0 _ _ _ _ (by omega) (by omega) (hJ _ _ (by omega)), Nat.add_sub_cancel_left, Nat.add_sub_cancel_left]
      · rw [if_neg hi, jacTerm_out hn0 _ _ _ _ (fun hh => hi hh.1)]
    · rw [if_neg h]
      have e : jacTerm s n (fun k => th (s + k)) (fun k => tau (s + k)) J i j = J i j := jacTerm_out hn0 _ _ _ _ (fun hh => h hh.2)
      rw [e]
      rfl

theorem tau_in {dims : List ℕ} (hn : ∀ n ∈ dims, n ≤ 3) (th : ℕ → ℝ) {j b n : ℕ} (h : blk 0 dims j = some (b, n)) {k : ℕ} (hk : k < npar n) :
    transform dims th (b + k) = locF n (fun k => th (b + k)) k := by
  unfold transform
  rw [fwdLoop_eq th dims hn, (blk_some dims _ _ _ _ h).2.2.2.2.2 k hk]
  simp only
  rw [Nat.add_sub_cancel_left]

theorem inv_in {dims : List ℕ} (hn : ∀ n ∈ dims, n ≤ 3) (tau : ℕ → ℝ) {j b n : ℕ} (h : blk 0 dims j = some (b, n)) {k : ℕ} (hk : k < npar n) :
    inverse dims tau (b + k) = locI n (fun k => tau (b + k)) k := by
  unfold inverse
  rw [rvsLoop_eq tau dims hn, (blk_some dims _ _ _ _ h).2.2.2.2.2 k hk]
  simp only
  rw [Nat.add_sub_cancel_left]

theorem dadb {n k : ℕ} (hn : n ≤ 3) (hk : k < npar n) : da n k < npar n ∧ db n k < npar n ∧ (rc n (da n k)).1 = (rc n (da n k)).2 ∧
    (rc n (db n k)).1 = (rc n (db n k)).2 ∧ ((rc n k).1 ≠ (rc n k).2 → da n k ≠ k ∧ db n k ≠ k ∧ da n k ≠ db n k) := by
  interval_cases n
  · exact absurd hk (Nat.not_lt_zero k)
  · change k < 1 at hk
    interval_cases k; decide
  · change k < 3 at hk
    interval_cases k <;> decide
  · change k < 6 at hk
    interval_cases k <;> decide

/-- All variances are positive. -/
def PosVar (dims : List ℕ) (th : ℕ → ℝ) : Prop :=
  ∀ j b n, blk 0 dims j = some (b, n) → (rc n (j - b)).1 = (rc n (j - b)).2 → 0 < th j

/-- All correlations are smaller than one. -/
def CorrOk (dims : List ℕ) (th : ℕ → ℝ) : Prop :=
  ∀ j b n, blk 0 dims j = some (b, n) → (rc n (j - b)).1 ≠ (rc n (j - b)).2 → |th j| < √(th (b + db n (j - b))) * √(th (b + da n (j - b)))

theorem posVar_at {dims : List ℕ} {th : ℕ → ℝ} (h : PosVar dims th) {j b n : ℕ} (hb : blk 0 dims j = some (b, n)) {k : ℕ}
    (hk : k < npar n) (hd : (rc n k).1 = (rc n k).2) : 0 < th (b + k) := by
  refine h (b + k) b n ((blk_some dims _ _ _ _ hb).2.2.2.2.2 k hk) ?_
  rwa [Nat.add_sub_cancel_left]

/-- Up to three variables per term: forth and back gives the covariance parameters. -/
theorem C143_inverse_partial {dims : List ℕ} (hn : ∀ n ∈ dims, n ≤ 3) {th : ℕ → ℝ} (hv : PosVar dims th) (hc : CorrOk dims th) (j : ℕ) :
    inverse dims (transform dims th) j = th j := by
  rcases hb : blk 0 dims j with _ | ⟨b, n⟩
  · unfold inverse
    rw [rvsLoop_eq _ dims hn, hb]
    simp only
    unfold transform
    rw [fwdLoop_eq _ dims hn, hb]
  · obtain ⟨h1, h2, h3, h4, h5, h6⟩ := blk_some dims _ _ _ _ hb
    obtain ⟨k, rfl⟩ := Nat.exists_eq_add_of_le h3
    have hk : k < npar n := by omega
    have hc' := hc _ _ _ hb
    rw [Nat.add_sub_cancel_left] at hc'
    obtain ⟨d1, d2, d3, d4, -⟩ := dadb (hn n h1) hk
    have pa := posVar_at hv hb d1 d3
    have pb := posVar_at hv hb d2 d4
    rw [inv_in hn _ hb hk, locI, tau_in hn th hb hk, tau_in hn th hb d1, tau_in hn th hb d2]
    by_cases hd : (rc n k).1 = (rc n k).2
    · rw [if_pos hd, locF, if_pos hd]
      exact mul_self_sqrt (posVar_at hv hb hk hd).le
    · rw [if_neg hd, locF, if_pos d4, locF, if_neg hd, locF, if_pos d3]
      have hx := abs_lt.1 (hc' hd)
      generalize th (b + da n k) = x at *
      generalize th (b + db n k) = y at *
      have sx := sqrt_pos.2 pa
      have sy := sqrt_pos.2 pb
      have e : √(1 / y) * th (b + k) * √(1 / x) = th (b + k) / (√y * √x) := by
        rw [one_div, one_div, sqrt_inv, sqrt_inv]
        field_simp
      rw [e, tanh_artanh]
      · field_simp
      · constructor
        · rw [lt_div_iff₀ (mul_pos sy sx)]; linarith
        · rw [div_lt_one (mul_pos sy sx)]; exact hx.2

/-- Up to three variables per term: back and forth. -/
theorem C143_forward_partial {dims : List ℕ} (hn : ∀ n ∈ dims, n ≤ 3) {tau : ℕ → ℝ} (hv : PosVar dims tau) (j : ℕ) :
    transform dims (inverse dims tau) j = tau j := by
  rcases hb : blk 0 dims j with _ | ⟨b, n⟩
  · unfold transform
    rw [fwdLoop_eq _ dims hn, hb]
    simp only
    unfold inverse
    rw [rvsLoop_eq _ dims hn, hb]
  · obtain ⟨h1, h2, h3, h4, h5, h6⟩ := blk_some dims _ _ _ _ hb
    obtain ⟨k, rfl⟩ := Nat.exists_eq_add_of_le h3
    have hk : k < npar n := by omega
    obtain ⟨d1, d2, d3, d4, -⟩ := dadb (hn n h1) hk
    have pa := posVar_at hv hb d1 d3
    have pb := posVar_at hv hb d2 d4
    rw [tau_in hn _ hb hk, locF, inv_in hn tau hb hk, inv_in hn tau hb d1, inv_in hn tau hb d2]
    by_cases hd : (rc n k).1 = (rc n k).2
    · rw [if_pos hd, locI, if_pos hd]
      exact mul_self_sqrt (posVar_at hv hb hk hd).le
    · rw [if_neg hd, locI, if_pos d4, locI, if_neg hd, locI, if_pos d3, mul_self_sqrt pa.le, mul_self_sqrt pb.le]
      generalize tau (b + da n k) = x at *
      generalize tau (b + db n k) = y at *
      have sx := sqrt_pos.2 pa
      have sy := sqrt_pos.2 pb
      have e : √(1 / y) * (√y * tanh (tau (b + k)) * √x) * √(1 / x) = tanh (tau (b + k)) := by
        rw [one_div, one_div, sqrt_inv, sqrt_inv]
        field_simp
      rw [e, artanh_tanh]

theorem locI_deriv {n k : ℕ} (hn : n ≤ 3) (hk : k < npar n) {tau : ℝ → ℕ → ℝ} {tau' : ℕ → ℝ} (h : ∀ i, HasDerivAt (fun t => tau t i) (tau' i) 0)
    (hp : ∀ i < npar n, (rc n i).1 = (rc n i).2 → 0 < tau 0 i) {x : ℕ → ℝ} (hx : ∀ i < npar n, (rc n i).1 = (rc n i).2 → x i = tau 0 i) :
    HasDerivAt (fun t => locI n (tau t) k) (∑ a ∈ Finset.range (npar n), locJ n x (tau 0) a k * tau' a) 0 := by
  obtain ⟨d1, d2, d3, d4, d5⟩ := dadb hn hk
  unfold locI
  by_cases hd : (rc n k).1 = (rc n k).2
  · simp only [hd, if_true]
    have e : ∑ a ∈ Finset.range (npar n), locJ n x (tau 0) a k * tau' a = tau' k := by
      rw [Finset.sum_eq_single k]
      · simp [locJ, hd]
      · intro a _ ha; simp [locJ, hd, ha]
      · intro hh; exact absurd (Finset.mem_range.2 hk) hh
    rw [e]
    have pk := hp k hk hd
    refine (h k).congr_of_eventuallyEq ?_
    filter_upwards [(h k).continuousAt.eventually (lt_mem_nhds pk)] with t ht
    exact mul_self_sqrt ht.le
  · simp only [hd, if_false]
    obtain ⟨n1, n2, n3⟩ := d5 hd
    have pa := hp _ d1 d3
    have pb := hp _ d2 d4
    have e : ∑ a ∈ Finset.range (npar n), locJ n x (tau 0) a k * tau' a =
        locJ n x (tau 0) k k * tau' k + (locJ n x (tau 0) (da n k) k * tau' (da n k) + locJ n x (tau 0) (db n k) k * tau' (db n k)) := by
      rw [← Finset.sum_subset (s₁ := {k, da n k, db n k})]
      · rw [Finset.sum_insert (by simp [n1.symm, n2.symm]), Finset.sum_insert (by simp [n3]), Finset.sum_singleton]
      · intro i hi
        simp only [Finset.mem_insert, Finset.mem_singleton] at hi
        rcases hi with rfl | rfl | rfl <;> exact Finset.mem_range.2 (by assumption)
      · intro i _ hi
        simp only [Finset.mem_insert, Finset.mem_singleton, not_or] at hi
        rw [locJ, if_neg hd, if_neg hi.1, if_neg hi.2.1, if_neg hi.2.2, zero_mul]
    rw [e]
    have v1 : locJ n x (tau 0) k k = √(tau 0 (db n k)) * √(tau 0 (da n k)) * (1 - tanh (tau 0 k) ^ 2) := by
      rw [locJ, if_neg hd, if_pos rfl, hx _ d1 d3, hx _ d2 d4]
    have v2 : locJ n x (tau 0) (da n k) k = tanh (tau 0 k) * √(tau 0 (db n k)) / (√(tau 0 (da n k)) * 2) := by
      rw [locJ, if_neg hd, if_neg n1, if_pos rfl, hx _ d1 d3, hx _ d2 d4]
    have v3 : locJ n x (tau 0) (db n k) k = tanh (tau 0 k) * √(tau 0 (da n k)) / (√(tau 0 (db n k)) * 2) := by
      rw [locJ, if_neg hd, if_neg n2, if_neg n3.symm, if_pos rfl, hx _ d1 d3, hx _ d2 d4]
    rw [v1, v2, v3]
    have hh := (((h (db n k)).sqrt pb.ne').fun_mul ((hasDerivAt_tanh' (tau 0 k)).comp 0 (h k))).fun_mul ((h (da n k)).sqrt pa.ne')
    refine hh.congr_deriv ?_
    simp only [Function.comp]
    have sx := sqrt_pos.2 pa
    have sy := sqrt_pos.2 pb
    generalize √(tau 0 (da n k)) = u at *
    generalize √(tau 0 (db n k)) = v at *
    generalize tanh (tau 0 k) = w
    field_simp
    ring

/-- Up to three variables per term: `jacobian` holds the derivatives of `inverse_transform` at the transformed parameters, with
the parameters of `tau` as rows, so that `J.dot(g)` is the gradient with respect to `tau`. -/
theorem C143_jacobian_partial {dims : List ℕ} (hn : ∀ n ∈ dims, n ≤ 3) {th : ℕ → ℝ} (hv : PosVar dims th)
    {tau : ℝ → ℕ → ℝ} {tau' : ℕ → ℝ} (h : ∀ i, HasDerivAt (fun t => tau t i) (tau' i) 0) (h0 : tau 0 = transform dims th) {j : ℕ}
    (hj : j ≤ total 0 dims) :
    HasDerivAt (fun t => inverse dims (tau t) j) (∑ i ∈ Finset.range (total 0 dims + 1), jacobian dims th i j * tau' i) 0 := by
  rcases hb : blk 0 dims j with _ | ⟨b, n⟩
  · have hj' : j = total 0 dims := le_antisymm hj ((blk_none dims 0 j (Nat.zero_le _)).1 hb)
    have e : ∀ t, inverse dims (tau t) j = tau t j := by
      intro t
      unfold inverse
      rw [rvsLoop_eq _ dims hn, hb]
    simp only [e]
    refine (h j).congr_deriv ?_
    rw [Finset.sum_eq_single j]
    · unfold jacobian
      rw [jacLoop_eq _ _ dims hn 0 _ (fun _ _ _ => rfl), hb]
      simp only
      rw [if_pos ⟨hj', hj'⟩, one_mul]
    · intro i _ hi
      unfold jacobian
      rw [jacLoop_eq _ _ dims hn 0 _ (fun _ _ _ => rfl), hb]
      simp only
      rw [if_neg (by omega), zero_mul]
    · intro hh; exact absurd (Finset.mem_range.2 (by omega)) hh
  · obtain ⟨h1, h2, h3, h4, h5, h6⟩ := blk_some dims _ _ _ _ hb
    obtain ⟨k, rfl⟩ := Nat.exists_eq_add_of_le h3
    have hk : k < npar n := by omega
    have e : ∀ t, inverse dims (tau t) (b + k) = locI n (fun k => tau t (b + k)) k := fun t => inv_in hn _ hb hk
    simp only [e]
    have t0 : ∀ i < npar n, (rc n i).1 = (rc n i).2 → th (b + i) = tau 0 (b + i) := by
      intro i hi hd
      rw [h0, tau_in hn th hb hi, locF, if_pos hd]
    refine (locI_deriv (hn n h1) hk (tau := fun t k => tau t (b + k)) (tau' := fun k => tau' (b + k)) (x := fun k => th (b + k)) (fun i => h _)
      (fun i hi hd => ?_) t0).congr_deriv ?_
    · rw [← t0 i hi hd]
      exact posVar_at hv hb hi hd
    · have ej : ∀ i, jacobian dims th i (b + k) = if b ≤ i ∧ i < b + npar n then
          locJ n (fun k => th (b + k)) (fun k => tau 0 (b + k)) (i - b) k else 0 := by
        intro i
        unfold jacobian
        rw [jacLoop_eq _ _ dims hn 0 _ (fun _ _ _ => rfl), hb]
        simp only
        rw [Nat.add_sub_cancel_left, h0]
      have e1 : ∑ a ∈ Finset.range (npar n), locJ n (fun k => th (b + k)) (fun k => tau 0 (b + k)) a k * tau' (b + a) =
          ∑ i ∈ (Finset.range (npar n)).image (fun a => b + a), jacobian dims th i (b + k) * tau' i := by
        rw [Finset.sum_image (fun x _ y _ hxy => Nat.add_left_cancel hxy)]
        refine Finset.sum_congr rfl fun a ha => ?_
        have := Finset.mem_range.1 ha
        rw [ej, if_pos (by omega), Nat.add_sub_cancel_left]
      rw [e1]
      refine Finset.sum_subset ?_ ?_
      · intro i hi
        obtain ⟨a, ha, rfl⟩ := Finset.mem_image.1 hi
        have := Finset.mem_range.1 ha
        exact Finset.mem_range.2 (by omega)
      · intro i _ hi
        rw [ej, if_neg, zero_mul]
        intro hh
        exact hi (Finset.mem_image.2 ⟨i - b, Finset.mem_range.2 (by omega), by omega⟩)

/-- Four variables: the correlation of variables 1 and 2 is stored in the place of the one of variables 0 and 3 and the other way
round, so that unit variances with the single covariance 1/2 of variables 0 and 3 come back with the covariance at variables
1 and 2. -/
theorem C143_order_violated :
    let th : ℕ → ℝ := fun k => if k = 0 ∨ k = 4 ∨ k = 7 ∨ k = 9 ∨ k = 10 then 1 else if k = 3 then 1 / 2 else 0
    gixR 4 ≠ ((npTriu 4 0).filter fun p => decide (p.1 ≠ p.2)).map Prod.swap ∧
    pos 4 3 0 = 3 ∧ pos 4 2 1 = 5 ∧ th 3 = 1 / 2 ∧ th 5 = 0 ∧
    inverse [4] (transform [4] th) 3 = 0 ∧ inverse [4] (transform [4] th) 5 = 1 / 2 := by
  intro th
  have t3 : transform [4] th 3 = artanh (√(1 / 1) * 0 * √(1 / 1)) := by
    simp [transform, fwdLoop, fwdTerm, scatter1, show tixR 4 = [1, 2, 3, 5, 6, 8] from rfl, show tixV 4 = [0, 4, 7, 9] from rfl,
      show gixR 4 = [(1, 0), (2, 0), (2, 1), (3, 0), (3, 1), (3, 2)] from rfl, show List.range 4 = [0, 1, 2, 3] from rfl, gmat,
      show pos 4 2 1 = 5 from rfl, th]
  have t5 : transform [4] th 5 = artanh (1 / 2) := by
    simp [transform, fwdLoop, fwdTerm, scatter1, show tixR 4 = [1, 2, 3, 5, 6, 8] from rfl, show tixV 4 = [0, 4, 7, 9] from rfl,
      show gixR 4 = [(1, 0), (2, 0), (2, 1), (3, 0), (3, 1), (3, 2)] from rfl, show List.range 4 = [0, 1, 2, 3] from rfl, gmat,
      show pos 4 3 0 = 3 from rfl, show pos 4 3 3 = 9 from rfl, show pos 4 0 0 = 0 from rfl, th]
  have tv : ∀ k ∈ [0, 4, 7, 9], transform [4] th k = 1 := by
    intro k hk
    simp only [List.mem_cons, List.not_mem_nil, or_false] at hk
    rcases hk with rfl | rfl | rfl | rfl <;>
    simp [transform, fwdLoop, fwdTerm, scatter1, show tixR 4 = [1, 2, 3, 5, 6, 8] from rfl, show tixV 4 = [0, 4, 7, 9] from rfl,
      show gixR 4 = [(1, 0), (2, 0), (2, 1), (3, 0), (3, 1), (3, 2)] from rfl, show List.range 4 = [0, 1, 2, 3] from rfl, gmat,
      show pos 4 3 3 = 9 from rfl, show pos 4 0 0 = 0 from rfl, show pos 4 1 1 = 4 from rfl, show pos 4 2 2 = 7 from rfl, th]
  have hl : npTriu 4 0 = [(0, 0), (0, 1), (0, 2), (0, 3), (1, 1), (1, 2), (1, 3), (2, 2), (2, 3), (3, 3)] := rfl
  generalize transform [4] th = tau at t3 t5 tv
  have i3 : inverse [4] tau 3 = √(tau 9) * tanh (tau 3) * √(tau 0) := by
    simp [inverse, rvsLoop, rvsTerm, scatter1, scatter2, hl, show npar 4 = 10 from rfl, show List.range 10 = [0, 1, 2, 3, 4, 5, 6, 7, 8, 9] from rfl,
      show gixR 4 = [(1, 0), (2, 0), (2, 1), (3, 0), (3, 1), (3, 2)] from rfl, show List.range 4 = [0, 1, 2, 3] from rfl, gmat,
      show pos 4 3 3 = 9 from rfl, show pos 4 0 0 = 0 from rfl, show pos 4 3 0 = 3 from rfl]
  have i5 : inverse [4] tau 5 = √(tau 7) * tanh (tau 5) * √(tau 4) := by
    simp [inverse, rvsLoop, rvsTerm, scatter1, scatter2, hl, show npar 4 = 10 from rfl, show List.range 10 = [0, 1, 2, 3, 4, 5, 6, 7, 8, 9] from rfl,
      show gixR 4 = [(1, 0), (2, 0), (2, 1), (3, 0), (3, 1), (3, 2)] from rfl, show List.range 4 = [0, 1, 2, 3] from rfl, gmat,
      show pos 4 2 2 = 7 from rfl, show pos 4 1 1 = 4 from rfl, show pos 4 2 1 = 5 from rfl]
  refine ⟨by decide, rfl, rfl, by simp [th], by simp [th], ?_, ?_⟩
  · rw [i3, t3, tanh_artanh, mul_zero, zero_mul, mul_zero, zero_mul]
    simp
  · rw [i5, t5, tv 7 (by simp), tv 4 (by simp), tanh_artanh (by constructor <;> norm_num)]
    simp

example : ∃ th : ℕ → ℝ, PosVar [1, 2] th ∧ CorrOk [1, 2] th ∧ total 0 [1, 2] = 4 := by
  refine ⟨fun k => if k = 2 then 1 / 2 else 1, ?_, ?_, rfl⟩
  · intro j b n _ _
    simp only
    split_ifs <;> norm_num
  · intro j b n hb hd
    obtain ⟨h1, h2, h3, h4, h5, h6⟩ := blk_some [1, 2] _ _ _ _ hb
    have hj : j < 4 := lt_of_lt_of_le h4 h5
    interval_cases j
    · obtain ⟨rfl, rfl⟩ : 0 = b ∧ 1 = n := by simpa [blk, show npar 1 = 1 from rfl] using hb
      exact absurd rfl hd
    · obtain ⟨rfl, rfl⟩ : 1 = b ∧ 2 = n := by simpa [blk, show npar 1 = 1 from rfl, show npar 2 = 3 from rfl] using hb
      exact absurd rfl hd
    · obtain ⟨rfl, rfl⟩ : 1 = b ∧ 2 = n := by simpa [blk, show npar 1 = 1 from rfl, show npar 2 = 3 from rfl] using hb
      simp only [show db 2 (2 - 1) = 2 from rfl, show da 2 (2 - 1) = 0 from rfl]
      norm_num
    · obtain ⟨rfl, rfl⟩ : 1 = b ∧ 2 = n := by simpa [blk, show npar 1 = 1 from rfl, show npar 2 = 3 from rfl] using hb
      exact absurd rfl hd

end Verif.Lmm.Prf
