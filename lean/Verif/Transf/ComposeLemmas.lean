import Verif.Transf.Compose
import Verif.Transf.Jac
import Mathlib.Data.List.GetD
/-! # Closed forms for the list manipulation of `ComposedTransform` -/
namespace Verif.Transf

theorem foldlM_build {α β : Type*} (step : List β → α → Option (List β)) (c : ℕ → β) (l0 : List β)
    (ts : List α) (h : ∀ j (hj : j < ts.length), step (l0 ++ (List.range j).map c) ts[j] =
      some (l0 ++ (List.range (j + 1)).map c)) :
    ts.foldlM step l0 = some (l0 ++ (List.range ts.length).map c) := by
  induction ts using List.reverseRecOn with
  | nil => simp
  | append_singleton ts t ih =>
    rw [List.foldlM_append, ih]
    · have := h ts.length (by simp)
      simp only [List.getElem_append_right (le_refl ts.length), Nat.sub_self, List.getElem_cons_zero] at this
      simp only [List.foldlM_cons, List.foldlM_nil, bind_pure, List.length_append, List.length_cons,
        List.length_nil, zero_add]
      exact this
    · intro j hj
      have := h j (by simp; omega)
      rwa [List.getElem_append_left hj] at this

abbrev Stage := ((ℕ → ℝ) → ℕ → ℝ) × ((ℕ → ℝ) → ℕ → ℕ → ℝ) × ((ℕ → ℝ) → ℕ → ℕ → ℕ → ℝ)

/-- Composition of the first maps. -/
def stF (ts : List Stage) (x : ℕ → ℝ) : ℕ → ℝ := ts.foldl (fun x t => t.1 x) x

/-- The Jacobian accumulation. -/
def stJ (m : ℕ) (ts : List Stage) (x : ℕ → ℝ) : ℕ → ℕ → ℝ :=
  (ts.foldl (fun (s : (ℕ → ℝ) × (ℕ → ℕ → ℝ)) t => (t.1 s.1, mulN m (t.2.1 s.1) s.2)) (x, eyeN)).2

theorem stJ_fst (m : ℕ) (ts : List Stage) (x : ℕ → ℝ) (J : ℕ → ℕ → ℝ) :
    (ts.foldl (fun (s : (ℕ → ℝ) × (ℕ → ℕ → ℝ)) t => (t.1 s.1, mulN m (t.2.1 s.1) s.2)) (x, J)).1 =
      stF ts x := by
  induction ts generalizing x J with
  | nil => rfl
  | cons t ts ih => rw [List.foldl_cons, ih]; rfl

theorem stF_snoc (ts : List Stage) (t : Stage) (x : ℕ → ℝ) : stF (ts ++ [t]) x = t.1 (stF ts x) := by
  simp [stF]

theorem stJ_snoc (m : ℕ) (ts : List Stage) (t : Stage) (x : ℕ → ℝ) :
    stJ m (ts ++ [t]) x = mulN m (t.2.1 (stF ts x)) (stJ m ts x) := by
  unfold stJ
  rw [List.foldl_append, List.foldl_cons, List.foldl_nil]
  simp only [stJ_fst]

/-- Product of the Jacobians of the first `j + 1` stages. -/
def cumJ (m : ℕ) (J : ℕ → ℕ → ℕ → ℝ) : ℕ → ℕ → ℕ → ℝ
  | 0 => J 0
  | j + 1 => mulN m (J (j + 1)) (cumJ m J j)

/-- Hessians of the first `j + 1` stages by the chain rule. -/
def cumH (m : ℕ) (J : ℕ → ℕ → ℕ → ℝ) (H : ℕ → ℕ → ℕ → ℕ → ℝ) : ℕ → ℕ → ℕ → ℕ → ℝ
  | 0 => H 0
  | j + 1 => hessChain m (H (j + 1)) (cumJ m J j) (J (j + 1)) (cumH m J H j)

theorem range_map_getElem? {β : Type*} (c : ℕ → β) {j k : ℕ} (h : j < k) :
    ((List.range k).map c)[j]? = some (c j) := by
  simp [h]

theorem cons_range_map {β : Type*} (c : ℕ → β) (k : ℕ) :
    [c 0] ++ (List.range k).map (fun j => c (j + 1)) = (List.range (k + 1)).map c := by
  rw [List.range_succ_eq_map]; simp [Function.comp_def]

/-- Input of stage `j`. -/
def ptN (ts : List Stage) (x : ℕ → ℝ) (j : ℕ) : ℕ → ℝ := stF (ts.take j) x

def stD : Stage := (id, fun _ => eyeN, fun _ _ _ _ => 0)

theorem ptN_succ (ts : List Stage) (x : ℕ → ℝ) {j : ℕ} (hj : j < ts.length) :
    ptN ts x (j + 1) = ts[j].1 (ptN ts x j) := by
  unfold ptN
  rw [List.take_succ_eq_append_getElem hj, stF_snoc]

theorem compHess_nil (m : ℕ) (x : ℕ → ℝ) : compHess m [] x = none := by
  simp [compHess]

/-- Value of the list manipulation on a non-empty list of stages. -/
theorem compHess_eq (m : ℕ) (ts : List Stage) (x : ℕ → ℝ) (h : 0 < ts.length) :
    compHess m ts x = some (cumH m (fun j => (ts.getD j stD).2.1 (ptN ts x j))
      (fun j => (ts.getD j stD).2.2 (ptN ts x j)) (ts.length - 1)) := by
  have e1 : ts.foldlM (fun l t => do return l ++ [t.1 (← l.getLast?)]) [x] =
      some ((List.range (ts.length + 1)).map (ptN ts x)) := by
    rw [foldlM_build _ (fun j => ptN ts x (j + 1))]
    · exact congrArg some (cons_range_map (ptN ts x) ts.length)
    · intro j hj
      have : [x] ++ (List.range j).map (fun j => ptN ts x (j + 1)) =
          (List.range (j + 1)).map (ptN ts x) := cons_range_map (ptN ts x) j
      have t2 : [x] ++ (List.range (j + 1)).map (fun j => ptN ts x (j + 1)) =
          (List.range (j + 2)).map (ptN ts x) := cons_range_map (ptN ts x) (j + 1)
      rw [this, t2, List.range_succ, List.map_append]
      simp [List.range_succ, ptN_succ ts x hj]
  have e2 : (ts.zipIdx).foldlM (fun l p => do
      return l ++ [p.1.2.1 (← ((List.range (ts.length + 1)).map (ptN ts x))[p.2]?)]) [] =
      some ((List.range ts.length).map fun j => (ts.getD j stD).2.1 (ptN ts x j)) := by
    rw [foldlM_build _ (fun j => (ts.getD j stD).2.1 (ptN ts x j))]
    · simp
    · intro j hj
      have hj' : j < ts.length := by simpa using hj
      simp only [List.getElem_zipIdx, zero_add]
      rw [range_map_getElem? _ (by omega)]
      simp [List.range_succ, hj']
  have e3 : (ts.zipIdx).foldlM (fun l p => do
      return l ++ [p.1.2.2 (← ((List.range (ts.length + 1)).map (ptN ts x))[p.2]?)]) [] =
      some ((List.range ts.length).map fun j => (ts.getD j stD).2.2 (ptN ts x j)) := by
    rw [foldlM_build _ (fun j => (ts.getD j stD).2.2 (ptN ts x j))]
    · simp
    · intro j hj
      have hj' : j < ts.length := by simpa using hj
      simp only [List.getElem_zipIdx, zero_add]
      rw [range_map_getElem? _ (by omega)]
      simp [List.range_succ, hj']
  unfold compHess
  rw [e1]
  simp only [Option.bind_eq_bind, Option.bind_some] at e2 e3 ⊢
  rw [e2]
  simp only [Option.bind_some]
  rw [e3]
  generalize (fun j => (ts.getD j stD).2.1 (ptN ts x j)) = J
  generalize (fun j => (ts.getD j stD).2.2 (ptN ts x j)) = H
  rw [range_map_getElem? _ h]
  simp only [Option.bind_some]
  have e4 : (List.range' 1 (ts.length - 1 - 1)).foldlM (fun l i =>
      (((List.range ts.length).map J)[i]?).bind fun a => (l[i - 1]?).bind fun b =>
        pure (l ++ [mulN m a b])) [J 0] =
      some ((List.range (ts.length - 1 - 1 + 1)).map (cumJ m J)) := by
    rw [foldlM_build _ (fun j => cumJ m J (j + 1))]
    · rw [List.length_range']
      exact congrArg some (cons_range_map (cumJ m J) _)
    · intro j hj
      have hj' : j < ts.length - 1 - 1 := by simpa using hj
      have t1 : [J 0] ++ (List.range j).map (fun j => cumJ m J (j + 1)) =
          (List.range (j + 1)).map (cumJ m J) := cons_range_map (cumJ m J) j
      have t2 : [J 0] ++ (List.range (j + 1)).map (fun j => cumJ m J (j + 1)) =
          (List.range (j + 2)).map (cumJ m J) := cons_range_map (cumJ m J) (j + 1)
      rw [t1, t2, List.getElem_range', range_map_getElem? _ (by omega),
        range_map_getElem? _ (by omega)]
      simp only [Option.bind_some, one_mul]
      rw [List.range_succ (n := j + 1), List.map_append]
      simp only [List.map_cons, List.map_nil, cumJ, show 1 + j - 1 = j by omega,
        show 1 + j = j + 1 by omega]
      rfl
  rw [e4]
  simp only [Option.bind_some]
  rw [range_map_getElem? _ h]
  simp only [Option.bind_some]
  have e5 : (List.range' 1 (ts.length - 1)).foldlM (fun l i =>
      (((List.range ts.length).map H)[i]?).bind fun a =>
        (((List.range (ts.length - 1 - 1 + 1)).map (cumJ m J))[i - 1]?).bind fun b =>
          (((List.range ts.length).map J)[i]?).bind fun c => (l[i - 1]?).bind fun d =>
        pure (l ++ [hessChain m a b c d])) [H 0] =
      some ((List.range (ts.length - 1 + 1)).map (cumH m J H)) := by
    rw [foldlM_build _ (fun j => cumH m J H (j + 1))]
    · rw [List.length_range']
      exact congrArg some (cons_range_map (cumH m J H) _)
    · intro j hj
      have hj' : j < ts.length - 1 := by simpa using hj
      have t1 : [H 0] ++ (List.range j).map (fun j => cumH m J H (j + 1)) =
          (List.range (j + 1)).map (cumH m J H) := cons_range_map (cumH m J H) j
      have t2 : [H 0] ++ (List.range (j + 1)).map (fun j => cumH m J H (j + 1)) =
          (List.range (j + 2)).map (cumH m J H) := cons_range_map (cumH m J H) (j + 1)
      rw [t1, t2, List.getElem_range', range_map_getElem? _ (by omega),
        range_map_getElem? _ (by omega), range_map_getElem? _ (by omega),
        range_map_getElem? _ (by omega)]
      simp only [Option.bind_some, one_mul]
      rw [List.range_succ (n := j + 1), List.map_append]
      simp only [List.map_cons, List.map_nil, cumH, show 1 + j - 1 = j by omega,
        show 1 + j = j + 1 by omega]
      rfl
  rw [e5]
  simp only [Option.bind_some]
  rw [show ts.length - 1 + 1 = ts.length by omega]
  simp [List.getLast?_map, List.getLast?_range, h.ne']

/-! ## chain rules -/

theorem IsJac.comp {m : ℕ} {f g : (ℕ → ℝ) → ℕ → ℝ} {Jf Jg : ℕ → ℕ → ℝ} {x : ℕ → ℝ}
    (hf : IsJac m m f Jf x) (hg : IsJac m m g Jg (f x)) :
    IsJac m m (fun x => g (f x)) (mulN m Jg Jf) x := by
  intro X x' hX h0 k hk
  have := hg (fun t => f (X t)) _ (hf X x' hX h0) (by simp [h0]) k hk
  refine this.congr_deriv ?_
  simp only [dotN, mulN, Finset.sum_mul, Finset.mul_sum]
  rw [Finset.sum_comm]
  exact Finset.sum_congr rfl fun _ _ => Finset.sum_congr rfl fun _ _ => by ring

theorem IsHess.comp {m : ℕ} {f : (ℕ → ℝ) → ℕ → ℝ} {Jf Jg : (ℕ → ℝ) → ℕ → ℕ → ℝ}
    {Hf Hg : ℕ → ℕ → ℕ → ℝ} {x : ℕ → ℝ} (hf : IsJac m m f (Jf x) x) (hHf : IsHess m m Jf Hf x)
    (hHg : IsHess m m Jg Hg (f x)) :
    IsHess m m (fun x => mulN m (Jg (f x)) (Jf x)) (hessChain m Hg (Jf x) (Jg (f x)) Hf) x := by
  intro X x' hX h0 p hp k hk
  have h1 := hf X x' hX h0
  have h2 : ∀ q, q < m → HasDerivAt (fun t => Jg (f (X t)) k q * Jf (X t) q p)
      (dotN m (Hg k q) (fun r => dotN m (Jf x r) x') * Jf x q p +
        Jg (f x) k q * dotN m (Hf q p) x') 0 := fun q hq => by
    have a := hHg (fun t => f (X t)) _ h1 (by simp [h0]) q hq k hk
    have b := hHf X x' hX h0 p hp q hq
    have := a.fun_mul b
    beta_reduce at this
    rwa [h0] at this
  have h3 := HasDerivAt.fun_sum (u := Finset.range m) fun q hq => h2 q (Finset.mem_range.1 hq)
  refine h3.congr_deriv ?_
  simp only [dotN, hessChain, Finset.sum_mul, Finset.mul_sum, add_mul, Finset.sum_add_distrib]
  congr 1
  · symm
    rw [Finset.sum_comm]
    refine Finset.sum_congr rfl fun q _ => ?_
    rw [Finset.sum_comm]
    exact Finset.sum_congr rfl fun _ _ => Finset.sum_congr rfl fun _ _ => by ring
  · rw [Finset.sum_comm]
    exact Finset.sum_congr rfl fun _ _ => Finset.sum_congr rfl fun _ _ => by ring

end Verif.Transf
