import Verif.Sparse.BuildLemmas
/-! The Kronecker kernels as column builders. -/
namespace Verif.Sparse

variable {R : Type*}

theorem list_sum_eq_range [AddCommMonoid R] (L : List (ℕ × R)) (r : ℕ) :
    (L.map fun rv => if rv.1 = r then rv.2 else 0).sum =
      ∑ t ∈ Finset.range L.length,
        (if h : t < L.length then (if (L[t]).1 = r then (L[t]).2 else 0) else 0) := by
  rw [Finset.sum_range, ← List.sum_ofFn]
  congr 1
  apply List.ext_getElem
  · simp
  · intro n h1 h2
    simp

/-- Values from one build, pattern from another build with the same rows. -/
theorem buildCols_entry_mix [AddCommMonoid R] (colf colf' : ℕ → List (ℕ × R)) (N : ℕ)
    (o o' : Out R) (h0 : o.cnt = 0) (hp : o.C.p 0 = 0) (h0' : o'.cnt = 0) (hp' : o'.C.p 0 = 0)
    (hrows : ∀ c < N, (colf c).map Prod.fst = (colf' c).map Prod.fst) (r c : ℕ) (hc : c < N) :
    ({ p := (buildCols colf N o).C.p, i := (buildCols colf N o).C.i,
       x := (buildCols colf' N o').C.x } : Csc R).entry r c =
      ((colf' c).map fun rv => if rv.1 = r then rv.2 else 0).sum := by
  obtain ⟨i1, i2, i3⟩ := buildCols_spec colf N o h0 hp
  obtain ⟨j1, j2, j3⟩ := buildCols_spec colf' N o' h0' hp'
  have hlen : ∀ c < N, (colf c).length = (colf' c).length := by
    intro c hc
    have := congrArg List.length (hrows c hc)
    simpa using this
  have hoff : ∀ c ≤ N, offs colf c = offs colf' c := by
    intro c hc
    unfold offs
    apply Finset.sum_congr rfl
    intro c' hc'
    rw [Finset.mem_range] at hc'
    exact hlen c' (by omega)
  unfold Csc.entry
  simp only
  rw [i2 c (by omega), i2 (c + 1) (by omega), offs_succ, Finset.sum_Ico_eq_sum_range,
    list_sum_eq_range]
  have : offs colf c + (colf c).length - offs colf c = (colf' c).length := by
    rw [← hlen c hc]; omega
  rw [this]
  apply Finset.sum_congr rfl
  intro t ht
  rw [Finset.mem_range] at ht
  have ht' : t < (colf c).length := by rw [hlen c hc]; exact ht
  obtain ⟨a, _⟩ := i3 c hc t ht'
  obtain ⟨_, b⟩ := j3 c hc t ht
  have hr : ((colf c)[t]).1 = ((colf' c)[t]).1 := by
    have h1 : ((colf c).map Prod.fst)[t]? = ((colf' c).map Prod.fst)[t]? := by rw [hrows c hc]
    rw [List.getElem?_map, List.getElem?_map, List.getElem?_eq_getElem ht',
      List.getElem?_eq_getElem ht] at h1
    simpa using h1
  rw [a, hoff c (by omega), b, dif_pos ht, hr]

/-- Entries of one column of a CSC matrix, in storage order. -/
def Csc.colList (M : Csc R) (c : ℕ) : List (ℕ × R) :=
  (loopRange (M.p c) (M.p (c + 1))).map fun k => (M.i k, M.x k)

theorem Csc.entry_colList [AddCommMonoid R] (M : Csc R) (r c : ℕ) :
    M.entry r c = ((M.colList c).map fun rv => if rv.1 = r then rv.2 else 0).sum := by
  rw [Csc.colList, List.map_map]
  exact (sum_loopRange _ _ _).symm

/-- Product of two entry lists, as the Kronecker kernels enumerate it. -/
def kronList [Mul R] (la lb : List (ℕ × R)) (Bnr : ℕ) : List (ℕ × R) :=
  la.flatMap fun a => lb.map fun b => (b.1 + a.1 * Bnr, a.2 * b.2)

theorem kronList_sum [CommRing R] (la lb : List (ℕ × R)) (Bnr r t : ℕ) (ht : t < Bnr)
    (hb : ∀ b ∈ lb, b.1 < Bnr) :
    ((kronList la lb Bnr).map fun rv => if rv.1 = r * Bnr + t then rv.2 else 0).sum =
      (la.map fun rv => if rv.1 = r then rv.2 else 0).sum *
      (lb.map fun rv => if rv.1 = t then rv.2 else 0).sum := by
  unfold kronList
  rw [sum_flatMap', ← List.sum_map_mul_right]
  congr 1
  apply List.map_congr_left
  rintro ⟨ar, av⟩ _
  rw [← List.sum_map_mul_left, List.map_map]
  congr 1
  apply List.map_congr_left
  rintro ⟨br, bv⟩ hbm
  have hbr : br < Bnr := hb _ hbm
  simp only [Function.comp]
  have key : br + ar * Bnr = r * Bnr + t ↔ ar = r ∧ br = t := by
    constructor
    · intro h
      have h1 : (br + ar * Bnr) / Bnr = ar := by
        rw [Nat.add_mul_div_right _ _ (by omega), Nat.div_eq_of_lt hbr]; omega
      have h2 : (r * Bnr + t) / Bnr = r := by
        rw [Nat.add_comm, Nat.add_mul_div_right _ _ (by omega), Nat.div_eq_of_lt ht]; omega
      have h3 : ar = r := by rw [← h1, h, h2]
      subst h3
      exact ⟨rfl, by omega⟩
    · rintro ⟨rfl, rfl⟩; omega
  rw [if_congr key rfl rfl]
  by_cases h1 : ar = r <;> by_cases h2 : br = t <;> simp [h1, h2]

theorem foldl_push_map {α : Type*} (l : List α) (f : α → ℕ × R) (o : Out R) :
    l.foldl (fun o a => o.push (f a)) o = pushAll o (l.map f) := by
  rw [pushAll, List.foldl_map]

theorem foldl_push_kron [Mul R] {α β : Type*} (l : List α) (fa : α → ℕ × R) (lb : List β)
    (fb : β → ℕ × R) (Bnr : ℕ) (o : Out R) :
    l.foldl (fun o a => lb.foldl (fun o b =>
      o.push ((fb b).1 + (fa a).1 * Bnr, (fa a).2 * (fb b).2)) o) o =
      pushAll o (kronList (l.map fa) (lb.map fb) Bnr) := by
  unfold pushAll kronList
  rw [List.foldl_flatMap, List.foldl_map]
  simp only [List.foldl_map]

section ring
variable [CommRing R]

theorem kronSS_eq (A : Csc R) (Anc : ℕ) (B : Csc R) (Bnr Bnc : ℕ) (o : Out R) :
    kronSS A Anc B Bnr Bnc o =
      buildCols (fun c => kronList (A.colList (c / Bnc)) (B.colList (c % Bnc)) Bnr)
        (Anc * Bnc) o := by
  unfold kronSS buildCols
  refine Eq.trans (nested_fold (fun a b (o : Out R) =>
    ((loopRange (A.p a) (A.p (a + 1))).foldl (fun o ai =>
        (loopRange (B.p b) (B.p (b + 1))).foldl (fun o bi =>
          o.push (B.i bi + A.i ai * Bnr, A.x ai * B.x bi)) o) o).setP (a * Bnc + b + 1)) _ _ _) ?_
  apply List.foldl_ext
  intro o c _
  rw [foldl_push_kron _ (fun k => (A.i k, A.x k)) _ (fun k => (B.i k, B.x k)), Nat.div_add_mod']
  rfl

/-- Dense column in Fortran order, as an entry list. -/
def denseCol (A : ℕ → R) (nr c : ℕ) : List (ℕ × R) :=
  (List.range nr).map fun r => (r, A (r + c * nr))

theorem denseCol_sum (A : ℕ → R) (nr c r : ℕ) (hr : r < nr) :
    ((denseCol A nr c).map fun rv => if rv.1 = r then rv.2 else 0).sum = A (r + c * nr) := by
  unfold denseCol
  rw [List.map_map]
  have : ((List.range nr).map ((fun rv : ℕ × R => if rv.1 = r then rv.2 else 0) ∘
      fun r => (r, A (r + c * nr)))).sum =
      ∑ k ∈ Finset.range nr, if k = r then A (k + c * nr) else 0 := rfl
  rw [this, Finset.sum_ite_eq' (Finset.range nr) r (fun k => A (k + c * nr))]
  simp [hr]

theorem kronDS_eq (A : ℕ → R) (Anr Anc : ℕ) (B : Csc R) (Bnr Bnc : ℕ) (o : Out R) :
    kronDS A Anr Anc B Bnr Bnc o =
      buildCols (fun c => kronList (denseCol A Anr (c / Bnc)) (B.colList (c % Bnc)) Bnr)
        (Anc * Bnc) o := by
  unfold kronDS buildCols
  refine Eq.trans (nested_fold (fun a b (o : Out R) =>
    ((List.range Anr).foldl (fun o arow =>
        (loopRange (B.p b) (B.p (b + 1))).foldl (fun o bi =>
          o.push (B.i bi + arow * Bnr, A (arow + a * Anr) * B.x bi)) o) o).setP (a * Bnc + b + 1)) _ _ _) ?_
  apply List.foldl_ext
  intro o c _
  rw [foldl_push_kron _ (fun r => (r, A (r + c / Bnc * Anr))) _ (fun k => (B.i k, B.x k)),
    Nat.div_add_mod']
  rfl

theorem kronSD_eq (A : Csc R) (Anc : ℕ) (B : ℕ → R) (Bnr Bnc : ℕ) (o : Out R) :
    kronSD A Anc B Bnr Bnc o =
      buildCols (fun c => kronList (A.colList (c / Bnc)) (denseCol B Bnr (c % Bnc)) Bnr)
        (Anc * Bnc) o := by
  unfold kronSD buildCols
  refine Eq.trans (nested_fold (fun a b (o : Out R) =>
    ((loopRange (A.p a) (A.p (a + 1))).foldl (fun o ai =>
        (List.range Bnr).foldl (fun o brow =>
          o.push (brow + A.i ai * Bnr, A.x ai * B (brow + b * Bnr))) o) o).setP (a * Bnc + b + 1)) _ _ _) ?_
  apply List.foldl_ext
  intro o c _
  rw [foldl_push_kron _ (fun k => (A.i k, A.x k)) _ (fun r => (r, B (r + c % Bnc * Bnr))),
    Nat.div_add_mod']
  rfl

theorem kronIdSp_eq (m : ℕ) (B : Csc R) (Bnr Bnc : ℕ) (o : Out R) (hp : o.C.p 0 = 0) :
    kronIdSp m B Bnr Bnc o =
      buildCols (fun c => (B.colList (c % Bnc)).map fun rv => (rv.1 + c / Bnc * Bnr, rv.2))
        (m * Bnc) o := by
  unfold kronIdSp buildCols
  have e : ({ o with C := { o.C with p := store o.C.p 0 0 } } : Out R) = o := by
    have : store o.C.p 0 0 = o.C.p := by
      funext k
      by_cases h : k = 0
      · subst h; rw [store_same, hp]
      · rw [store_ne _ _ _ _ h]
    rw [this]
  simp only [e]
  refine Eq.trans (nested_fold (fun i j (o : Out R) =>
    ((loopRange (B.p j) (B.p (j + 1))).foldl (fun o k =>
        o.push (B.i k + i * Bnr, B.x k)) o).setP (i * Bnc + j + 1)) _ _ _) ?_
  apply List.foldl_ext
  intro o c _
  rw [foldl_push_map, Nat.div_add_mod', Csc.colList, List.map_map]
  rfl

/-- Value-only projection. -/
def proj (o : Out R) : ℕ × (ℕ → R) := (o.cnt, o.C.x)

theorem proj_pushAll (o : Out R) (L : List (ℕ × R)) :
    proj (pushAll o L) = (L.map Prod.snd).foldl pushX (proj o) := by
  unfold pushAll
  induction L generalizing o with
  | nil => rfl
  | cons a L ih => simp only [List.foldl_cons, List.map_cons, ih]; rfl

theorem proj_buildCols (colf : ℕ → List (ℕ × R)) (N : ℕ) (o : Out R) :
    proj (buildCols colf N o) =
      (List.range N).foldl (fun st c => ((colf c).map Prod.snd).foldl pushX st) (proj o) := by
  induction N with
  | zero => rfl
  | succ N ih =>
    have e : buildCols colf (N + 1) o = (pushAll (buildCols colf N o) (colf N)).setP (N + 1) := by
      simp [buildCols, List.range_succ]
    have e2 : ∀ (o : Out R) j, proj (o.setP j) = proj o := fun _ _ => rfl
    rw [e, e2, proj_pushAll, ih]
    simp [List.range_succ]

theorem foldl_pushX_kron {α β : Type*} (l : List α) (fa : α → ℕ × R) (lb : List β)
    (fb : β → ℕ × R) (Bnr : ℕ) (st : ℕ × (ℕ → R)) :
    l.foldl (fun st a => lb.foldl (fun st b => pushX st ((fa a).2 * (fb b).2)) st) st =
      ((kronList (l.map fa) (lb.map fb) Bnr).map Prod.snd).foldl pushX st := by
  unfold kronList
  rw [List.foldl_map, List.foldl_flatMap, List.foldl_map]
  simp only [List.foldl_map]

theorem kronSSInplace_eq (A : Csc R) (Anc : ℕ) (B : Csc R) (Bnr Bnc : ℕ) (o : Out R)
    (h0 : o.cnt = 0) :
    kronSSInplace A Anc B Bnc o.C.x = (kronSS A Anc B Bnr Bnc o).C.x := by
  have h := proj_buildCols (fun c => kronList (A.colList (c / Bnc)) (B.colList (c % Bnc)) Bnr)
    (Anc * Bnc) o
  rw [kronSS_eq]
  have : (buildCols (fun c => kronList (A.colList (c / Bnc)) (B.colList (c % Bnc)) Bnr)
    (Anc * Bnc) o).C.x = (proj (buildCols (fun c => kronList (A.colList (c / Bnc))
      (B.colList (c % Bnc)) Bnr) (Anc * Bnc) o)).2 := rfl
  rw [this, h]
  unfold kronSSInplace
  have h1 : proj o = (0, o.C.x) := by rw [proj, h0]
  rw [h1]
  refine congrArg Prod.snd ?_
  refine Eq.trans (nested_fold (fun a b st =>
      (loopRange (A.p a) (A.p (a + 1))).foldl (fun st ai =>
        (loopRange (B.p b) (B.p (b + 1))).foldl (fun st bi => pushX st (A.x ai * B.x bi)) st) st) _ _ _) ?_
  apply List.foldl_ext
  intro st c _
  exact foldl_pushX_kron _ (fun k => (A.i k, A.x k)) _ (fun k => (B.i k, B.x k)) Bnr st

theorem kronDSInplace_eq (A : ℕ → R) (Anr Anc : ℕ) (B : Csc R) (Bnr Bnc : ℕ) (o : Out R)
    (h0 : o.cnt = 0) :
    kronDSInplace A Anr Anc B Bnc o.C.x = (kronDS A Anr Anc B Bnr Bnc o).C.x := by
  have h := proj_buildCols (fun c => kronList (denseCol A Anr (c / Bnc)) (B.colList (c % Bnc)) Bnr)
    (Anc * Bnc) o
  rw [kronDS_eq]
  have : ∀ o : Out R, o.C.x = (proj o).2 := fun _ => rfl
  rw [this (buildCols _ _ _), h]
  unfold kronDSInplace
  have h1 : proj o = (0, o.C.x) := by rw [proj, h0]
  rw [h1]
  refine congrArg Prod.snd ?_
  refine Eq.trans (nested_fold (fun a b st =>
      (List.range Anr).foldl (fun st arow =>
        (loopRange (B.p b) (B.p (b + 1))).foldl (fun st bi =>
          pushX st (A (arow + a * Anr) * B.x bi)) st) st) _ _ _) ?_
  apply List.foldl_ext
  intro st c _
  exact foldl_pushX_kron _ (fun r => (r, A (r + c / Bnc * Anr))) _ (fun k => (B.i k, B.x k)) Bnr st

theorem kronSDInplace_eq (A : Csc R) (Anc : ℕ) (B : ℕ → R) (Bnr Bnc : ℕ) (o : Out R)
    (h0 : o.cnt = 0) :
    kronSDInplace A Anc B Bnr Bnc o.C.x = (kronSD A Anc B Bnr Bnc o).C.x := by
  have h := proj_buildCols (fun c => kronList (A.colList (c / Bnc)) (denseCol B Bnr (c % Bnc)) Bnr)
    (Anc * Bnc) o
  rw [kronSD_eq]
  have : ∀ o : Out R, o.C.x = (proj o).2 := fun _ => rfl
  rw [this (buildCols _ _ _), h]
  unfold kronSDInplace
  have h1 : proj o = (0, o.C.x) := by rw [proj, h0]
  rw [h1]
  refine congrArg Prod.snd ?_
  refine Eq.trans (nested_fold (fun a b st =>
      (loopRange (A.p a) (A.p (a + 1))).foldl (fun st ai =>
        (List.range Bnr).foldl (fun st brow =>
          pushX st (A.x ai * B (brow + b * Bnr))) st) st) _ _ _) ?_
  apply List.foldl_ext
  intro st c _
  exact foldl_pushX_kron _ (fun k => (A.i k, A.x k)) _ (fun r => (r, B (r + c % Bnc * Bnr))) Bnr st

theorem kronIdSpInplace_eq (m : ℕ) (B : Csc R) (Bnr Bnc : ℕ) (o : Out R)
    (h0 : o.cnt = 0) (hp : o.C.p 0 = 0) :
    kronIdSpInplace m B Bnc o.C.x = (kronIdSp m B Bnr Bnc o).C.x := by
  have h := proj_buildCols
    (fun c => (B.colList (c % Bnc)).map fun rv => (rv.1 + c / Bnc * Bnr, rv.2)) (m * Bnc) o
  rw [kronIdSp_eq m B Bnr Bnc o hp]
  have : ∀ o : Out R, o.C.x = (proj o).2 := fun _ => rfl
  rw [this (buildCols _ _ _), h]
  unfold kronIdSpInplace
  have h1 : proj o = (0, o.C.x) := by rw [proj, h0]
  rw [h1]
  refine congrArg Prod.snd ?_
  refine Eq.trans (nested_fold (fun _ j st =>
      (loopRange (B.p j) (B.p (j + 1))).foldl (fun st k => pushX st (B.x k)) st) _ _ _) ?_
  apply List.foldl_ext
  intro st c _
  rw [Csc.colList, List.map_map, List.map_map, List.foldl_map]
  rfl

end ring
end Verif.Sparse
