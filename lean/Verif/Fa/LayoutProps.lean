import Verif.Fa.CayleyProps
import Verif.Vec.Props
/-!
# Packing and unpacking of factor-model parameters (C40)
-/
namespace Verif.Fa
open Verif.Np Verif.Index Verif.Vec

theorem arange_length (a b : ℕ) : (arange a b).length = b - a := by simp [arange]

theorem mem_arange {a b i : ℕ} : i ∈ arange a b ↔ a ≤ i ∧ i < b := by
  simp only [arange, List.mem_map, List.mem_range]
  constructor
  · rintro ⟨k, hk, rfl⟩; omega
  · intro h; exact ⟨i - a, by omega, by omega⟩

theorem nodup_arange (a b : ℕ) : (arange a b).Nodup :=
  List.nodup_range.map fun _ _ h => by simpa using h

theorem arange_append {a b c : ℕ} (h1 : a ≤ b) (h2 : b ≤ c) :
    arange a b ++ arange b c = arange a c := by
  simp only [arange]
  rw [show c - a = (b - a) + (c - b) by omega, List.range_add, List.map_append, List.map_map]
  congr 1
  apply List.map_congr_left
  intro x _
  simp only [Function.comp]; omega

/-- C40: the three index ranges partition the parameter vector. -/
theorem C40_partition (p m : ℕ) :
    (layout p m).ixl ++ (layout p m).ixs ++ (layout p m).ixr = List.range (layout p m).nt ∧
    (layout p m).ixl.length = (layout p m).nl ∧ (layout p m).ixs.length = (layout p m).ns ∧
    (layout p m).ixr.length = (layout p m).nr ∧ (layout p m).idx.length = (layout p m).ns ∧
    (layout p m).nt = (layout p m).nl + (layout p m).ns + (layout p m).nr := by
  refine ⟨?_, ?_, ?_, ?_, length_tril1 m, rfl⟩
  · simp only [layout]
    rw [arange_append (by omega) (by omega), arange_append (by omega) (by omega)]
    simp [arange]
  all_goals simp [layout, arange]

theorem assign1_map (a : ℕ → Option ℝ) (ix : List ℕ) (f : ℕ → ℝ) :
    assign1 a ix (ix.map f) = some fun i => if i ∈ ix then some (f i) else a i := by
  simp only [assign1, List.length_map, if_true, Option.some.injEq]
  induction ix generalizing a with
  | nil => simp
  | cons q qs ih =>
    simp only [List.map_cons, List.zip_cons_cons, List.foldl_cons]
    rw [ih]
    funext i
    by_cases h : i ∈ qs
    · simp [h]
    · by_cases hq : i = q
      · subst hq; simp [h]
      · simp [h, hq]

theorem exists_vals1 (a b : ℕ) (v : List ℝ) (h : v.length = b - a) :
    ∃ f : ℕ → ℝ, v = (arange a b).map f :=
  exists_map_of_nodup _ (nodup_arange a b) v (by rw [arange_length, h])

theorem psi_length (p : ℕ) (P : ℕ → ℕ → ℝ) : ((List.range p).map fun i => P i i).length = p := by
  simp

theorem length_vec' (L : ℕ → ℕ → ℝ) (p m : ℕ) : (vec L p m).length = p * m := by
  simp only [vec, List.length_flatMap, List.length_map, List.length_range, List.map_const',
    List.sum_replicate, smul_eq_mul]
  ring

/-- What `pack` returns: the three parts one after the other, with no cell left uninitialised. -/
theorem C40_pack (p m : ℕ) (L Phi : ℕ → ℕ → ℝ) (psi : List ℝ) (hp : psi.length = p) :
    pack (layout p m) L Phi (.diag psi) = some ((vec L p m ++
      (trilIndices m (-1) true).map (fun ij => Phi ij.1 ij.2) ++ psi).map some) := by
  have hl : (vec L p m).length = p * m - 0 := length_vec' L p m
  obtain ⟨f, hf⟩ := exists_vals1 0 (p * m) (vec L p m) hl
  obtain ⟨g, hg⟩ := exists_vals1 (p * m) (p * m + m * (m - 1) / 2)
    ((trilIndices m (-1) true).map (fun ij => Phi ij.1 ij.2)) (by
      rw [List.length_map, length_tril1]; omega)
  obtain ⟨h, hh⟩ := exists_vals1 (p * m + m * (m - 1) / 2) (p * m + m * (m - 1) / 2 + p) psi
    (by omega)
  have hr := (C40_partition p m).1
  simp only [layout] at hr
  simp only [pack, layout]
  rw [hf, hg, hh]
  simp only [assign1_map, Option.bind_eq_bind, Option.bind_some]
  rw [← hr]
  simp only [List.map_append, List.map_map]
  congr 1
  congr 1
  · congr 1
    · apply List.map_congr_left
      intro i hi
      rw [mem_arange] at hi
      simp only [mem_arange, Function.comp]
      rw [if_neg (by omega), if_neg (by omega), if_pos (by omega)]
    · apply List.map_congr_left
      intro i hi
      rw [mem_arange] at hi
      simp only [mem_arange, Function.comp]
      rw [if_neg (by omega), if_pos (by omega)]
  · apply List.map_congr_left
    intro i hi
    rw [mem_arange] at hi
    simp only [mem_arange, Function.comp]
    rw [if_pos (by omega)]

/-- C40: a full matrix `Psi` is packed by its diagonal. -/
theorem C40_pack_full (p m : ℕ) (L Phi P : ℕ → ℕ → ℝ) :
    pack (layout p m) L Phi (.full P) =
      pack (layout p m) L Phi (.diag ((List.range p).map fun i => P i i)) := rfl

theorem take1_mid (a b c : List ℝ) :
    take1 (a ++ b ++ c) (arange a.length (a.length + b.length)) = some b := by
  rw [take1]
  have h : ∀ k, k ≤ b.length → ∀ l : List ℝ, l = b.drop k →
      ((List.range' (a.length + k) (b.length - k)).mapM fun i => (a ++ b ++ c)[i]?) = some l := by
    intro k hk
    induction hj : b.length - k generalizing k with
    | zero =>
      intro l hl
      rw [hl, List.drop_eq_nil_of_le (by omega)]
      rfl
    | succ n ih =>
      intro l hl
      have hkb : k < b.length := by omega
      have := ih (k + 1) (by omega) (by omega) _ rfl
      rw [List.range'_succ, List.mapM_cons, Nat.add_assoc, this]
      have e : (a ++ b ++ c)[a.length + k]? = some b[k] := by
        rw [List.append_assoc, List.getElem?_append_right (by omega), Nat.add_sub_cancel_left,
          List.getElem?_append_left hkb, List.getElem?_eq_getElem hkb]
      rw [e, hl, List.drop_eq_getElem_cons hkb]
      rfl
  have e : arange a.length (a.length + b.length) =
      List.range' (a.length + 0) (b.length - 0) := by
    simp only [arange, Nat.add_sub_cancel_left, Nat.add_zero, Nat.sub_zero]
    rw [List.range'_eq_map_range]
  rw [e]
  exact h 0 (Nat.zero_le _) _ rfl

/-- The unpacked correlation matrix. -/
theorem phi_unpack (m : ℕ) (v : ℕ × ℕ → ℝ) :
    ∃ Phi, (do
      let Phi ← assign2 (fun i j => if i = j then 1 else 0) (trilIndices m (-1) true)
        ((trilIndices m (-1) true).map v)
      assign2 Phi ((trilIndices m (-1) true).map Prod.swap) ((trilIndices m (-1) true).map v)) =
        some Phi ∧ ∀ i j, i < m → j < m → Phi i j =
          if j < i then v (i, j) else if i < j then v (j, i) else 1 := by
  have e2 : (trilIndices m (-1) true).map v =
      ((trilIndices m (-1) true).map Prod.swap).map fun q => v q.swap := by
    simp only [List.map_map, Function.comp_def, Prod.swap_swap]
  refine ⟨scatter2 (scatter2 (fun i j => if i = j then 1 else 0) (trilIndices m (-1) true)
    ((trilIndices m (-1) true).map v)) ((trilIndices m (-1) true).map Prod.swap)
      ((trilIndices m (-1) true).map v), ?_, ?_⟩
  · simp only [assign2, List.length_map, if_true, Option.bind_eq_bind, Option.bind_some]
  · intro i j hi hj
    conv_lhs => arg 3; rw [e2]
    rw [scatter2_map, scatter2_map]
    have hm : (i, j) ∈ (trilIndices m (-1) true).map Prod.swap ↔ i < j := by
      rw [List.mem_map]
      constructor
      · rintro ⟨⟨a, b⟩, h, e⟩
        rw [mem_tril1] at h
        simp only [Prod.swap_prod_mk, Prod.mk.injEq] at e
        omega
      · intro h
        exact ⟨(j, i), mem_tril1.2 ⟨h, hj⟩, rfl⟩
    have hm2 : (i, j) ∈ trilIndices m (-1) true ↔ j < i := by
      rw [mem_tril1]; omega
    simp only [hm, hm2, Prod.swap_prod_mk]
    rcases lt_trichotomy i j with h | h | h
    · simp [h, h.not_gt]
    · simp [h]
    · simp [h, h.not_gt]

/-- `unpack` on a vector given in three parts. -/
theorem unpack_parts (p m : ℕ) (a psi : List ℝ) (v : ℕ × ℕ → ℝ) (ha : a.length = p * m)
    (hp : psi.length = p) :
    ∃ L Phi, unpack (layout p m) (a ++ (trilIndices m (-1) true).map v ++ psi) =
      some (L, Phi, psi) ∧ invec a p m = some L ∧
      ∀ i j, i < m → j < m → Phi i j = if j < i then v (i, j) else if i < j then v (j, i) else 1 := by
  obtain ⟨Phi, hPhi, hv⟩ := phi_unpack m v
  set s := (trilIndices m (-1) true).map v with hs
  have hsl : s.length = m * (m - 1) / 2 := by rw [hs, List.length_map, length_tril1]
  have t1 : take1 (a ++ s ++ psi) (arange 0 (p * m)) = some a := by
    have := take1_mid [] a (s ++ psi)
    simpa [ha] using this
  have t2 : take1 (a ++ s ++ psi) (arange (p * m) (p * m + m * (m - 1) / 2)) = some s := by
    have := take1_mid a s psi
    rwa [ha, hsl] at this
  have t3 : take1 (a ++ s ++ psi) (arange (p * m + m * (m - 1) / 2)
      (p * m + m * (m - 1) / 2 + p)) = some psi := by
    have := take1_mid (a ++ s) psi []
    rwa [List.length_append, ha, hsl, hp, List.append_nil] at this
  refine ⟨reshapeF 0 a p, Phi, ?_, by simp [invec, ha], hv⟩
  simp only [unpack, layout, t1, t2, t3, Option.bind_eq_bind, Option.bind_some]
  have hi : invec a p m = some (reshapeF 0 a p) := by simp [invec, ha]
  rw [hi, Option.bind_some]
  simp only [Option.bind_eq_bind] at hPhi
  rw [← Option.bind_assoc, hPhi, Option.bind_some]

/-- C40: `unpack` then `pack` is the identity on parameter vectors, and the unpacked factor
correlation matrix is symmetric with unit diagonal. -/
theorem C40_unpack_pack (p m : ℕ) (theta : List ℝ) (h : theta.length = (layout p m).nt) :
    ∃ L Phi psi, unpack (layout p m) theta = some (L, Phi, psi) ∧ psi.length = p ∧
      Symm m Phi ∧ UnitDiag m Phi ∧
      pack (layout p m) L Phi (.diag psi) = some (theta.map some) := by
  simp only [layout] at h
  obtain ⟨v, hv⟩ := exists_vals m ((theta.drop (p * m)).take (m * (m - 1) / 2)) (by
    rw [List.length_take, List.length_drop]; omega)
  have hsplit : theta = theta.take (p * m) ++ (trilIndices m (-1) true).map v ++
      theta.drop (p * m + m * (m - 1) / 2) := by
    rw [← hv, List.append_assoc, ← List.drop_drop]
    rw [List.take_append_drop, List.take_append_drop]
  have ha : (theta.take (p * m)).length = p * m := by rw [List.length_take]; omega
  have hp : (theta.drop (p * m + m * (m - 1) / 2)).length = p := by rw [List.length_drop]; omega
  obtain ⟨L, Phi, h1, h2, h3⟩ := unpack_parts p m _ _ v ha hp
  rw [← hsplit] at h1
  refine ⟨L, Phi, _, h1, hp, ?_, ?_, ?_⟩
  · intro i j hi hj
    rw [h3 i j hi hj, h3 j i hj hi]
    rcases lt_trichotomy i j with h | h | h
    · simp [h, h.not_gt]
    · simp [h]
    · simp [h, h.not_gt]
  · intro i hi
    rw [h3 i i hi hi]; simp
  · rw [C40_pack _ _ _ _ _ hp]
    obtain ⟨Y, y1, y2⟩ := (C11_vec_invec (theta.take (p * m)) p m).1 ha
    rw [h2] at y1
    obtain rfl := Option.some.inj y1
    have e : (trilIndices m (-1) true).map (fun ij => Phi ij.1 ij.2) =
        (trilIndices m (-1) true).map v := by
      apply List.map_congr_left
      rintro ⟨i, j⟩ hij
      rw [mem_tril1] at hij
      rw [h3 i j hij.2 (hij.1.trans hij.2), if_pos hij.1]
    rw [y2, e, ← hsplit]

/-- C40: `pack` then `unpack` returns the same loadings, factor correlations and
uniquenesses. -/
theorem C40_pack_unpack (p m : ℕ) (L Phi : ℕ → ℕ → ℝ) (psi : List ℝ) (hp : psi.length = p)
    (hs : Symm m Phi) (hd : UnitDiag m Phi) :
    ∃ theta, pack (layout p m) L Phi (.diag psi) = some (theta.map some) ∧
      theta.length = (layout p m).nt ∧
      ∃ L' Phi', unpack (layout p m) theta = some (L', Phi', psi) ∧ Agree p m L' L ∧
        Agree m m Phi' Phi := by
  refine ⟨_, C40_pack p m L Phi psi hp, ?_, ?_⟩
  · simp only [List.length_append, length_vec', List.length_map, length_tril1, hp, layout]
  obtain ⟨L', Phi', h1, h2, h3⟩ := unpack_parts p m (vec L p m) psi (fun ij => Phi ij.1 ij.2)
    (length_vec' L p m) hp
  refine ⟨L', Phi', h1, ?_, ?_⟩
  · intro i j hi hj
    simp only [invec, length_vec', if_true, Option.some.injEq] at h2
    rw [← h2]
    simp only [reshapeF, List.getD]
    have := C01_vec_element L p m i j hi hj
    simp only [vecIndsForwards] at this
    rw [this]; rfl
  · intro i j hi hj
    rw [h3 i j hi hj]
    rcases lt_trichotomy i j with h | h | h
    · rw [if_neg h.not_gt, if_pos h]; exact hs j i hj hi
    · subst h; simp [hd i hi]
    · rw [if_pos h]

/-- The hypotheses are met. -/
example : Symm 2 (fun i j => if i = j then (1 : ℝ) else 1 / 2) ∧
    UnitDiag 2 (fun i j => if i = j then (1 : ℝ) else 1 / 2) := by
  constructor
  · intro i j _ _; simp only [eq_comm]
  · intro i _; simp

end Verif.Fa
