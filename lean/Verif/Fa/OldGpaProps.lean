import Verif.Fa.OldRotationProps
import Verif.Fa.GpaProps

/-! C185: the gradient projection of pyfa/rotation.py. -/

namespace Verif.Fa.Old

open Matrix

variable {p m : ℕ}

/-! ## The inner loop -/

/-- A step passes the test of the inner loop. -/
def Pass (tr : Mat m m → Tr p m) (T Gp : Mat m m) (ft s a : ℝ) : Prop := (tr (T - a • Gp)).ft < ft - 0.5 * s ^ 2 * a

/-- C185: the inner loop tries `alpha`, `alpha / 2`, … and takes the first step that passes; when none passes it takes the
last one. -/
theorem C185_search (tr : Mat m m → Tr p m) (T Gp : Mat m m) (ft s : ℝ) (n : ℕ) (alpha : ℝ) :
    (∃ j ≤ n, search tr T Gp ft s n alpha = (tr (T - (alpha / 2 ^ j) • Gp), alpha / 2 ^ j) ∧ Pass tr T Gp ft s (alpha / 2 ^ j) ∧
      ∀ i < j, ¬Pass tr T Gp ft s (alpha / 2 ^ i)) ∨
    ((∀ j ≤ n, ¬Pass tr T Gp ft s (alpha / 2 ^ j)) ∧
      search tr T Gp ft s n alpha = (tr (T - (alpha / 2 ^ n) • Gp), alpha / 2 ^ (n + 1))) := by
  induction n generalizing alpha with
  | zero =>
    by_cases h : Pass tr T Gp ft s alpha
    · refine Or.inl ⟨0, le_refl _, ?_, by simpa using h, by simp⟩
      rw [search]; unfold Pass at h; rw [if_pos h]; simp
    · refine Or.inr ⟨fun j hj => ?_, ?_⟩
      · obtain rfl : j = 0 := by omega
        simpa using h
      · rw [search]; unfold Pass at h; rw [if_neg h]
        norm_num
        ring
  | succ n ih =>
    have hdiv : ∀ j : ℕ, alpha * 0.5 / 2 ^ j = alpha / 2 ^ (j + 1) := fun j => by
      rw [pow_succ]; norm_num; ring
    by_cases h : Pass tr T Gp ft s alpha
    · refine Or.inl ⟨0, by omega, ?_, by simpa using h, by simp⟩
      rw [search]; unfold Pass at h; rw [if_pos h]; simp
    · have e : search tr T Gp ft s (n + 1) alpha = search tr T Gp ft s n (alpha * 0.5) := by
        rw [search]; unfold Pass at h; rw [if_neg h]
      rw [e]
      rcases ih (alpha * 0.5) with ⟨j, hj, h1, h2, h3⟩ | ⟨h1, h2⟩
      · refine Or.inl ⟨j + 1, by omega, by rw [h1, hdiv], by rw [← hdiv]; exact h2, fun i hi => ?_⟩
        cases i with
        | zero => simpa using h
        | succ i => rw [← hdiv]; exact h3 i (by omega)
      · refine Or.inr ⟨fun i hi => ?_, by rw [h2, hdiv, hdiv]⟩
        cases i with
        | zero => simpa using h
        | succ i => rw [← hdiv]; exact h1 i (by omega)

/-- C185: the value after the inner loop is smaller when one of the steps passes. -/
theorem C185_descent_partial (tr : Mat m m → Tr p m) (T Gp : Mat m m) (ft s : ℝ) (n : ℕ) (alpha : ℝ) (ha : 0 < alpha) (hs : 0 < s)
    (h : ∃ j ≤ n, Pass tr T Gp ft s (alpha / 2 ^ j)) :
    (search tr T Gp ft s n alpha).1.ft < ft - 0.5 * s ^ 2 * (search tr T Gp ft s n alpha).2 ∧
      (search tr T Gp ft s n alpha).1.ft < ft := by
  rcases C185_search tr T Gp ft s n alpha with ⟨j, _, h1, h2, _⟩ | ⟨h1, _⟩
  · rw [h1]
    refine ⟨h2, lt_trans h2 ?_⟩
    have : 0 < 0.5 * s ^ 2 * (alpha / 2 ^ j) := by positivity
    linarith
  · obtain ⟨j, hj, hp⟩ := h
    exact absurd hp (h1 j hj)

theorem search_is (tr : Mat m m → Tr p m) (T Gp : Mat m m) (ft s : ℝ) (n : ℕ) (alpha : ℝ) :
    ∃ j, (search tr T Gp ft s n alpha).1 = tr (T - (alpha / 2 ^ j) • Gp) := by
  rcases C185_search tr T Gp ft s n alpha with ⟨j, _, h1, _⟩ | ⟨_, h1⟩
  · exact ⟨j, by rw [h1]⟩
  · exact ⟨n, by rw [h1]⟩

/-! ## Orthogonal rotations -/

/-- The projected gradient of the orthogonal loop. -/
noncomputable def orthoGp (st : St p m) : Mat m m := st.G - st.T * ((1 / 2.0 : ℝ) • (st.Tᵀ * st.G + (st.Tᵀ * st.G)ᵀ))

/-- What the orthogonal loop keeps: an orthogonal matrix, and the value and gradients at it. -/
structure OrthoInv (vgq : Mat p m → ℝ × Mat p m) (A : Mat p m) (st : St p m) : Prop where
  orth : st.Tᵀ * st.T = 1
  ft : st.ft = (vgq (A * st.T)).1
  gq : st.Gq = (vgq (A * st.T)).2
  g : st.G = Aᵀ * st.Gq

theorem tryOrtho_orth (svd : Svd m) (hs : SvdOk svd) (vgq : Mat p m → ℝ × Mat p m) (A : Mat p m) (X : Mat m m) :
    (tryOrtho svd vgq A X).Tᵀ * (tryOrtho svd vgq A X).T = 1 := by
  simp only [tryOrtho, transpose_mul]
  rw [Matrix.mul_assoc, ← Matrix.mul_assoc _ (svd X).1, hs.u, Matrix.one_mul]
  exact mul_eq_one_comm.1 (hs.v X)

theorem orthoLoop_spec (svd : Svd m) (hs : SvdOk svd) (vgq : Mat p m → ℝ × Mat p m) (A : Mat p m) (tol : ℝ) (n : ℕ) (st : St p m)
    (h : OrthoInv vgq A st) :
    OrthoInv vgq A (orthoLoop svd vgq A tol n st) ∧ (orthoLoop svd vgq A tol n st).hist.length ≤ st.hist.length + n ∧
      ((orthoLoop svd vgq A tol n st).hist.length = st.hist.length + n ∨ froNorm (orthoGp (orthoLoop svd vgq A tol n st)) < tol) := by
  induction n generalizing st with
  | zero => exact ⟨h, le_refl _, Or.inl rfl⟩
  | succ n ih =>
    rw [orthoLoop]
    simp only
    split
    · rename_i hlt
      refine ⟨⟨h.orth, h.ft, h.gq, h.g⟩, by simp, Or.inr hlt⟩
    · set r := search (tryOrtho svd vgq A) st.T (st.G - st.T * ((1 / 2.0 : ℝ) • (st.Tᵀ * st.G + (st.Tᵀ * st.G)ᵀ))) st.ft
        (froNorm (st.G - st.T * ((1 / 2.0 : ℝ) • (st.Tᵀ * st.G + (st.Tᵀ * st.G)ᵀ)))) 9 (2.0 * st.alpha) with hr
      obtain ⟨j, hj⟩ := search_is (tryOrtho svd vgq A) st.T (st.G - st.T * ((1 / 2.0 : ℝ) • (st.Tᵀ * st.G + (st.Tᵀ * st.G)ᵀ))) st.ft
        (froNorm (st.G - st.T * ((1 / 2.0 : ℝ) • (st.Tᵀ * st.G + (st.Tᵀ * st.G)ᵀ)))) 9 (2.0 * st.alpha)
      rw [← hr] at hj
      have hi := ih { T := r.1.T, ft := r.1.ft, G := Aᵀ * r.1.Gq, Gq := r.1.Gq, alpha := st.alpha, hist := st.hist ++ [(st.ft, froNorm (st.G - st.T * ((1 / 2.0 : ℝ) • (st.Tᵀ * st.G + (st.Tᵀ * st.G)ᵀ))))] } ?_
      · obtain ⟨a, b, c⟩ := hi
        refine ⟨a, ?_, ?_⟩
        · simp only [List.length_append, List.length_singleton] at b; omega
        · refine c.imp (fun c => ?_) id
          simp only [List.length_append, List.length_singleton] at c; omega
      · rw [hj]
        exact ⟨tryOrtho_orth svd hs vgq A _, rfl, rfl, rfl⟩

/-- C185: an orthogonal rotation ends with an orthogonal matrix, whichever singular value decomposition is used, and with
the value and the gradients at this matrix; it makes at most `n_iters` iterations, and fewer only when the projected
gradient is below `tol`. -/
theorem C185_ortho (svd : Svd m) (hs : SvdOk svd) (vgq : Mat p m → ℝ × Mat p m) (A : Mat p m) (T : Option (Mat m m))
    (hT : ∀ T0, T = some T0 → T0ᵀ * T0 = 1) (alpha tol : ℝ) (n : ℕ) :
    OrthoInv vgq A (rotateOrtho svd vgq A T alpha tol n) ∧ (rotateOrtho svd vgq A T alpha tol n).hist.length ≤ n ∧
      ((rotateOrtho svd vgq A T alpha tol n).hist.length = n ∨ froNorm (orthoGp (rotateOrtho svd vgq A T alpha tol n)) < tol) := by
  have h0 : (T.getD 1)ᵀ * T.getD 1 = 1 := by
    cases T with
    | none => simp
    | some T0 => exact hT T0 rfl
  have := orthoLoop_spec svd hs vgq A tol n ⟨T.getD 1, (vgq (A * T.getD 1)).1, Aᵀ * (vgq (A * T.getD 1)).2, (vgq (A * T.getD 1)).2, alpha, []⟩
    ⟨h0, rfl, rfl, rfl⟩
  simpa only [rotateOrtho, List.length_nil, zero_add] using this

/-! ## Oblique rotations -/

/-- The contract of `np.linalg.pinv` used here. -/
def PinvOk (pinv : Mat m m → Mat m m) : Prop := ∀ X, IsUnit X.det → pinv X = X⁻¹

/-- The projected gradient of the oblique loop. -/
noncomputable def obliGp (st : St p m) : Mat m m := st.G - st.T * diagonal fun j => ∑ i, st.T i j * st.G i j

/-- What the oblique loop keeps: columns of length one, and the value and the gradient at the matrix. -/
structure ObliInv (pinv : Mat m m → Mat m m) (vgq : Mat p m → ℝ × Mat p m) (A : Mat p m) (st : St p m) : Prop where
  unit : ∀ j, ∑ i, st.T i j * st.T i j = 1
  ft : st.ft = (vgq (A * (pinv st.T)ᵀ)).1
  g : st.G = -((A * (pinv st.T)ᵀ)ᵀ * (vgq (A * (pinv st.T)ᵀ)).2 * pinv st.T)ᵀ

theorem tryObli_T (pinv : Mat m m → Mat m m) (vgq : Mat p m → ℝ × Mat p m) (A : Mat p m) (X : Mat m m) :
    (tryObli pinv vgq A X).T = oblRetract X := by
  ext i j
  simp only [tryObli, mul_diagonal, oblRetract, of_apply, sq]
  ring

theorem tryObli_unit (pinv : Mat m m → Mat m m) (vgq : Mat p m → ℝ × Mat p m) (A : Mat p m) (T G : Mat m m)
    (hT : ∀ j, ∑ i, T i j * T i j = 1) (a : ℝ) (j : Fin m) :
    ∑ i, (tryObli pinv vgq A (T - a • oblProject T G)).T i j * (tryObli pinv vgq A (T - a • oblProject T G)).T i j = 1 := by
  rw [tryObli_T]
  refine (C84_oblique_retract _ fun j => ?_).1 j
  by_contra hz
  push Not at hz
  have := C84_oblique_step T G hT a j
  rw [Finset.sum_eq_zero fun i _ => by rw [hz i, zero_mul]] at this
  linarith

theorem obliLoop_spec (pinv : Mat m m → Mat m m) (vgq : Mat p m → ℝ × Mat p m) (A : Mat p m) (tol : ℝ) (ftol : Option ℝ) (n : ℕ)
    (st : St p m) (h : ObliInv pinv vgq A st) :
    ObliInv pinv vgq A (obliLoop pinv vgq A tol ftol n st) ∧
      (obliLoop pinv vgq A tol ftol n st).hist.length ≤ st.hist.length + n ∧
      (ftol = none → (st.Gq = (vgq (A * (pinv st.T)ᵀ)).2 →
        (obliLoop pinv vgq A tol ftol n st).Gq = (vgq (A * (pinv (obliLoop pinv vgq A tol ftol n st).T)ᵀ)).2) ∧
        ((obliLoop pinv vgq A tol ftol n st).hist.length = st.hist.length + n ∨
          froNorm (obliGp (obliLoop pinv vgq A tol ftol n st)) < tol)) := by
  induction n generalizing st with
  | zero => exact ⟨h, le_refl _, fun _ => ⟨id, Or.inl rfl⟩⟩
  | succ n ih =>
    rw [obliLoop]
    simp only
    split
    · rename_i hlt
      exact ⟨⟨h.unit, h.ft, h.g⟩, by simp, fun _ => ⟨id, Or.inr hlt⟩⟩
    · set Gp := st.G - st.T * diagonal fun j => ∑ i, st.T i j * st.G i j with hGp
      set r := search (tryObli pinv vgq A) st.T Gp st.ft (froNorm Gp) 9 (2.0 * st.alpha) with hr
      obtain ⟨j, hj⟩ := search_is (tryObli pinv vgq A) st.T Gp st.ft (froNorm Gp) 9 (2.0 * st.alpha)
      rw [← hr] at hj
      split
      · rename_i he
        refine ⟨⟨h.unit, h.ft, h.g⟩, by simp, fun hn => ?_⟩
        obtain ⟨e, he, _⟩ := he
        rw [hn] at he; cases he
      · have hi := ih { T := r.1.T, ft := r.1.ft, G := -(r.1.Lᵀ * r.1.Gq * r.1.Tinv)ᵀ, Gq := r.1.Gq, alpha := r.2, hist := st.hist ++ [(st.ft, froNorm Gp)] } ?_
        · obtain ⟨a, b, c⟩ := hi
          refine ⟨a, ?_, fun hn => ?_⟩
          · simp only [List.length_append, List.length_singleton] at b; omega
          · obtain ⟨c1, c2⟩ := c hn
            refine ⟨fun _ => c1 ?_, c2.imp (fun c => ?_) id⟩
            · rw [hj]; rfl
            · simp only [List.length_append, List.length_singleton] at c; omega
        · rw [hj]
          exact ⟨fun j' => tryObli_unit pinv vgq A st.T st.G h.unit _ j', rfl, rfl⟩

/-- C185: an oblique rotation ends with columns of length one and with the value and the gradient at this matrix; the
function makes fewer than `n_iters` iterations only when the projected gradient is below `tol`, and its `Gq` is the one at
the matrix it ends with. -/
theorem C185_oblique_partial (pinv : Mat m m → Mat m m) (hp : PinvOk pinv) (vgq : Mat p m → ℝ × Mat p m) (A : Mat p m)
    (T : Option (Mat m m)) (hT : ∀ T0, T = some T0 → (∀ j, ∑ i, T0 i j * T0 i j = 1) ∧ IsUnit T0.det) (alpha tol : ℝ)
    (ftol : Option ℝ) (n : ℕ) : ∃ st, rotateObli pinv vgq A T alpha tol ftol n = some st ∧ ObliInv pinv vgq A st ∧ st.hist.length ≤ n ∧
      (ftol = none → st.Gq = (vgq (A * (pinv st.T)ᵀ)).2 ∧ (st.hist.length = n ∨ froNorm (obliGp st) < tol)) := by
  have h0 : (∀ j, ∑ i, (T.getD 1) i j * (T.getD 1) i j = 1) ∧ IsUnit (T.getD 1).det := by
    cases T with
    | none => simp [Matrix.one_apply]
    | some T0 => exact hT T0 rfl
  set T0 := T.getD 1 with hT0
  have hpi := hp T0 h0.2
  refine ⟨_, by rw [rotateObli]; simp only [← hT0]; rw [inv?_unit h0.2]; rfl, ?_⟩
  have := obliLoop_spec pinv vgq A tol ftol n ⟨T0, (vgq (A * T0⁻¹ᵀ)).1, -((A * T0⁻¹ᵀ)ᵀ * (vgq (A * T0⁻¹ᵀ)).2 * T0⁻¹)ᵀ, (vgq (A * T0⁻¹ᵀ)).2, alpha, []⟩
    ⟨h0.1, by rw [hpi], by rw [hpi]⟩
  simp only [List.length_nil, zero_add, hpi, forall_const] at this
  exact this

/-! ## `rotate` -/

/-- C185: the loadings and the matrix returned by `rotate` reproduce the covariance of the common factors: an orthogonal
rotation has `T' T = 1` and `L = A T`, an oblique one `L T = A` with `T T'` a correlation matrix, so that
`L (T T') L' = A A'`. -/
theorem C185_rotate (svd : Svd m) (hs : SvdOk svd) (pinv : Mat m m → Mat m m) (hp : PinvOk pinv) (A : Mat p m)
    (criterion method type : String) (T : Option (Mat m m))
    (hT : ∀ T0, T = some T0 → T0ᵀ * T0 = 1) (tol alpha : ℝ) (n : ℕ) (custom : Option ℝ) (L : Mat p m) (R : Mat m m)
    (h : rotateF svd pinv A criterion method type T tol alpha n custom = some (L, R)) :
    (type = "orthogonal" ∧ Rᵀ * R = 1 ∧ L = A * R ∧ L * Lᵀ = A * Aᵀ) ∨
    (type = "oblique" ∧ L * R = A ∧ (∀ i, (R * Rᵀ) i i = 1) ∧ L * (R * Rᵀ) * Lᵀ = A * Aᵀ) := by
  have hTu : ∀ T0, T = some T0 → (∀ j, ∑ i, T0 i j * T0 i j = 1) ∧ IsUnit T0.det := fun T0 h0 => by
    have h1 := hT T0 h0
    refine ⟨fun j => ?_, ?_⟩
    · have := congrFun (congrFun h1 j) j
      simpa [Matrix.mul_apply] using this
    · exact (Matrix.isUnit_iff_isUnit_det _).1 (IsUnit.of_mul_eq_one_right _ h1)
  obtain ⟨vgq, h⟩ : ∃ vgq : Mat p m → ℝ × Mat p m, (if type = "orthogonal" then
      some (A * (rotateOrtho svd vgq A T alpha tol n).T, (rotateOrtho svd vgq A T alpha tol n).T)
    else if type = "oblique" then
      (rotateObli pinv vgq A T alpha tol none n).bind fun st => (inv? st.Tᵀ).bind fun Ti => some (A * Ti, st.Tᵀ)
    else none) = some (L, R) := by
    simp only [rotateF, Option.bind_eq_bind] at h
    by_cases h1 : method = "oblimin"
    · rw [if_pos h1] at h; exact ⟨_, h⟩
    · rw [if_neg h1] at h
      by_cases h2 : method = "cf"
      · rw [if_pos h2] at h; exact ⟨_, h⟩
      · rw [if_neg h2] at h; cases h
  split at h
  · rename_i ht
    left
    have hi := (C185_ortho svd hs vgq A T hT alpha tol n).1.orth
    simp only [Option.some.injEq, Prod.mk.injEq] at h
    obtain ⟨rfl, rfl⟩ := h
    refine ⟨ht, hi, rfl, ?_⟩
    rw [transpose_mul, Matrix.mul_assoc, ← Matrix.mul_assoc _ _ Aᵀ, mul_eq_one_comm.1 hi, Matrix.one_mul]
  · split at h
    · rename_i ht
      right
      obtain ⟨st, hst, hi, _⟩ := C185_oblique_partial pinv hp vgq A T hTu alpha tol none n
      rw [hst] at h
      simp only [Option.bind_some, Option.bind_eq_some_iff, Option.some.injEq, Prod.mk.injEq] at h
      obtain ⟨Ti, hTi, rfl, rfl⟩ := h
      obtain ⟨hu, rfl⟩ := inv?_eq hTi
      have hL : A * st.Tᵀ⁻¹ * st.Tᵀ = A := by
        rw [Matrix.mul_assoc, Matrix.nonsing_inv_mul _ hu, Matrix.mul_one]
      refine ⟨ht, hL, fun i => ?_, ?_⟩
      · rw [Matrix.mul_apply]; exact hi.unit i
      · rw [← Matrix.mul_assoc, hL, Matrix.mul_assoc, ← transpose_mul, hL]
    · cases h

/-! ## Steps that increase the criterion -/

/-- The orthogonal factor of a multiple of an orthogonal matrix is this matrix. -/
theorem polar_of_orth (svd : Svd m) (hs : SvdOk svd) (R : Mat m m) (hR : R * Rᵀ = 1) (c : ℝ) (hc : 0 < c) :
    (svd (c • R)).1 * (svd (c • R)).2.2 = R := by
  set X := c • R with hX
  have hD : diagonal (svd X).2.1 * diagonal (svd X).2.1 = (c * c) • (1 : Mat m m) := by
    have h1 : X * Xᵀ = (c * c) • (1 : Mat m m) := by
      rw [hX, transpose_smul, Matrix.smul_mul, Matrix.mul_smul, hR, smul_smul]
    have h2 : X * Xᵀ = (svd X).1 * (diagonal (svd X).2.1 * diagonal (svd X).2.1) * (svd X).1ᵀ := by
      conv_lhs => rw [← hs.eq X]
      rw [transpose_mul, transpose_mul, diagonal_transpose]
      rw [Matrix.mul_assoc, ← Matrix.mul_assoc (svd X).2.2, hs.v X, Matrix.one_mul]
      simp only [Matrix.mul_assoc]
    have h3 := congrArg (fun Y => (svd X).1ᵀ * Y * (svd X).1) (h2.symm.trans h1)
    rw [← Matrix.mul_assoc, ← Matrix.mul_assoc, hs.u X, Matrix.one_mul, Matrix.mul_assoc, hs.u X, Matrix.mul_one, Matrix.mul_smul,
      Matrix.mul_one, Matrix.smul_mul, hs.u X] at h3
    exact h3
  have hd : ∀ i, (svd X).2.1 i = c := fun i => by
    have := congrFun (congrFun hD i) i
    rw [diagonal_mul_diagonal, diagonal_apply_eq, Matrix.smul_apply, Matrix.one_apply_eq, smul_eq_mul, mul_one] at this
    have h0 := hs.nonneg X i
    nlinarith [mul_self_eq_mul_self_iff.1 this |>.resolve_right (by intro h; linarith)]
  have hdd : diagonal (svd X).2.1 = c • (1 : Mat m m) := by
    ext i j
    by_cases e : i = j
    · subst e; simp [hd]
    · simp [e]
  have he := hs.eq X
  rw [hdd, Matrix.mul_smul, Matrix.mul_one, Matrix.smul_mul] at he
  exact smul_right_injective _ hc.ne' (he.trans hX)

/-- The loadings of the example: one variable and two factors. -/
noncomputable def exA : Mat 1 2 := !![8, 4]

/-- A plane rotation with tangent `b`. -/
noncomputable def rotB (b : ℝ) : Mat 2 2 := (1 / √(1 + b ^ 2)) • !![1, -b; b, 1]

theorem rotB_orth (b : ℝ) : rotB b * (rotB b)ᵀ = 1 := by
  have h : (0 : ℝ) < 1 + b ^ 2 := by positivity
  have hs : (1 / √(1 + b ^ 2)) * (1 / √(1 + b ^ 2)) = 1 / (1 + b ^ 2) := by
    rw [div_mul_div_comm, Real.mul_self_sqrt h.le, one_mul]
  rw [rotB, transpose_smul, Matrix.smul_mul, Matrix.mul_smul, smul_smul, hs]
  have e : (!![1, -b; b, 1] * !![1, -b; b, 1]ᵀ : Mat 2 2) = (1 + b ^ 2) • 1 := by
    ext i j
    rw [Matrix.mul_apply, Fin.sum_univ_two]
    fin_cases i <;> fin_cases j <;> simp <;> ring
  rw [e, smul_smul, one_div_mul_cancel h.ne', one_smul]

theorem ex_step (svd : Svd 2) (hs : SvdOk svd) (a : ℝ) (vgq : Mat 1 2 → ℝ × Mat 1 2) :
    tryOrtho svd vgq exA (1 - a • !![0, 768; -768, 0]) =
      ⟨rotB (a * 768), exA * rotB (a * 768), (vgq (exA * rotB (a * 768))).1, (vgq (exA * rotB (a * 768))).2, 0⟩ := by
  have h : (0 : ℝ) < √(1 + (a * 768) ^ 2) := by positivity
  have e : (1 - a • !![0, 768; -768, 0] : Mat 2 2) = √(1 + (a * 768) ^ 2) • rotB (a * 768) := by
    rw [rotB, smul_smul, mul_one_div_cancel h.ne', one_smul]
    ext i j
    fin_cases i <;> fin_cases j <;> simp
  have := polar_of_orth svd hs (rotB (a * 768)) (rotB_orth _) _ h
  rw [e]
  simp only [tryOrtho]
  rw [this]

theorem one_two_value (L : Mat 1 2) : (vgqCf L 0).1 = (L 0 0 * L 0 1) ^ 2 / 2 := by
  have e : (4.0 : ℝ) = 4 := by norm_num
  simp only [vgqCf, e]
  simp [trace, Matrix.mul_apply, Fin.sum_univ_two, sqM, ones, Matrix.one_apply]
  ring

theorem ex_value (b : ℝ) : (vgqCf (exA * rotB b) 0).1 = 128 * ((2 + b) * (1 - 2 * b)) ^ 2 / (1 + b ^ 2) ^ 2 := by
  have h : (0 : ℝ) < 1 + b ^ 2 := by positivity
  have hs : (1 / √(1 + b ^ 2)) ^ 2 = 1 / (1 + b ^ 2) := by
    rw [div_pow, Real.sq_sqrt h.le, one_pow]
  generalize hr : 1 / √(1 + b ^ 2) = r at hs
  have h0 : (exA * rotB b : Mat 1 2) 0 0 = r * (8 + 4 * b) := by
    simp only [exA, rotB, hr, Matrix.mul_apply, Fin.sum_univ_two, Matrix.smul_apply, smul_eq_mul]; simp; ring
  have h1 : (exA * rotB b : Mat 1 2) 0 1 = r * (4 - 8 * b) := by
    simp only [exA, rotB, hr, Matrix.mul_apply, Fin.sum_univ_two, Matrix.smul_apply, smul_eq_mul]; simp; ring
  rw [one_two_value, h0, h1]
  have : (r * (8 + 4 * b) * (r * (4 - 8 * b))) ^ 2 / 2 = (r ^ 2) ^ 2 * (128 * ((2 + b) * (1 - 2 * b)) ^ 2) := by ring
  rw [this, hs, div_pow, one_pow, one_div, div_eq_inv_mul]

/-- C185: a step that passes no test is taken all the same: with the quartimax criterion and the loadings `(8, 4)` the first
iteration goes from `512` to `800`. -/
theorem C185_descent_violated : ∃ A : Mat 1 2, ∀ svd : Svd 2, SvdOk svd → ∀ tol ≤ 1,
    (vgqCf A 0).1 = 512 ∧ (rotateOrtho svd (fun L => vgqCf L 0) A none 1 tol 1).ft = 800 := by
  refine ⟨exA, fun svd hs tol htol => ?_⟩
  have hv : (vgqCf exA 0).1 = 512 := by
    rw [one_two_value]; norm_num [exA]
  have hG : exAᵀ * (vgqCf exA 0).2 = !![1024, 2048; 512, 1024] := by
    ext i j
    fin_cases i <;> fin_cases j <;>
      norm_num [vgqCf, had, Matrix.mul_apply, Fin.sum_univ_two, sqM, ones, exA, Matrix.one_apply]
  refine ⟨hv, ?_⟩
  simp only [rotateOrtho, Option.getD_none, Matrix.mul_one, orthoLoop, transpose_one, Matrix.one_mul, hG, hv]
  have hGp : (!![1024, 2048; 512, 1024] - (1 / 2.0 : ℝ) • (!![1024, 2048; 512, 1024] + !![1024, 2048; 512, 1024]ᵀ) : Mat 2 2) =
      !![0, 768; -768, 0] := by
    ext i j
    fin_cases i <;> fin_cases j <;> norm_num
  have e21 : (2.0 : ℝ) * 1 = 2 := by norm_num
  rw [hGp, e21]
  have hs2 : froNorm (!![0, 768; -768, 0] : Mat 2 2) ^ 2 = 2 * 768 ^ 2 := by
    rw [sq, froNorm_sq]; norm_num [fro, Fin.sum_univ_two]
  have hs0 : 0 ≤ froNorm (!![0, 768; -768, 0] : Mat 2 2) := Real.sqrt_nonneg _
  rw [if_neg (by nlinarith)]
  have hfail : ∀ j ≤ 9, ¬Pass (tryOrtho svd (fun L => vgqCf L 0) exA) 1 !![0, 768; -768, 0] 512
      (froNorm (!![0, 768; -768, 0] : Mat 2 2)) (2 / 2 ^ j) := fun j hj h => by
    have e5 : (0.5 : ℝ) = 1 / 2 := by norm_num
    rw [Pass, ex_step svd hs, e5] at h
    simp only [ex_value, hs2] at h
    set b : ℝ := 2 / 2 ^ j * 768 with hb
    have hb3 : 3 ≤ b := by
      have : (2 : ℝ) ^ j ≤ 2 ^ 9 := pow_le_pow_right₀ (by norm_num) hj
      rw [hb, div_mul_eq_mul_div, le_div_iff₀ (by positivity)]
      norm_num at this ⊢
      linarith
    have hpos : 0 < 2 / (2 : ℝ) ^ j := by positivity
    have h1 : 128 * ((2 + b) * (1 - 2 * b)) ^ 2 / (1 + b ^ 2) ^ 2 < 512 := by nlinarith
    rw [div_lt_iff₀ (by positivity)] at h1
    have h2 : 2 * (1 + b ^ 2) ≤ (2 + b) * (2 * b - 1) := by nlinarith
    nlinarith [mul_self_le_mul_self (by positivity) h2]
  rcases C185_search (tryOrtho svd (fun L => vgqCf L 0) exA) 1 !![0, 768; -768, 0] 512
      (froNorm (!![0, 768; -768, 0] : Mat 2 2)) 9 (2) with ⟨j, hj, _, hp, _⟩ | ⟨_, h⟩
  · exact absurd hp (hfail j hj)
  · rw [h, ex_step svd hs]
    simp only [ex_value]
    norm_num

end Verif.Fa.Old
