import Verif.Transf.UcholProps
import Mathlib.Tactic.FieldSimp
import Mathlib.Tactic.LinearCombination
/-!
# The reported derivatives of the stick-breaking transform (C75)

Derivatives are stated along paths: `PathD m X x'` says that the cells `0, ..., m-1` of the
array path `X` have derivatives `x'` at time 0.
-/
namespace Verif.Transf
open Verif.Vec Verif.Index Verif.Lin Real

variable {n m : ℕ}

/-- Derivative at `0` of a path of arrays of length `m`. -/
def PathD (m : ℕ) (X : ℝ → ℤ → ℝ) (x' : ℤ → ℝ) : Prop :=
  ∀ k : ℤ, 0 ≤ k → k < m → HasDerivAt (fun t => X t k) (x' k) 0

/-- `g · v` over the cells. -/
def dot (m : ℕ) (g v : ℤ → ℝ) : ℝ := ∑ q ∈ Finset.range m, g q * v q

theorem dot_single {k : ℤ} (h0 : 0 ≤ k) (h1 : k < m) (a : ℝ) (v : ℤ → ℝ) :
    dot m (fun q => if q = k then a else 0) v = a * v k := by
  unfold dot
  rw [Finset.sum_eq_single k.toNat]
  · simp only [Int.toNat_of_nonneg h0, if_true]
  · intro b _ hb
    simp only [if_neg (show ¬ (b : ℤ) = k by omega), zero_mul]
  · intro h; exact absurd (Finset.mem_range.2 (by omega)) h

theorem dot_aff {k : ℤ} (h0 : 0 ≤ k) (h1 : k < m) {h g : ℤ → ℝ} (a b : ℝ) (v : ℤ → ℝ)
    (e : ∀ q, h q = a * g q + if q = k then b else 0) : dot m h v = a * dot m g v + b * v k := by
  rw [← dot_single h0 h1 b v]
  unfold dot
  rw [Finset.mul_sum, ← Finset.sum_add_distrib]
  exact Finset.sum_congr rfl fun q _ => by rw [e]; ring

theorem dot_lin {h g f : ℤ → ℝ} (a b : ℝ) (v : ℤ → ℝ) (e : ∀ q, h q = a * g q + b * f q) :
    dot m h v = a * dot m g v + b * dot m f v := by
  unfold dot
  rw [Finset.mul_sum, Finset.mul_sum, ← Finset.sum_add_distrib]
  exact Finset.sum_congr rfl fun q _ => by rw [e]; ring

theorem dot_lin3 {h g f r : ℤ → ℝ} (a b : ℝ) (v : ℤ → ℝ)
    (e : ∀ q, h q = g q + (2 * (a * f q) + b * r q)) :
    dot m h v = dot m g v + (2 * a * dot m f v + b * dot m r v) := by
  unfold dot
  rw [Finset.mul_sum, Finset.mul_sum, ← Finset.sum_add_distrib, ← Finset.sum_add_distrib]
  exact Finset.sum_congr rfl fun q _ => by rw [e]; ring

theorem dot_aff2 {k : ℤ} (h0 : 0 ≤ k) (h1 : k < m) {h g f : ℤ → ℝ} (a c b : ℝ) (v : ℤ → ℝ)
    (e : ∀ q, h q = a * g q + c * f q + if q = k then b else 0) :
    dot m h v = a * dot m g v + c * dot m f v + b * v k := by
  rw [dot_aff h0 h1 (g := fun q => a * g q + c * f q) 1 b v (fun q => by rw [e]; ring),
    dot_lin a c v (fun q => rfl)]
  ring

theorem rvsJRow_dot {k : ℤ} (h0 : 0 ≤ k) (h1 : k < m) (x : ℤ → ℝ) (st : JSt) (v : ℤ → ℝ) :
    dot m (rvsJRow x st k) v =
      x k * (1 / 2 * (1 / sqrt (1 - st.s)) * -(dot m st.ds v)) + sqrt (1 - st.s) * v k := by
  rw [dot_aff h0 h1 (g := st.ds) (- (x k * (1 / 2 * (1 / sqrt (1 - st.s))))) (sqrt (1 - st.s)) v]
  · ring
  · intro q
    simp only [rvsJRow]
    split_ifs <;> ring

theorem fwdJRow_dot {k : ℤ} (h0 : 0 ≤ k) (h1 : k < m) (y : ℤ → ℝ) (st : JSt) (v : ℤ → ℝ) :
    dot m (fwdJRow y st k) v = - y k * (1 / 2 * (1 / sqrt (1 - st.s)) * -(dot m st.ds v)) /
      sqrt (1 - st.s) ^ 2 + 1 / sqrt (1 - st.s) * v k := by
  rw [dot_aff h0 h1 (g := st.ds) (y k * (1 / 2 * (1 / sqrt (1 - st.s))) / sqrt (1 - st.s) ^ 2)
    (1 / sqrt (1 - st.s)) v]
  · ring
  · intro q
    simp only [fwdJRow]
    split_ifs <;> ring

/-- Derivative of `u = sqrt (1 - s)`. -/
theorem u_deriv {S : ℝ → ℝ} {D : ℝ} (hS : HasDerivAt S D 0) (hp : 0 < 1 - S 0) :
    HasDerivAt (fun t => sqrt (1 - S t)) (1 / 2 * (1 / sqrt (1 - S 0)) * -D) 0 := by
  have := (hS.const_sub 1).sqrt hp.ne'
  refine this.congr_deriv ?_
  have := (sqrt_pos.2 hp).ne'
  field_simp

theorem val_rvs {k : ℤ} (h0 : 0 ≤ k) (h1 : k < m) {X : ℝ → ℤ → ℝ} {x' : ℤ → ℝ} (hX : PathD m X x')
    {S : ℝ → ℝ} {st : JSt} (hs : st.s = S 0) (hS : HasDerivAt S (dot m st.ds x') 0)
    (hp : 0 < 1 - S 0) :
    HasDerivAt (fun t => X t k * sqrt (1 - S t)) (dot m (rvsJRow (X 0) st k) x') 0 := by
  rw [rvsJRow_dot h0 h1, hs]
  refine ((hX k h0 h1).fun_mul (u_deriv hS hp)).congr_deriv ?_
  ring

theorem val_fwd {k : ℤ} (h0 : 0 ≤ k) (h1 : k < m) {X : ℝ → ℤ → ℝ} {x' : ℤ → ℝ} (hX : PathD m X x')
    {S : ℝ → ℝ} {st : JSt} (hs : st.s = S 0) (hS : HasDerivAt S (dot m st.ds x') 0)
    (hp : 0 < 1 - S 0) :
    HasDerivAt (fun t => X t k / sqrt (1 - S t)) (dot m (fwdJRow (X 0) st k) x') 0 := by
  rw [fwdJRow_dot h0 h1, hs]
  have hne := (sqrt_pos.2 hp).ne'
  refine ((hX k h0 h1).fun_div (u_deriv hS hp) hne).congr_deriv ?_
  field_simp
  ring

/-! ## Jacobians -/

/-- States of the Jacobian loops. -/
noncomputable def rvsJAux (m : ℕ) (x : ℤ → ℝ) := aux (jInit x)
  (fun st k => ({ s := st.s + ucRvs m x k ^ 2
                  ds := fun q => st.ds q + 2 * ucRvs m x k * rvsJRow x st k q } : JSt))

noncomputable def fwdJAux (y : ℤ → ℝ) := aux (jInit y)
  (fun st k => ({ s := st.s + y k ^ 2
                  ds := fun q => if q = k then st.ds q + 2 * y k else st.ds q } : JSt))

theorem jacRvs_cell (hm : 2 * m = n * (n - 1)) (x : ℤ → ℝ) {i : ℕ} (h2 : i < n) :
    (0 < i → ucJacRvs m x (pos n i 0) = rowUnit (pos n i 0)) ∧
    ∀ j, j + 1 < i → ucJacRvs m x (pos n i (j + 1)) =
      rvsJRow x (rvsJAux m x (pos n i) j) (pos n i (j + 1)) := by
  refine ⟨fun h => ?_, fun j h => ?_⟩ <;>
  · rw [ucJacRvs, size_eq hm (by omega), triLoop_spec _ _ _ _ _ _ _ _ h h2]; rfl

theorem jacFwd_cell (hm : 2 * m = n * (n - 1)) (x : ℤ → ℝ) {i : ℕ} (h2 : i < n) :
    (0 < i → ucJacFwd m x (pos n i 0) = rowUnit (pos n i 0)) ∧
    ∀ j, j + 1 < i → ucJacFwd m x (pos n i (j + 1)) =
      fwdJRow x (fwdJAux x (pos n i) j) (pos n i (j + 1)) := by
  refine ⟨fun h => ?_, fun j h => ?_⟩ <;>
  · rw [ucJacFwd, size_eq hm (by omega), triLoop_spec _ _ _ _ _ _ _ _ h h2]; rfl

theorem rvsJAux_spec (hm : 2 * m = n * (n - 1)) {X : ℝ → ℤ → ℝ} {x' : ℤ → ℝ} (hX : PathD m X x')
    (hx : InCube m (X 0)) {i : ℕ} (hi : i < n) (j : ℕ) (hj : j < i) :
    (rvsJAux m (X 0) (pos n i) j).s = rvsAux (X 0) (pos n i) j ∧
    HasDerivAt (fun t => rvsAux (X t) (pos n i) j)
      (dot m (rvsJAux m (X 0) (pos n i) j).ds x') 0 := by
  induction j with
  | zero =>
    obtain ⟨r0, r1⟩ := pos_range hm hj hi
    refine ⟨rfl, ?_⟩
    show HasDerivAt (fun t => X t (pos n i 0) ^ 2)
      (dot m (fun q => if q = pos n i 0 then 2 * X 0 (pos n i 0) else 0) x') 0
    rw [dot_single r0 r1]
    refine ((hX _ r0 r1).fun_pow 2).congr_deriv ?_
    simp
  | succ j ih =>
    obtain ⟨hs, hS⟩ := ih (by omega)
    obtain ⟨r0, r1⟩ := pos_range hm hj hi
    have hp := rvs_stick_pos (X 0) (pos n i) j fun l hl => cube_row hm hx (by omega) hi
    have hv := val_rvs r0 r1 hX hs hS hp
    have hy := rvs_succ hm (X 0) hj hi
    refine ⟨?_, ?_⟩
    · show (rvsJAux m (X 0) (pos n i) j).s + ucRvs m (X 0) (pos n i (j + 1)) ^ 2 =
        rvsAux (X 0) (pos n i) j + _
      rw [hs, hy]; rfl
    · show HasDerivAt (fun t => rvsAux (X t) (pos n i) j +
        (X t (pos n i (j + 1)) * sqrt (1 - rvsAux (X t) (pos n i) j)) ^ 2)
        (dot m (fun q => (rvsJAux m (X 0) (pos n i) j).ds q + 2 * ucRvs m (X 0) (pos n i (j + 1)) *
          rvsJRow (X 0) (rvsJAux m (X 0) (pos n i) j) (pos n i (j + 1)) q) x') 0
      rw [dot_lin 1 (2 * ucRvs m (X 0) (pos n i (j + 1))) x'
        (g := (rvsJAux m (X 0) (pos n i) j).ds)
        (f := rvsJRow (X 0) (rvsJAux m (X 0) (pos n i) j) (pos n i (j + 1))) (fun q => by ring)]
      refine (hS.fun_add (hv.fun_pow 2)).congr_deriv ?_
      rw [hy]; simp

theorem fwdJAux_spec (hm : 2 * m = n * (n - 1)) {X : ℝ → ℤ → ℝ} {x' : ℤ → ℝ} (hX : PathD m X x')
    {i : ℕ} (hi : i < n) (j : ℕ) (hj : j < i) :
    (fwdJAux (X 0) (pos n i) j).s = fwdAux (X 0) (pos n i) j ∧
    HasDerivAt (fun t => fwdAux (X t) (pos n i) j)
      (dot m (fwdJAux (X 0) (pos n i) j).ds x') 0 := by
  induction j with
  | zero =>
    obtain ⟨r0, r1⟩ := pos_range hm hj hi
    refine ⟨rfl, ?_⟩
    show HasDerivAt (fun t => X t (pos n i 0) ^ 2)
      (dot m (fun q => if q = pos n i 0 then 2 * X 0 (pos n i 0) else 0) x') 0
    rw [dot_single r0 r1]
    refine ((hX _ r0 r1).fun_pow 2).congr_deriv ?_
    simp
  | succ j ih =>
    obtain ⟨hs, hS⟩ := ih (by omega)
    obtain ⟨r0, r1⟩ := pos_range hm hj hi
    refine ⟨congrArg (· + _) hs, ?_⟩
    show HasDerivAt (fun t => fwdAux (X t) (pos n i) j + X t (pos n i (j + 1)) ^ 2)
        (dot m (fun q => if q = pos n i (j + 1) then (fwdJAux (X 0) (pos n i) j).ds q +
          2 * X 0 (pos n i (j + 1)) else (fwdJAux (X 0) (pos n i) j).ds q) x') 0
    rw [dot_aff r0 r1 (g := (fwdJAux (X 0) (pos n i) j).ds) 1 (2 * X 0 (pos n i (j + 1))) x'
      (fun q => by split_ifs <;> ring)]
    refine (hS.fun_add ((hX _ r0 r1).fun_pow 2)).congr_deriv ?_
    simp

theorem ball_pos {y : ℤ → ℝ} (hy : InBalls n y) {i j : ℕ} (hi : i < n) (hj : j < i) :
    0 < 1 - fwdAux y (pos n i) j := by
  rw [fwdAux_eq]
  have := lt_of_le_of_lt (rowSum_mono y (pos n i) (show j + 1 ≤ i by omega)) (hy i hi)
  linarith

/-- C75: `jac_rvs` is the derivative of `rvs`. -/
theorem C75_jac_rvs (hm : 2 * m = n * (n - 1)) (hn : 1 ≤ n) (X : ℝ → ℤ → ℝ) (x' : ℤ → ℝ)
    (hX : PathD m X x') (hx : InCube m (X 0)) :
    PathD m (fun t => ucRvs m (X t)) (fun k => dot m (ucJacRvs m (X 0) k) x') := by
  intro k h0 h1
  obtain ⟨i, j, hj, hi, rfl⟩ := pos_surj hm hn k h0 h1
  beta_reduce
  cases j with
  | zero =>
    rw [(jacRvs_cell hm (X 0) hi).1 hj]
    simp only [rvs_zero hm _ hj hi]
    rw [show rowUnit (pos n i 0) = fun q => if q = pos n i 0 then 1 else 0 from rfl,
      dot_single h0 h1, one_mul]
    exact hX _ h0 h1
  | succ j =>
    obtain ⟨hs, hS⟩ := rvsJAux_spec hm hX hx hi j (by omega)
    rw [(jacRvs_cell hm (X 0) hi).2 j hj]
    simp only [rvs_succ hm _ hj hi]
    exact val_rvs h0 h1 hX hs hS
      (rvs_stick_pos (X 0) (pos n i) j fun l hl => cube_row hm hx (by omega) hi)

/-- C75: `jac_fwd` is the derivative of `fwd`. -/
theorem C75_jac_fwd (hm : 2 * m = n * (n - 1)) (hn : 1 ≤ n) (X : ℝ → ℤ → ℝ) (x' : ℤ → ℝ)
    (hX : PathD m X x') (hx : InBalls n (X 0)) :
    PathD m (fun t => ucFwd m (X t)) (fun k => dot m (ucJacFwd m (X 0) k) x') := by
  intro k h0 h1
  obtain ⟨i, j, hj, hi, rfl⟩ := pos_surj hm hn k h0 h1
  beta_reduce
  cases j with
  | zero =>
    rw [(jacFwd_cell hm (X 0) hi).1 hj]
    simp only [fwd_zero hm _ hj hi]
    rw [show rowUnit (pos n i 0) = fun q => if q = pos n i 0 then 1 else 0 from rfl,
      dot_single h0 h1, one_mul]
    exact hX _ h0 h1
  | succ j =>
    obtain ⟨hs, hS⟩ := fwdJAux_spec hm hX hi j (by omega)
    rw [(jacFwd_cell hm (X 0) hi).2 j hj]
    simp only [fwd_succ hm _ hj hi]
    exact val_fwd h0 h1 hX hs hS (ball_pos hx hi (by omega))

theorem path_line (x v : ℤ → ℝ) : PathD m (fun t k => x k + t * v k) v := fun k _ _ => by
  simpa using ((hasDerivAt_id (0 : ℝ)).mul_const (v k)).const_add (x k)

/-- C75: at corresponding points the two Jacobians are inverse matrices. -/
theorem C75_jac_inverse (hm : 2 * m = n * (n - 1)) (hn : 1 ≤ n) (x : ℤ → ℝ) (hx : InCube m x)
    (k p : ℕ) (hk : k < m) (hp : p < m) :
    ∑ q ∈ Finset.range m, ucJacFwd m (ucRvs m x) k q * ucJacRvs m x q p =
      if k = p then 1 else 0 := by
  let e : ℤ → ℝ := fun q => if q = p then 1 else 0
  let X : ℝ → ℤ → ℝ := fun t k => x k + t * e k
  have hX : PathD m X e := path_line x e
  have X0 : X 0 = x := by funext k; simp [X]
  have h1 := C75_jac_rvs hm hn X e hX (by rwa [X0])
  have h2 := C75_jac_fwd hm hn (fun t => ucRvs m (X t)) _ h1
    (by show InBalls n (ucRvs m (X 0)); rw [X0]; exact C41_rvs_range hm x hx) k (by omega) (by omega)
  have hev : ∀ᶠ t in nhds (0 : ℝ), InCube m (X t) := by
    have : ∀ᶠ t in nhds (0 : ℝ), ∀ q ∈ Finset.range m, X t q ^ 2 < 1 := by
      rw [Filter.eventually_all_finset]
      intro q hq
      have hq := Finset.mem_range.1 hq
      have hc : ContinuousAt (fun t => X t q ^ 2) 0 := by
        have := (hX q (by omega) (by omega)).continuousAt
        exact this.pow 2
      refine hc.eventually (Iio_mem_nhds ?_)
      show X 0 q ^ 2 < 1
      rw [X0]; exact hx q (by omega) (by omega)
    filter_upwards [this] with t ht
    intro q h0 h1
    have := ht q.toNat (Finset.mem_range.2 (by omega))
    rwa [Int.toNat_of_nonneg h0] at this
  have h3 := h2.congr_of_eventuallyEq (f₁ := fun t => X t k) (by
    filter_upwards [hev] with t ht
    exact (C41_fwd_rvs hm hn (X t) ht k (by omega) (by omega)).symm)
  have h4 := h3.unique (hX k (by omega) (by omega))
  have h5 : ∀ q : ℤ, dot m (ucJacRvs m (X 0) q) e = ucJacRvs m x q p := fun q => by
    rw [X0]
    have : dot m e (ucJacRvs m x q) = 1 * ucJacRvs m x q p := dot_single (by omega) (by omega) _ _
    rw [one_mul] at this
    rw [← this]
    exact Finset.sum_congr rfl fun q _ => mul_comm _ _
  simp only [dot, X0] at h4 h5
  simp only [h5] at h4
  rw [h4]
  simp only [e, Nat.cast_inj]

/-! ## Hessians -/

noncomputable def rvsHAux (m : ℕ) (x : ℤ → ℝ) := aux (hInit x)
  (fun st k => ({ s := st.s + ucRvs m x k ^ 2
                  ds := fun q => st.ds q + 2 * ucRvs m x k *
                    rvsJRow x { s := st.s, ds := st.ds } k q
                  d2s := fun p q => st.d2s p q +
                    (2 * (rvsJRow x { s := st.s, ds := st.ds } k p *
                      rvsJRow x { s := st.s, ds := st.ds } k q) +
                     2 * ucRvs m x k * rvsHRow x st k p q) } : HSt))

noncomputable def fwdHAux (y : ℤ → ℝ) := aux (hInit y)
  (fun st k => ({ s := st.s + y k ^ 2
                  ds := fun q => if q = k then st.ds q + 2 * y k else st.ds q
                  d2s := fun p q => if p = k ∧ q = k then st.d2s p q + 2 else st.d2s p q } : HSt))

theorem hessRvs_cell (hm : 2 * m = n * (n - 1)) (x : ℤ → ℝ) {i : ℕ} (h2 : i < n) :
    (0 < i → ucHessRvs m x (pos n i 0) = fun _ _ => 0) ∧
    ∀ j, j + 1 < i → ucHessRvs m x (pos n i (j + 1)) =
      rvsHRow x (rvsHAux m x (pos n i) j) (pos n i (j + 1)) := by
  refine ⟨fun h => ?_, fun j h => ?_⟩ <;>
  · rw [ucHessRvs, size_eq hm (by omega), triLoop_spec _ _ _ _ _ _ _ _ h h2]; rfl

theorem hessFwd_cell (hm : 2 * m = n * (n - 1)) (x : ℤ → ℝ) {i : ℕ} (h2 : i < n) :
    (0 < i → ucHessFwd m x (pos n i 0) = fun _ _ => 0) ∧
    ∀ j, j + 1 < i → ucHessFwd m x (pos n i (j + 1)) =
      fwdHRow x (fwdHAux x (pos n i) j) (pos n i (j + 1)) := by
  refine ⟨fun h => ?_, fun j h => ?_⟩ <;>
  · rw [ucHessFwd, size_eq hm (by omega), triLoop_spec _ _ _ _ _ _ _ _ h h2]; rfl

/-- The gradient of `s` vanishes at cells not visited yet. -/
theorem rvsJAux_ds_zero (x : ℤ → ℝ) (κ : ℕ → ℤ) (j : ℕ) (q : ℤ) (hq : ∀ l ≤ j, q ≠ κ l) :
    (rvsJAux m x κ j).ds q = 0 := by
  induction j with
  | zero =>
    show (if q = κ 0 then _ else (0 : ℝ)) = 0
    rw [if_neg (hq 0 le_rfl)]
  | succ j ih =>
    have := ih fun l hl => hq l (by omega)
    show (rvsJAux m x κ j).ds q + 2 * ucRvs m x (κ (j + 1)) *
      rvsJRow x (rvsJAux m x κ j) (κ (j + 1)) q = 0
    simp only [rvsJRow, this, if_neg (hq (j + 1) le_rfl)]
    simp

theorem hj_same_rvs (x : ℤ → ℝ) (κ : ℕ → ℤ) (j : ℕ) :
    (rvsHAux m x κ j).s = (rvsJAux m x κ j).s ∧ (rvsHAux m x κ j).ds = (rvsJAux m x κ j).ds := by
  induction j with
  | zero => exact ⟨rfl, rfl⟩
  | succ j ih =>
    obtain ⟨a, b⟩ := ih
    have e : ({ s := (rvsHAux m x κ j).s, ds := (rvsHAux m x κ j).ds } : JSt) = rvsJAux m x κ j := by
      rw [a, b]
    constructor
    · show (rvsHAux m x κ j).s + _ = (rvsJAux m x κ j).s + _
      rw [a]
    · show (fun q => (rvsHAux m x κ j).ds q + 2 * ucRvs m x (κ (j + 1)) *
        rvsJRow x { s := (rvsHAux m x κ j).s, ds := (rvsHAux m x κ j).ds } (κ (j + 1)) q) = _
      rw [e, b]; rfl

theorem hj_same_fwd (x : ℤ → ℝ) (κ : ℕ → ℤ) (j : ℕ) :
    (fwdHAux x κ j).s = (fwdJAux x κ j).s ∧ (fwdHAux x κ j).ds = (fwdJAux x κ j).ds := by
  induction j with
  | zero => exact ⟨rfl, rfl⟩
  | succ j ih =>
    obtain ⟨a, b⟩ := ih
    constructor
    · show (fwdHAux x κ j).s + _ = (fwdJAux x κ j).s + _
      rw [a]
    · show (fun q => if q = κ (j + 1) then (fwdHAux x κ j).ds q + _ else (fwdHAux x κ j).ds q) = _
      rw [b]; rfl

/-- Derivative of the Jacobian row written in one step. -/
theorem row_rvs {k : ℤ} (h0 : 0 ≤ k) (h1 : k < m) {X : ℝ → ℤ → ℝ} {x' : ℤ → ℝ} (hX : PathD m X x')
    {S : ℝ → JSt} {H : HSt} (es : H.s = (S 0).s) (ed : H.ds = (S 0).ds)
    (hS : HasDerivAt (fun t => (S t).s) (dot m H.ds x') 0) (hp : 0 < 1 - (S 0).s)
    (p : ℤ) (hD : HasDerivAt (fun t => (S t).ds p) (dot m (H.d2s p) x') 0)
    (hk : (S 0).ds k = 0) :
    HasDerivAt (fun t => rvsJRow (X t) (S t) k p) (dot m (rvsHRow (X 0) H k p) x') 0 := by
  have hne := (sqrt_pos.2 hp).ne'
  have hsq := sq_sqrt hp.le
  have hu := u_deriv hS hp
  have hdu := (((hasDerivAt_const (0 : ℝ) (1 : ℝ)).fun_div hu hne).const_mul (1 / 2 : ℝ)).fun_mul
    hD.fun_neg
  have hrow := (hX k h0 h1).fun_mul hdu
  have hk' : H.ds k = 0 := by rw [ed, hk]
  have e : dot m (rvsHRow (X 0) H k p) x' =
      X 0 k * (1 / 2 * ((-1 / sqrt (1 - (S 0).s) ^ 2) * (1 / (2 * sqrt (1 - (S 0).s))) *
        H.ds p * dot m H.ds x') - 1 / 2 * (1 / sqrt (1 - (S 0).s)) * dot m (H.d2s p) x') +
      (if p = k then - (1 / 2 * (1 / sqrt (1 - (S 0).s)) * dot m H.ds x') else 0) +
      (- (1 / 2 * (1 / sqrt (1 - (S 0).s)) * H.ds p)) * x' k := by
    rw [dot_aff2 h0 h1 (g := H.ds) (f := H.d2s p)
      (X 0 k * (1 / 2 * ((-1 / sqrt (1 - (S 0).s) ^ 2) * (1 / (2 * sqrt (1 - (S 0).s))) *
        H.ds p)) + (if p = k then - (1 / 2 * (1 / sqrt (1 - (S 0).s))) else 0))
      (- (X 0 k * (1 / 2 * (1 / sqrt (1 - (S 0).s)))))
      (- (1 / 2 * (1 / sqrt (1 - (S 0).s)) * H.ds p)) x']
    · split_ifs <;> ring
    · intro q
      simp only [rvsHRow, es, hk']
      by_cases hpk : p = k <;> by_cases hqk : q = k <;> simp only [hpk, hqk, if_true, if_false, true_and, false_and, and_self, and_false, and_true] <;> ring
  rw [e]
  by_cases hpk : p = k
  · subst hpk
    simp only [rvsJRow, if_true]
    refine (hrow.fun_add hu).congr_deriv ?_
    rw [hk', hk]
    field_simp
    ring
  · simp only [rvsJRow, if_neg hpk]
    refine hrow.congr_deriv ?_
    rw [← ed]
    field_simp
    ring

theorem row_fwd {k : ℤ} (h0 : 0 ≤ k) (h1 : k < m) {X : ℝ → ℤ → ℝ} {x' : ℤ → ℝ} (hX : PathD m X x')
    {S : ℝ → JSt} {H : HSt} (es : H.s = (S 0).s) (ed : H.ds = (S 0).ds)
    (hS : HasDerivAt (fun t => (S t).s) (dot m H.ds x') 0) (hp : 0 < 1 - (S 0).s)
    (p : ℤ) (hD : HasDerivAt (fun t => (S t).ds p) (dot m (H.d2s p) x') 0) :
    HasDerivAt (fun t => fwdJRow (X t) (S t) k p) (dot m (fwdHRow (X 0) H k p) x') 0 := by
  have hne := (sqrt_pos.2 hp).ne'
  have hu := u_deriv hS hp
  have hdu := (((hasDerivAt_const (0 : ℝ) (1 : ℝ)).fun_div hu hne).const_mul (1 / 2 : ℝ)).fun_mul
    hD.fun_neg
  have hrow := ((hX k h0 h1).fun_neg.fun_mul hdu).fun_div (hu.fun_pow 2) (pow_ne_zero 2 hne)
  have hinv := (hasDerivAt_const (0 : ℝ) (1 : ℝ)).fun_div hu hne
  generalize hU : sqrt (1 - (S 0).s) = u at *
  have e : dot m (fwdHRow (X 0) H k p) x' =
      ((-1 / (4 * u ^ 3)) * H.ds p * dot m H.ds x' - 1 / (2 * u) * dot m (H.d2s p) x') *
        (- X 0 k * (1 / u) ^ 2) +
      (1 / (2 * u) * - H.ds p) * (- X 0 k * (2 * (1 / u) * ((-1 / u ^ 2) * (1 / (2 * u)) *
        - dot m H.ds x')) - (1 / u) ^ 2 * x' k) +
      (if p = k then (-1 / u ^ 2) * (1 / (2 * u)) * - dot m H.ds x' else 0) := by
    rw [dot_aff2 h0 h1 (g := H.ds) (f := H.d2s p)
      ((-1 / (4 * u ^ 3)) * H.ds p * (- X 0 k * (1 / u) ^ 2) +
        (1 / (2 * u) * - H.ds p) * (X 0 k * (2 * (1 / u) * ((-1 / u ^ 2) * (1 / (2 * u))))) +
        (if p = k then - ((-1 / u ^ 2) * (1 / (2 * u))) else 0))
      (- (1 / (2 * u)) * (- X 0 k * (1 / u) ^ 2))
      (- ((1 / (2 * u) * - H.ds p) * (1 / u) ^ 2)) x']
    · split_ifs <;> ring
    · intro q
      simp only [fwdHRow, es, hU]
      by_cases hpk : p = k <;> by_cases hqk : q = k <;> simp only [hpk, hqk, if_true, if_false] <;> ring
  rw [e]
  by_cases hpk : p = k
  · subst hpk
    simp only [fwdJRow, if_true]
    refine (hrow.fun_add hinv).congr_deriv ?_
    rw [← ed]
    field_simp
    ring
  · simp only [fwdJRow, if_neg hpk]
    refine hrow.congr_deriv ?_
    rw [← ed]
    field_simp
    ring

theorem rvsJAux_s (hm : 2 * m = n * (n - 1)) (x : ℤ → ℝ) {i : ℕ} (hi : i < n) (j : ℕ) (hj : j < i) :
    (rvsJAux m x (pos n i) j).s = rvsAux x (pos n i) j := by
  induction j with
  | zero => rfl
  | succ j ih =>
    show (rvsJAux m x (pos n i) j).s + ucRvs m x (pos n i (j + 1)) ^ 2 = rvsAux x (pos n i) j + _
    rw [ih (by omega), rvs_succ hm x hj hi]; rfl

theorem fwdJAux_s (x : ℤ → ℝ) (κ : ℕ → ℤ) (j : ℕ) : (fwdJAux x κ j).s = fwdAux x κ j := by
  induction j with
  | zero => rfl
  | succ j ih => exact congrArg (· + _) ih

theorem hInit_deriv {k : ℤ} (h0 : 0 ≤ k) (h1 : k < m) {X : ℝ → ℤ → ℝ} {x' : ℤ → ℝ}
    (hX : PathD m X x') (p : ℤ) :
    HasDerivAt (fun t => (jInit (X t) k).ds p) (dot m ((hInit (X 0) k).d2s p) x') 0 := by
  simp only [jInit, hInit]
  by_cases h : p = k
  · simp only [h, if_true, true_and]
    rw [dot_single h0 h1]
    exact (hX k h0 h1).const_mul 2
  · simp only [h, if_false, false_and]
    simpa [dot] using hasDerivAt_const (0 : ℝ) (0 : ℝ)

theorem rvsHAux_spec (hm : 2 * m = n * (n - 1)) {X : ℝ → ℤ → ℝ} {x' : ℤ → ℝ} (hX : PathD m X x')
    (hx : InCube m (X 0)) {i : ℕ} (hi : i < n) (j : ℕ) (hj : j < i) (p : ℤ) :
    HasDerivAt (fun t => (rvsJAux m (X t) (pos n i) j).ds p)
      (dot m ((rvsHAux m (X 0) (pos n i) j).d2s p) x') 0 := by
  induction j generalizing p with
  | zero =>
    obtain ⟨r0, r1⟩ := pos_range hm hj hi
    exact hInit_deriv r0 r1 hX p
  | succ j ih =>
    have ih := ih (by omega)
    obtain ⟨hs, hS⟩ := rvsJAux_spec hm hX hx hi j (by omega)
    obtain ⟨e1, e2⟩ := hj_same_rvs (m := m) (X 0) (pos n i) j
    obtain ⟨r0, r1⟩ := pos_range hm hj hi
    have hp := rvs_stick_pos (X 0) (pos n i) j fun l hl => cube_row hm hx (by omega) hi
    have hv := val_rvs r0 r1 hX hs hS hp
    have hy := fun t => rvs_succ hm (X t) hj hi
    have hrow := row_rvs r0 r1 hX (S := fun t => rvsJAux m (X t) (pos n i) j)
      (H := rvsHAux m (X 0) (pos n i) j) e1 e2
      (by simp only [rvsJAux_s hm _ hi j (by omega), e2]; exact hS) (by rw [hs]; exact hp) p (ih p)
      (rvsJAux_ds_zero _ _ _ _ fun l hl e => by
        have := (pos_inj (by omega) hi (by omega) hi e).2; omega)
    have ej : ({ s := (rvsHAux m (X 0) (pos n i) j).s, ds := (rvsHAux m (X 0) (pos n i) j).ds } : JSt)
        = rvsJAux m (X 0) (pos n i) j := by rw [e1, e2]
    show HasDerivAt (fun t => (rvsJAux m (X t) (pos n i) j).ds p +
        2 * ucRvs m (X t) (pos n i (j + 1)) *
          rvsJRow (X t) (rvsJAux m (X t) (pos n i) j) (pos n i (j + 1)) p)
      (dot m (fun q => (rvsHAux m (X 0) (pos n i) j).d2s p q +
        (2 * (rvsJRow (X 0) { s := (rvsHAux m (X 0) (pos n i) j).s, ds := (rvsHAux m (X 0) (pos n i) j).ds }
            (pos n i (j + 1)) p *
          rvsJRow (X 0) { s := (rvsHAux m (X 0) (pos n i) j).s, ds := (rvsHAux m (X 0) (pos n i) j).ds }
            (pos n i (j + 1)) q) +
        2 * ucRvs m (X 0) (pos n i (j + 1)) *
          rvsHRow (X 0) (rvsHAux m (X 0) (pos n i) j) (pos n i (j + 1)) p q)) x') 0
    rw [ej]
    simp only [hy]
    refine ((ih p).fun_add ((hv.const_mul 2).fun_mul hrow)).congr_deriv ?_
    rw [dot_lin3 _ _ x' (fun q => rfl)]
    ring

theorem fwdHAux_spec (hm : 2 * m = n * (n - 1)) {X : ℝ → ℤ → ℝ} {x' : ℤ → ℝ} (hX : PathD m X x')
    {i : ℕ} (hi : i < n) (j : ℕ) (hj : j < i) (p : ℤ) :
    HasDerivAt (fun t => (fwdJAux (X t) (pos n i) j).ds p)
      (dot m ((fwdHAux (X 0) (pos n i) j).d2s p) x') 0 := by
  induction j with
  | zero =>
    obtain ⟨r0, r1⟩ := pos_range hm hj hi
    exact hInit_deriv r0 r1 hX p
  | succ j ih =>
    have ih := ih (by omega)
    obtain ⟨r0, r1⟩ := pos_range hm hj hi
    show HasDerivAt (fun t => if p = pos n i (j + 1) then (fwdJAux (X t) (pos n i) j).ds p +
        2 * X t (pos n i (j + 1)) else (fwdJAux (X t) (pos n i) j).ds p)
      (dot m (fun q => if p = pos n i (j + 1) ∧ q = pos n i (j + 1) then
        (fwdHAux (X 0) (pos n i) j).d2s p q + 2 else (fwdHAux (X 0) (pos n i) j).d2s p q) x') 0
    by_cases h : p = pos n i (j + 1)
    · simp only [h, if_true, true_and] at ih ⊢
      rw [dot_aff r0 r1 (g := (fwdHAux (X 0) (pos n i) j).d2s (pos n i (j + 1))) 1 2 x'
        (fun q => by split_ifs <;> ring), one_mul]
      exact ih.fun_add ((hX _ r0 r1).const_mul 2)
    · simp only [h, if_false, false_and]
      exact ih

/-- C75: `hess_rvs` is the derivative of `jac_rvs`. -/
theorem C75_hess_rvs (hm : 2 * m = n * (n - 1)) (hn : 1 ≤ n) (X : ℝ → ℤ → ℝ) (x' : ℤ → ℝ)
    (hX : PathD m X x') (hx : InCube m (X 0)) (p : ℤ) :
    PathD m (fun t k => ucJacRvs m (X t) k p) (fun k => dot m (ucHessRvs m (X 0) k p) x') := by
  intro k h0 h1
  obtain ⟨i, j, hj, hi, rfl⟩ := pos_surj hm hn k h0 h1
  beta_reduce
  cases j with
  | zero =>
    rw [(hessRvs_cell hm (X 0) hi).1 hj]
    simp only [(jacRvs_cell hm _ hi).1 hj]
    simpa [dot] using hasDerivAt_const (0 : ℝ) (rowUnit (pos n i 0) p)
  | succ j =>
    rw [(hessRvs_cell hm (X 0) hi).2 j hj]
    simp only [(jacRvs_cell hm _ hi).2 j hj]
    obtain ⟨hs, hS⟩ := rvsJAux_spec hm hX hx hi j (by omega)
    obtain ⟨e1, e2⟩ := hj_same_rvs (m := m) (X 0) (pos n i) j
    have hp := rvs_stick_pos (X 0) (pos n i) j fun l hl => cube_row hm hx (by omega) hi
    exact row_rvs h0 h1 hX (S := fun t => rvsJAux m (X t) (pos n i) j) e1 e2
      (by simp only [rvsJAux_s hm _ hi j (by omega), e2]; exact hS) (by rw [hs]; exact hp) p
      (rvsHAux_spec hm hX hx hi j (by omega) p)
      (rvsJAux_ds_zero _ _ _ _ fun l hl e => by
        have := (pos_inj (by omega) hi (by omega) hi e).2; omega)

/-- C75: `hess_fwd` is the derivative of `jac_fwd`. -/
theorem C75_hess_fwd (hm : 2 * m = n * (n - 1)) (hn : 1 ≤ n) (X : ℝ → ℤ → ℝ) (x' : ℤ → ℝ)
    (hX : PathD m X x') (hx : InBalls n (X 0)) (p : ℤ) :
    PathD m (fun t k => ucJacFwd m (X t) k p) (fun k => dot m (ucHessFwd m (X 0) k p) x') := by
  intro k h0 h1
  obtain ⟨i, j, hj, hi, rfl⟩ := pos_surj hm hn k h0 h1
  beta_reduce
  cases j with
  | zero =>
    rw [(hessFwd_cell hm (X 0) hi).1 hj]
    simp only [(jacFwd_cell hm _ hi).1 hj]
    simpa [dot] using hasDerivAt_const (0 : ℝ) (rowUnit (pos n i 0) p)
  | succ j =>
    rw [(hessFwd_cell hm (X 0) hi).2 j hj]
    simp only [(jacFwd_cell hm _ hi).2 j hj]
    obtain ⟨hs, hS⟩ := fwdJAux_spec hm hX hi j (by omega)
    obtain ⟨e1, e2⟩ := hj_same_fwd (X 0) (pos n i) j
    exact row_fwd h0 h1 hX (S := fun t => fwdJAux (X t) (pos n i) j) e1 e2
      (by simp only [fwdJAux_s, e2]; exact hS) (by rw [hs]; exact ball_pos hx hi (by omega)) p
      (fwdHAux_spec hm hX hi j (by omega) p)

example : PathD 3 (fun t k => 1 / 2 + t * k) (fun k => k) ∧ InCube 3 (fun k => 1 / 2 + 0 * (k : ℝ)) :=
  ⟨path_line (fun _ => 1 / 2) _, fun _ _ _ => by norm_num⟩

end Verif.Transf
