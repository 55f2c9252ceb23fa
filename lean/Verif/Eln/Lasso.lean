import Verif.Eln.Model
/-!
# Model of `pyglmnet/lasso.py`

`max_eig` and the products `X'y`, `X'X` are arguments, as in the code.
-/
namespace Verif.Eln
open Verif.Func
variable {α : Type*} [Field α] [LinearOrder α]

/-- `lasso_obj` — lasso.py 13-18. -/
def lassoObj (n p : ℕ) (X : ℕ → ℕ → α) (y b : ℕ → α) (lam : α) : α × α × α :=
  let f := (∑ i ∈ Finset.range n, resid p X y b i * resid p X y b i) / (2 * n)
  let h := lam * ∑ j ∈ Finset.range p, |b j|
  (f, h, f + h)

/-- The arguments that stay fixed. -/
structure LArgs (α : Type*) where
  n : ℕ
  p : ℕ
  X : ℕ → ℕ → α
  y : ℕ → α
  Xty : ℕ → α
  XtX : ℕ → ℕ → α
  lam : α
  maxEig : α
  rtol : α
  atol : α

/-- `soft_threshold(theta + alpha * g, tau)` with `g = (Xty - XtX.dot(theta)) / n` — 24-29. -/
def proxStep (a : LArgs α) (th : ℕ → α) (j : ℕ) : α :=
  let step := 1 / (2 * a.maxEig)
  let tau := step * a.lam
  let g := (a.Xty j - ∑ k ∈ Finset.range a.p, a.XtX j k * th k) / a.n
  softThreshold (th j + step * g) tau

/-- The convergence test — 33-35. -/
def conv (a : LArgs α) (b bNew : ℕ → α) : Bool :=
  (List.range a.p).all (fun j => decide (|bNew j - b j| < |b j| * a.rtol)) ||
    (List.range a.p).all fun j => decide (|bNew j - b j| < |b j| * a.rtol + a.atol)

/-- `lasso_prox_grad` — 20-40, with `k` iterations left; `f` is the last row of `fhist`. -/
def proxLoop (a : LArgs α) : ℕ → (ℕ → α) → α × α × α → (ℕ → α) × List (α × α × α)
  | 0, b, _ => (b, [])
  | k + 1, b, f =>
    let bNew := proxStep a b
    let fNew := lassoObj a.n a.p a.X a.y bNew a.lam
    if fNew.2.2 > f.2.2 then (b, [fNew])
    else if conv a b bNew then (bNew, [fNew])
    else
      let t := proxLoop a k bNew fNew
      (t.1, fNew :: t.2)

def proxGrad (a : LArgs α) (b : ℕ → α) (iters : ℕ) : (ℕ → α) × List (α × α × α) :=
  let f0 := lassoObj a.n a.p a.X a.y b a.lam
  let t := proxLoop a iters b f0
  (t.1, f0 :: t.2)

/-- `lasso_accelerated_grad` — 43-65, with `k` iterations left. -/
def accLoop (a : LArgs α) : ℕ → ℕ → (ℕ → α) → (ℕ → α) → α × α × α → (ℕ → α) × List (α × α × α)
  | 0, _, b, _, _ => (b, [])
  | k + 1, i, b, th, f =>
    let bNew := proxStep a th
    let thNew : ℕ → α := fun j => bNew j + (1 + (i : α)) / (4 + i) * (bNew j - b j)
    let fNew := lassoObj a.n a.p a.X a.y bNew a.lam
    if fNew.2.2 > f.2.2 then (b, [fNew])
    else if conv a b bNew then (bNew, [fNew])
    else
      let t := accLoop a k (i + 1) bNew thNew fNew
      (t.1, fNew :: t.2)

def accGrad (a : LArgs α) (b : ℕ → α) (iters : ℕ) : (ℕ → α) × List (α × α × α) :=
  let f0 := lassoObj a.n a.p a.X a.y b a.lam
  let t := accLoop a iters 0 b (fun j => b j * 0) f0
  (t.1, f0 :: t.2)

end Verif.Eln
