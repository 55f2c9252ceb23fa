import Verif.Like.OldClm
/-!
# Model of `bootstrap` of the older cumulative link model, `pyglm/clm.py` lines 207-230, and of what `_bootstrap` of
`pyglm2/clm.py` (lines 484-513) optimises

Simplifications: the resamples drawn are given; `opt` is `_optimize` as a function of what it reads, `none` when it raises.  The fit before the loop and
the table of the samples are left out.
-/
namespace Verif.Like
variable {β : Type*}

/-- The attributes during a pass — 221-222: `o1`, `o2` and `ix` are resampled, `B1`, `B2` and `W` stay. -/
def bootAttr (d : ClmData) (j : ℕ → ℕ) : ClmData :=
  { d with o1 := fun i => d.o1 (j i), o2 := fun i => d.o2 (j i), o1ix := fun i => d.o1ix (j i) }

/-- What `_optimize` reads — 221-223: the attributes, with the resampled `B1`, `B2` as arguments. -/
def bootData (d : ClmData) (j : ℕ → ℕ) : ClmData :=
  { bootAttr d j with B1 := fun i => d.B1 (j i), B2 := fun i => d.B2 (j i) }

/-- The loop and the restoring assignment — 219-230: the attributes afterwards, and the samples unless an optimisation raises. -/
def clmBoot (d : ClmData) (opt : ClmData → Option β) : List (ℕ → ℕ) → ClmData × Option (List β)
  | [] => (d, some [])
  | j :: js =>
    match opt (bootData d j) with
    | none => (bootAttr d j, none)
    | some b => ((clmBoot d opt js).1, (clmBoot d opt js).2.map (b :: ·))

/-- The data of a pass of the newer model — pyglm2/clm.py 493-495: all six arrays are resampled. -/
def newBootData (d : ClmData) (j : ℕ → ℕ) : ClmData :=
  ⟨fun i => d.B1 (j i), fun i => d.B2 (j i), fun i => d.o1 (j i), fun i => d.o2 (j i), fun i => d.o1ix (j i), fun i => d.w (j i)⟩

end Verif.Like
