import Mathlib.Algebra.BigOperators.Fin
import Mathlib.Data.Fintype.Pi
import Mathlib.Data.Real.Basic
import Verif.Cells.Spec

/-!
# What the ghost cells of a block have to contain

Vocabulary for the properties of `Verif.Legacy`. Nothing here refers to the model of the code.
-/

namespace Verif.Legacy.Spec

open Verif.Octree Verif.Cells

variable {d : ℕ}

/-- Coordinates of a ghost cell of a block of size `b` with `w` more cells on each side. -/
def IsGhost (b : Fin d → ℕ) (w : ℕ) (p : Fin d → ℤ) : Prop :=
  (∀ i, -(w : ℤ) ≤ p i ∧ p i < b i + w) ∧ ∃ i, p i < 0 ∨ (b i : ℤ) ≤ p i

/-- Lattice position of cell `p` of octant `o`. -/
def lattice (b : Fin d → ℕ) (o : Oct d) (p : Fin d → ℤ) (i : Fin d) : ℤ := o.pos i * b i + p i

/-- `V` is the mean of the mesh function `f` (one value per octant and cell of the block) over the
box of lattice position `P`, level `l`: the box is cut in two along each direction, and each part
lies in one cell of the mesh. -/
def IsMean (b : Fin d → ℕ) (M : Finset (Oct d)) (f : Oct d → (Fin d → ℕ) → ℝ) (l : ℕ)
    (P : Fin d → ℕ) (V : ℝ) : Prop :=
  ∃ c : (Fin d → Fin 2) → Oct d × (Fin d → ℕ),
    (∀ s, (c s).1 ∈ M ∧ (∀ i, (c s).2 i < b i) ∧
      Anc (cellOct b (c s).1 (c s).2) ⟨l + 1, fun i => 2 * P i + s i⟩) ∧
    V = (∑ s, f (c s).1 (c s).2) / 2 ^ d

/-- What happens to positions below (above) the domain in a direction. -/
inductive Wall
  /-- the values are those of the mirror image, normal components change sign -/
  | mirror
  /-- the values are those of the last cell -/
  | copy
  /-- nothing (the direction is periodic) -/
  | none
deriving DecidableEq

/-- The position whose values are taken at lattice position `X` of a direction with `N` cells. -/
def image (lo hi : Wall) (N X : ℤ) : ℤ :=
  if X < 0 then
    match lo with
    | .mirror => -1 - X
    | .copy => 0
    | .none => X
  else if N ≤ X then
    match hi with
    | .mirror => 2 * N - 1 - X
    | .copy => N - 1
    | .none => X
  else X

/-- The sign of normal components at lattice position `X`. -/
def imageSign (lo hi : Wall) (N X : ℤ) : ℝ :=
  if (X < 0 ∧ lo = .mirror) ∨ (N ≤ X ∧ hi = .mirror) then -1 else 1

end Verif.Legacy.Spec
