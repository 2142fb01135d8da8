import Mathlib.Data.Fintype.Pi
import Verif.Octree.Spec

/-!
# Geometry of cells

Each octant is cut into `b 0 × b 1 × …` equal cells. The cells of octants of level `l` sit on a
regular lattice, `b` times finer than the lattice of octants of that level, so cells are boxes of
the grid with `b` times more coarse boxes, and the vocabulary of `Verif.Octree.Spec` applies to
them. Nothing here refers to the model of the code.
-/

namespace Verif.Cells

open Verif.Octree

variable {d : ℕ}

/-- The grid whose boxes are the cells. -/
def cellGrid (G : Grid d) (b : Fin d → ℕ) : Grid d := ⟨G.lmin, fun k => G.coarse k * b k, G.periodic⟩

/-- Cell `x` of octant `o`, as a box of the grid of cells. -/
def cellOct (b : Fin d → ℕ) (o : Oct d) (x : Fin d → ℕ) : Oct d :=
  ⟨o.level, fun k => o.pos k * b k + x k⟩

/-- The cells of the mesh `M`. -/
def cellMesh (b : Fin d → ℕ) (M : Finset (Oct d)) : Finset (Oct d) :=
  M.biUnion fun o => (Fintype.piFinset fun k => Finset.range (b k)).image (cellOct b o)

/-- Lattice position reached from cell `x` of octant `o` by moving `off` cells of that size. -/
def target (b : Fin d → ℕ) (o : Oct d) (x : Fin d → ℕ) (off : Fin d → ℤ) (k : Fin d) : ℤ :=
  (o.pos k * b k + x k : ℕ) + off k

/-- Lattice position `X` of level `l` is in the domain, possibly through periodic boundaries. -/
def InDomain (G : Grid d) (l : ℕ) (X : Fin d → ℤ) : Prop :=
  ∀ k, G.periodic k = true ∨ (0 ≤ X k ∧ X k < G.count k l)

/-- `P` is lattice position `X` of level `l`, brought back into the domain. -/
def Wraps (G : Grid d) (l : ℕ) (X : Fin d → ℤ) (P : Fin d → ℕ) : Prop :=
  ∀ k, P k < G.count k l ∧ ∃ t, Shift G k t ∧ (P k : ℤ) + t * G.count k l = X k

end Verif.Cells
