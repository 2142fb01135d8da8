import Verif.Cells.Spec
import Verif.Adapt.Spec
import Mathlib.Algebra.Field.Defs
import Mathlib.Algebra.BigOperators.Group.Finset.Defs

/-!
# What remapping must achieve

A field gives a value to each cell box (see `Verif.Cells.Spec`). Nothing here refers to the model.
-/

namespace Verif.Remap

open Verif.Octree

variable {d : ℕ} {K : Type} [Field K]

/-- `v` is the value a new cell box `q` must get from the field `V` on the old cells `A`: its own value
if it is an old cell, that of the cell it was cut from, or the mean of the cells it is made of. -/
def Remapped (V : Oct d → K) (A : Finset (Oct d)) (q : Oct d) (v : K) : Prop :=
  (q ∈ A ∧ v = V q) ∨
  (∃ p ∈ A, p.level + 1 = q.level ∧ Anc p q ∧ v = V p) ∨
  ((∀ s : Fin d → Fin 2, (⟨q.level + 1, fun k => 2 * q.pos k + s k⟩ : Oct d) ∈ A) ∧
    v * 2 ^ d = ∑ s : Fin d → Fin 2, V ⟨q.level + 1, fun k => 2 * q.pos k + s k⟩)

/-- Volume of the cells of octant `o`. -/
def cellVolume (G : Grid d) (b : Fin d → ℕ) (o : Oct d) : ℚ := ∏ k, (hi G o k - lo G o k) / b k

/-- Families of octants to be coarsened are not spread over several ranks. -/
def Together {P : ℕ} (M : Finset (Oct d)) (f : Oct d → ℤ) (owner : Oct d → Fin P) : Prop :=
  ∀ a ∈ M, f a = -1 → ∀ s, Adapt.Sibling s a → owner s = owner a

end Verif.Remap
