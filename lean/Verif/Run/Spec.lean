import Verif.Adapt.Spec
import Verif.Partition.Spec
import Verif.Adapt.Model

/-!
# What the mesh of a run must be
-/

namespace Verif.Run

open Verif.Octree Verif.Adapt Verif.Partition

variable {d : ℕ}

/-- The meshes of a run, without ranks: the coarse grid, then one least correction and one adaptation
for each list of requested markers (the last one is the head). -/
inductive MeshRun (G : Grid d) : List (Oct d → ℤ) → Finset (Oct d) → Prop
  | start {M : Finset (Oct d)} (h : ∀ o, o ∈ M ↔ o.level = G.lmin ∧ ∀ i, o.pos i < G.coarse i) :
      MeshRun G [] M
  | adapt {mks : List (Oct d → ℤ)} {M : Finset (Oct d)} (h : MeshRun G mks M) {mk f : Oct d → ℤ}
      (hf : LeastCorrection G M mk f) : MeshRun G (mk :: mks) (newMesh f M)

end Verif.Run
