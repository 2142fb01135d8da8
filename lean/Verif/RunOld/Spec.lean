import Verif.Octree.Order

/-!
# When compaction leaves every rank an octant
-/

namespace Verif.RunOld

open Verif.Octree

variable {d : ℕ}

/-- The leaves that would begin the ranks in an even distribution of the Z-ordered list `g` are in
different blocks of the grid `level` levels above the finest one. -/
def Separated (e L level P : ℕ) (g : List (Oct d)) : Prop :=
  ∀ r, r + 1 < P → ∀ a b, g[g.length * r / P]? = some a → g[g.length * (r + 1) / P]? = some b →
    okey e L a / 2 ^ (e * level) ≠ okey e L b / 2 ^ (e * level)

end Verif.RunOld
