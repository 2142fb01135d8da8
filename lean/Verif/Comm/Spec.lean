import Mathlib.Data.List.Basic

/-!
# Specification of ghost exchange

`send s r` is the list of octants that rank `s` sends to rank `r`.
-/

namespace Verif.Comm

/-- The ghosts of rank `r`: pairs (owner, octant of the owner), ordered by owner rank and, for one
owner, in the order of its list. -/
def ghosts (P : ℕ) (send : ℕ → ℕ → List ℕ) (r : ℕ) : List (ℕ × ℕ) :=
  (List.range P).flatMap fun s => (send s r).map fun o => (s, o)

/-- `idx` is a multi-index of a view with the given extents, where the extent of dimension `pos` is
not constrained. -/
def InShape (pos : ℕ) (shape idx : List ℕ) : Prop :=
  idx.length = shape.length ∧
    ∀ k n i, k ≠ pos → shape[k]? = some n → idx[k]? = some i → i < n

end Verif.Comm
