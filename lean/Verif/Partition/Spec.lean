import Verif.Octree.Order

/-!
# What a domain decomposition must satisfy
-/

namespace Verif.Partition

open Verif.Octree

variable {d : ℕ}

/-- `m` is in the key interval of rank `r`. -/
def Owns (I : ℕ → ℕ) (r m : ℕ) : Prop := I r ≤ m ∧ m < I (r + 1)

/-- The keys `I 0 ≤ I 1 ≤ ... ≤ I P` cut the Z-ordered mesh in `P` parts: no leaf is split, no leaf is
left out. -/
structure Cuts (e L : ℕ) (M : Finset (Oct d)) (P : ℕ) (I : ℕ → ℕ) : Prop where
  zero : I 0 = 0
  mono : ∀ r < P, I r ≤ I (r + 1)
  cut : ∀ r ≤ P, ∀ a ∈ M, okey e L a < I r → oend e L a ≤ I r
  top : ∀ a ∈ M, okey e L a < I P

/-- A list of the local octants of each rank represents the mesh `M`: in rank order, it is the list of
leaves in Z-order. -/
structure Distributed (e L : ℕ) (M : Finset (Oct d)) (ls : List (List (Oct d))) : Prop where
  mem : ∀ a, a ∈ ls.flatten ↔ a ∈ M
  order : ls.flatten.Pairwise fun a b => okey e L a < okey e L b

/-- The intervals `I` describe the distribution `ls`: an octant of rank `r` has its key in the
interval of rank `r`. -/
def Describes (e L : ℕ) (ls : List (List (Oct d))) (I : ℕ → ℕ) : Prop :=
  ∀ (r : ℕ) (h : r < ls.length), ∀ a ∈ ls[r], Owns I r (okey e L a)

end Verif.Partition
