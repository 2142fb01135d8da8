import Verif.Octree.Spec

/-!
# What marker correction must achieve
-/

namespace Verif.Adapt

open Verif.Octree

variable {d : ℕ}

/-- `s` and `a` have the same parent (or are equal). -/
def Sibling (s a : Oct d) : Prop := s.level = a.level ∧ ∀ i, s.pos i / 2 = a.pos i / 2

/-- Markers `mk` respect the rules: leaves that touch will differ by at most one level, and a leaf
is coarsened only if all its siblings are leaves that are coarsened too. -/
structure Admissible (G : Grid d) (M : Finset (Oct d)) (mk : Oct d → ℤ) : Prop where
  two : ∀ a ∈ M, ∀ b ∈ M, Touch G a b → (b.level : ℤ) + mk b ≤ a.level + mk a + 1
  sib : ∀ a ∈ M, mk a = -1 → ∀ s, Sibling s a → s ∈ M ∧ mk s = -1

/-- The preconditions on requested markers: values in `{-1, 0, 1}`, no coarsening of the coarsest
level, and target levels at least 1 (implied by `lmin ≥ 1`) and far from overflow. -/
structure Requested (G : Grid d) (M : Finset (Oct d)) (mk : Oct d → ℤ) : Prop where
  lower : ∀ a ∈ M, -1 ≤ mk a
  upper : ∀ a ∈ M, mk a ≤ 1
  coarsest : ∀ a ∈ M, mk a = -1 → G.lmin < a.level
  target : ∀ a ∈ M, 1 ≤ (a.level : ℤ) + mk a
  bound : ∀ a ∈ M, a.level < 2 ^ 30

/-- `mk` is the smallest admissible marking above the requested one. -/
def LeastCorrection (G : Grid d) (M : Finset (Oct d)) (mk0 mk : Oct d → ℤ) : Prop :=
  (∀ a ∈ M, mk0 a ≤ mk a) ∧ Admissible G M mk ∧
    ∀ mk', Admissible G M mk' → (∀ a ∈ M, mk0 a ≤ mk' a) → ∀ a ∈ M, mk a ≤ mk' a

/-- The ghost layer of every rank contains every leaf of another rank that touches one of its own,
and only leaves. -/
def GhostComplete {P : ℕ} (G : Grid d) (M : Finset (Oct d)) (owner : Oct d → Fin P)
    (ghost : Fin P → Finset (Oct d)) : Prop :=
  ∀ r, (∀ b ∈ ghost r, b ∈ M) ∧
    ∀ a ∈ M, owner a = r → ∀ b ∈ M, owner b ≠ r → Touch G a b → b ∈ ghost r

end Verif.Adapt
