import Mathlib.Data.Finset.Basic
import Mathlib.Data.Fintype.Pi
import Mathlib.Data.Sign.Defs
import Mathlib.Data.Rat.Defs
import Mathlib.Algebra.Order.Ring.Rat
import Mathlib.Tactic.Linarith
import Mathlib.Tactic.Ring
import Mathlib.Tactic.FieldSimp
import Mathlib.Tactic.Positivity

/-!
# Geometry of octrees: the vocabulary of the mesh specifications

Nothing here refers to the model of the code. Positions are rational numbers in the unit box;
every finite floating-point number is rational.

The dimension `d` is a parameter. In 2D the code carries a third coordinate that is always 0;
here it is dropped.
-/

namespace Verif.Octree

/-- The parameters of a mesh: coarsest level, number of coarse octants per direction, and which
directions are periodic. -/
structure Grid (d : ℕ) where
  lmin : ℕ
  coarse : Fin d → ℕ
  periodic : Fin d → Bool

/-- An octant: its level and its integer position at that level. -/
structure Oct (d : ℕ) where
  level : ℕ
  pos : Fin d → ℕ

variable {d : ℕ}

@[ext] theorem Oct.ext' {a b : Oct d} (h1 : a.level = b.level) (h2 : ∀ i, a.pos i = b.pos i) :
    a = b := by
  cases a; cases b; simp only [Oct.mk.injEq]; exact ⟨h1, funext h2⟩

instance : DecidableEq (Oct d) := fun a b =>
  decidable_of_iff (a.level = b.level ∧ ∀ i, a.pos i = b.pos i)
    ⟨fun h => Oct.ext' h.1 h.2, fun h => h ▸ ⟨rfl, fun _ => rfl⟩⟩

/-- Every direction has at least one coarse octant. -/
structure Grid.Pos (G : Grid d) : Prop where
  pos : ∀ i, 0 < G.coarse i

/-- Every direction has at least one coarse octant, and the coarse grid fits in the `2^lmin` cube. -/
structure Grid.WF (G : Grid d) : Prop extends G.Pos where
  le : ∀ i, G.coarse i ≤ 2 ^ G.lmin

instance {G : Grid d} : Coe G.WF G.Pos := ⟨Grid.WF.toPos⟩

/-- Number of octants of level `n` along direction `i`. -/
def Grid.count (G : Grid d) (i : Fin d) (n : ℕ) : ℕ := G.coarse i * 2 ^ (n - G.lmin)

/-- Lower face of the box of `o` in direction `i`. -/
def lo (G : Grid d) (o : Oct d) (i : Fin d) : ℚ := (o.pos i : ℚ) / G.count i o.level

/-- Upper face of the box of `o` in direction `i`. -/
def hi (G : Grid d) (o : Oct d) (i : Fin d) : ℚ := ((o.pos i : ℚ) + 1) / G.count i o.level

/-- The octant lies in the domain and is not coarser than the coarse grid. -/
def Valid (G : Grid d) (o : Oct d) : Prop :=
  G.lmin ≤ o.level ∧ ∀ i, o.pos i < G.count i o.level

/-- The half-open box of `o` contains the point `x`. -/
def Covers (G : Grid d) (o : Oct d) (x : Fin d → ℚ) : Prop :=
  ∀ i, lo G o i ≤ x i ∧ x i < hi G o i

/-- `M` tiles the unit box: every point is in exactly one leaf, and no leaf is outside. -/
structure Tiling (G : Grid d) (M : Finset (Oct d)) : Prop where
  valid : ∀ o ∈ M, Valid G o
  cover : ∀ x : Fin d → ℚ, (∀ i, 0 ≤ x i ∧ x i < 1) → ∃! o, o ∈ M ∧ Covers G o x

/-- `s` is an allowed translation in direction `i`: none, or one period of a periodic direction. -/
def Shift (G : Grid d) (i : Fin d) (s : ℤ) : Prop :=
  s = 0 ∨ (G.periodic i = true ∧ (s = 1 ∨ s = -1))

/-- The closed boxes of `a` and `b` meet, possibly through periodic boundaries
(faces, edges and corners count). -/
def Touch (G : Grid d) (a b : Oct d) : Prop :=
  ∀ i, ∃ s, Shift G i s ∧ lo G a i ≤ hi G b i + s ∧ lo G b i + s ≤ hi G a i

/-- 2:1 balance: leaves that touch differ by at most one level. -/
def Balanced (G : Grid d) (M : Finset (Oct d)) : Prop :=
  ∀ a ∈ M, ∀ b ∈ M, Touch G a b → a.level ≤ b.level + 1

/-- The interval `[lb, hb]` continues `[la, ha]` on the given side: for `1` (resp. `-1`) it contains
the points just above `ha` (resp. just below `la`); for `0` the two intervals overlap. -/
def SideAdj (off : SignType) (la ha lb hb : ℚ) : Prop :=
  match off with
  | SignType.zero => lb < ha ∧ la < hb
  | SignType.pos => lb ≤ ha ∧ ha < hb
  | SignType.neg => lb < la ∧ la ≤ hb

/-- `b` is adjacent to `a` in direction `off` (a face, edge or corner direction), possibly through
periodic boundaries. -/
def DirAdj (G : Grid d) (a : Oct d) (off : Fin d → SignType) (b : Oct d) : Prop :=
  ∀ i, ∃ s, Shift G i s ∧ SideAdj (off i) (lo G a i) (hi G a i) (lo G b i + s) (hi G b i + s)

/-- `a` is `b` or an ancestor of `b`. -/
def Anc (a b : Oct d) : Prop :=
  a.level ≤ b.level ∧ ∀ i, b.pos i / 2 ^ (b.level - a.level) = a.pos i

end Verif.Octree
