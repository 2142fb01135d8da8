import Mathlib.Data.Rat.Floor
import Verif.Octree.Spec

/-!
# Model of `core/src/amr/LightOctree_hashmap.h` and `LightOctree_storage.h`

The hash map `oct_map` (key: level and coordinates) is the finite set `M` of the octants it
contains; `oct_map.find` followed by `valid_at` is membership. Functions return the octant itself
in place of its index. The 2D case drops the third coordinate, which the code keeps at 0.
-/

namespace Verif.Octree

variable {d : ℕ}

/-- Nested loops `for s_{d-1} ∈ l_{d-1} ... for s_0 ∈ l_0` (last coordinate outermost), as used for
`dz, dy, dx` and `sz, sy, sx` throughout the code. -/
def loops {α : Type} : {d : ℕ} → (Fin d → List α) → List (Fin d → α)
  | 0, _ => [Fin.elim0]
  | d + 1, l =>
    (l (Fin.last d)).flatMap fun z =>
      (loops (fun i : Fin d => l i.castSucc)).map fun f => Fin.snoc (α := fun _ => α) f z

/-- `LightOctree_storage.h` L255-261, `cell_count`: `coarse_grid_size << (n - level_min)`.
Simplification: no 32-bit overflow (the code asserts `n < 32`). -/
def cellCount (G : Grid d) (i : Fin d) (n : ℕ) : ℕ := G.coarse i <<< (n - G.lmin)

/-- `LightOctree_storage.h` L198-204, `getSize`, with exact arithmetic. -/
def getSize (G : Grid d) (o : Oct d) (i : Fin d) : ℚ := 1 / cellCount G i o.level

/-- `LightOctree_storage.h` L161-171, `getCenter`, with exact arithmetic. -/
def getCenter (G : Grid d) (o : Oct d) (i : Fin d) : ℚ := (o.pos i + 1 / 2) * getSize G o i

/-- `LightOctree_hashmap.h` L221-235, `isBoundary`. The third direction is tested with `0 <=`
there instead of `0 <`, which makes a difference only for the dropped 2D coordinate. -/
def isBoundary (G : Grid d) (o : Oct d) (off : Fin d → SignType) : Bool :=
  decide (∃ i, (!G.periodic i) = true ∧
    ¬ (0 < getCenter G o i + ((off i : ℤ) : ℚ) * getSize G o i ∧
      getCenter G o i + ((off i : ℤ) : ℚ) * getSize G o i < 1))

/-- `LightOctree_hashmap.h` L154-161: coordinates of the same-size neighbour, wrapped. -/
def neighborPos (G : Grid d) (o : Oct d) (off : Fin d → SignType) (i : Fin d) : ℕ :=
  ((o.pos i : ℤ) + cellCount G i o.level + (off i : ℤ)).toNat % cellCount G i o.level

/-- `LightOctree_hashmap.h` L191-209: the finer octants adjacent to the searched side. -/
def finerNeighbors (l : ℕ) (p : Fin d → ℕ) (off : Fin d → SignType) : List (Oct d) :=
  (loops (fun i => if off i = 0 then [0, 1] else [0])).map fun s =>
    ⟨l + 1, fun i => (p i <<< 1) + (if off i = -1 then 1 else 0) + s i⟩

/-- `LightOctree_hashmap.h` L140-218, `findNeighbors`. `none` is the undefined behaviour of reading
the value of an absent key (L210-212; the check is compiled only in debug mode). The key of a
coarser octant of level `0 - 1` (wrapped) is never in the map. -/
def findNeighbors (G : Grid d) (M : Finset (Oct d)) (o : Oct d) (off : Fin d → SignType) :
    Option (List (Oct d)) :=
  if ∀ i, off i = 0 then some [o]
  else if isBoundary G o off then some []
  else
    let p := neighborPos G o off
    if ⟨o.level, p⟩ ∈ M then some [⟨o.level, p⟩]
    else if 1 ≤ o.level ∧ ⟨o.level - 1, fun i => p i >>> 1⟩ ∈ M then
      some [⟨o.level - 1, fun i => p i >>> 1⟩]
    else
      let f := finerNeighbors o.level p off
      if ∀ b ∈ f, b ∈ M then some f else none

/-- `LightOctree_hashmap.h` L291-303: the search loop of `getiOctFromPos`, from `level` down to
`minLevel`. `fuel` counts the remaining iterations, `none` is a search that ends without result. -/
def searchUp (M : Finset (Oct d)) : ℕ → ℕ → (Fin d → ℕ) → Option (Oct d)
  | 0, _, _ => none
  | fuel + 1, level, p =>
    if ⟨level, p⟩ ∈ M then some ⟨level, p⟩
    else searchUp M fuel (level - 1) (fun i => p i >>> 1)

/-- `LightOctree_hashmap.h` L267-307, `getiOctFromPos`. `std::floor(pos/octant_size)` in exact
arithmetic. The loop runs for `level = max_level, ..., min_level`. -/
def getiOctFromPos (G : Grid d) (M : Finset (Oct d)) (minLevel maxLevel : ℕ) (x : Fin d → ℚ) :
    Option (Oct d) :=
  searchUp M (maxLevel + 1 - minLevel) maxLevel
    (fun i => ⌊x i / (1 / (cellCount G i maxLevel : ℚ))⌋₊)

end Verif.Octree

namespace Verif.Octree

/-- `LightOctree_base.h` L19-22, `OctantIndex`. -/
structure OctantIndex where
  iOct : ℕ
  isGhost : Bool
deriving DecidableEq

/-- `LightOctree_base.h` L24-28, `OctantIndex_to_iOctLocal` (no 32-bit overflow). -/
def toLocal (o : OctantIndex) (numOctants : ℕ) : ℕ :=
  (if o.isGhost then 1 else 0) * numOctants + o.iOct

/-- `LightOctree_base.h` L30-39, `iOctLocal_to_OctantIndex`. -/
def ofLocal (i : ℕ) (numOctants : ℕ) : OctantIndex :=
  if i ≥ numOctants then ⟨i - numOctants, true⟩ else ⟨i, false⟩

end Verif.Octree
