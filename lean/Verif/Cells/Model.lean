import Mathlib.Data.Sign.Basic
import Verif.Octree.Model

/-!
# Model of `core/src/foreach_cell`: cell indices and neighbour cells

`AMRBlockForeachCell_CellArray.h` and `ForeachCell_utils.h`. A cell is named by its octant (the
octant itself in place of its index, as in `Verif.Octree.Model`; ghost octants are octants of `M`
too), its position in the block and the block size. All directions are treated alike, so arrays
`i,j,k` become functions on `Fin d`; in 2D the third direction (`bz = 1`, `k = 0`) is dropped.

`none` stands for undefined behaviour or for a failed check of the debug build: an index out of
the block, an absent octant, an octant offset beyond ±1.
-/

namespace Verif.Cells

open Verif.Octree

variable {d : ℕ}

/-- `AMRBlockForeachCell_CellArray.h` L31-38. -/
inductive Status
  | localToBlock | sameSize | smaller | bigger | boundary | invalid
deriving DecidableEq, Repr

/-- `AMRBlockForeachCell_CellArray.h` L26-38, `CellIndex`. -/
structure CellIndex (d : ℕ) where
  oct : Oct d
  idx : Fin d → ℕ
  b : Fin d → ℕ
  status : Status

/-- Cell indices are compared field by field. -/
instance : DecidableEq (CellIndex d) := fun x y =>
  decidable_of_iff (x.oct = y.oct ∧ x.idx = y.idx ∧ x.b = y.b ∧ x.status = y.status) (by
    cases x; cases y; simp [CellIndex.mk.injEq])

/-- L45-48, `level_diff`. -/
def CellIndex.levelDiff (c : CellIndex d) : ℤ :=
  (if c.status = .bigger then 1 else 0) - (if c.status = .smaller then 1 else 0)

/-- The status `getNeighbor` gives (L588-590): a local cell stays local, others become
`SAME_SIZE`. -/
def Status.keepLocal (s : Status) : Status :=
  if s = .localToBlock then .localToBlock else .sameSize

/-- Checks that signed coordinates are inside the block and stores them as unsigned ones (the debug
assertions `i < bx` on `uint32_t`). -/
def inBlock (b : Fin d → ℕ) (i : Fin d → ℤ) : Option (Fin d → ℕ) :=
  if ∀ k, 0 ≤ i k ∧ i k < b k then some (fun k => (i k).toNat) else none

/-- L580-597, `CellIndex::getNeighbor`. -/
def getNeighbor (c : CellIndex d) (off : Fin d → ℤ) : Option (CellIndex d) :=
  (inBlock c.b fun k => (c.idx k : ℤ) + off k).map fun i =>
    ⟨c.oct, i, c.b, c.status.keepLocal⟩

/-- L617-621: octant offset of block coordinate `i`. Simplification: `floor` of the real quotient
instead of the `float` one (equal for coordinates below `2^23`). -/
def octOffset (b : Fin d → ℕ) (i : Fin d → ℤ) (k : Fin d) : ℤ := i k / (b k : ℤ)

/-- L642-645: position in the neighbour when it has the same size. -/
def posSame (b : Fin d → ℕ) (i : Fin d → ℤ) (k : Fin d) : ℤ := i k - octOffset b i k * b k

/-- L663-681: position in the neighbour when it is larger. -/
def posLarger (G : Grid d) (o : Oct d) (b : Fin d → ℕ) (i : Fin d → ℤ) (k : Fin d) : ℤ :=
  let logical : ℤ := ⌊getCenter G o k / getSize G o k⌋
  let sub : ℤ := if (logical + octOffset b i k) % 2 ≠ 0 then 1 else 0
  (posSame b i k + sub * b k) / 2

/-- L699-703: position in the block of size `2 * b` formed by the smaller neighbours. -/
def posSmaller (b : Fin d → ℕ) (i : Fin d → ℤ) (k : Fin d) : ℤ :=
  i k * 2 + (if i k < 0 then 1 else 0) - octOffset b i k * b k * 2

/-- L710-712: suboctant of a position in the block of size `2 * b`. -/
def subOct (b : Fin d → ℕ) (s : Fin d → ℤ) (k : Fin d) : ℤ := if (b k : ℤ) ≤ s k then 1 else 0

/-- L734-738: which suboctant of the searched octant a smaller neighbour is, by comparing
centres. -/
def thisSubOct (G : Grid d) (o n : Oct d) (oo : Fin d → ℤ) (k : Fin d) : ℤ :=
  if getCenter G o k + (oo k : ℚ) * getSize G o k < getCenter G n k then 1 else 0

/-- L600-763, `CellIndex::getNeighbor_ghost(offset, CellArray_shape_ghosted)`. -/
def getNeighborGhost (G : Grid d) (M : Finset (Oct d)) (c : CellIndex d) (off : Fin d → ℤ) :
    Option (CellIndex d) :=
  let i : Fin d → ℤ := fun k => (c.idx k : ℤ) + off k
  let oo := octOffset c.b i
  if ∀ k, oo k = 0 then getNeighbor c off
  else if ∃ k, 1 < |oo k| then none
  else
    let s : Fin d → SignType := fun k => SignType.sign (oo k)
    if isBoundary G c.oct s then
      some ⟨c.oct, fun k => (i k + c.b k).toNat, c.b, .boundary⟩
    else match findNeighbors G M c.oct s with
      | none => none
      | some [] => none
      | some (n :: ns) =>
        if n.level = c.oct.level then
          (inBlock c.b (posSame c.b i)).map fun x => ⟨n, x, c.b, .sameSize⟩
        else if n.level + 1 = c.oct.level then
          (inBlock c.b (posLarger G c.oct c.b i)).map fun x => ⟨n, x, c.b, .bigger⟩
        else if n.level = c.oct.level + 1 then
          let sm := posSmaller c.b i
          if ∀ k, 0 ≤ sm k ∧ sm k < 2 * c.b k then
            (inBlock c.b fun k => sm k - c.b k * subOct c.b sm k).bind fun x =>
              ((n :: ns).find? fun m =>
                decide (∀ k, subOct c.b sm k = thisSubOct G c.oct m oo k)).map fun m =>
                  ⟨m, x, c.b, .smaller⟩
          else none
        else none

/-- L766-789, `CellIndex::getNeighbor_ghost(offset, CellArray_shape_local)`. The result `invalid`
has meaningless coordinates (`CELLINDEX_INVALID`). The sum `this->i + offset` is taken modulo
`2^32`: a negative one is `≥ bx`. -/
def getNeighborGhostLocal (c : CellIndex d) (off : Fin d → ℤ) : Option (CellIndex d) :=
  if ∃ k, ¬ (0 ≤ (c.idx k : ℤ) + off k ∧ (c.idx k : ℤ) + off k < c.b k) then getNeighbor c off
  else some ⟨c.oct, c.idx, c.b, .invalid⟩

/-- L97-120, `getBoundaryPosAndOffset`. -/
def getBoundaryPosAndOffset (c : CellIndex d) : CellIndex d × (Fin d → ℤ) :=
  let i : Fin d → ℤ := fun k => (c.idx k : ℤ) - c.b k
  let inside : Fin d → ℕ := fun k => (min (max (i k) 0) ((c.b k : ℤ) - 1)).toNat
  (⟨c.oct, inside, c.b, .localToBlock⟩, fun k => i k - inside k)

/-- L422-427, L445-450, L470-475: `gx = (bx - in.bx)/2` (C division truncates) and `in.i + gx`. -/
def shifted (b : Fin d → ℕ) (c : CellIndex d) (k : Fin d) : ℤ :=
  (c.idx k : ℤ) + ((b k : ℤ) - c.b k).tdiv 2

/-- L414-434, `CellArray_shape_local::convert_index`. -/
def convertIndex (b : Fin d → ℕ) (c : CellIndex d) : Option (CellIndex d) :=
  if c.b = b then some c
  else (inBlock b (shifted b c)).map fun i => ⟨c.oct, i, b, .localToBlock⟩

/-- L437-456, `CellArray_shape_local::convert_index_ghost`. -/
def convertIndexLocalGhost (b : Fin d → ℕ) (c : CellIndex d) : CellIndex d :=
  if c.b = b then c
  else match inBlock b (shifted b c) with
    | none => ⟨c.oct, c.idx, b, .invalid⟩
    | some i => ⟨c.oct, i, b, .localToBlock⟩

/-- L487-492: closest coordinate in the block. -/
def clampIn (b : ℕ) (i : ℤ) : ℕ :=
  if i < 0 then 0 else if (b : ℤ) ≤ i then b - 1 else i.toNat

/-- L484-492: offset from it. Simplification: no `int8_t` overflow. -/
def clampOff (b : ℕ) (i : ℤ) : ℤ :=
  if i < 0 then i else if (b : ℤ) ≤ i then i - b + 1 else 0

/-- L459-507, `convert_index_ghost_aux`; returns the cell and the output argument `offset`. -/
def convertIndexGhostAux (G : Grid d) (M : Finset (Oct d)) (b : Fin d → ℕ) (c : CellIndex d) :
    Option (CellIndex d × (Fin d → ℤ)) :=
  if c.b = b then some (c, fun _ => 0)
  else
    let i := shifted b c
    if ∃ k, i k < 0 ∨ (b k : ℤ) ≤ i k then
      let off : Fin d → ℤ := fun k => clampOff (b k) (i k)
      (getNeighborGhost G M ⟨c.oct, fun k => clampIn (b k) (i k), b, .localToBlock⟩ off).map
        fun r => (r, off)
    else
      some (⟨c.oct, fun k => (i k).toNat, b, c.status.keepLocal⟩, fun _ => 0)

/-- L510-514, `convert_index_getNeighbor`. -/
def convertIndexGetNeighbor (G : Grid d) (M : Finset (Oct d)) (b : Fin d → ℕ) (c : CellIndex d) :
    Option (CellIndex d) :=
  (convertIndexGhostAux G M b c).map Prod.fst

/-- L517-534, `CellArray_shape_ghosted::convert_index_ghost`. -/
def convertIndexGhost (G : Grid d) (M : Finset (Oct d)) (b : Fin d → ℕ) (c : CellIndex d) :
    Option (CellIndex d) :=
  (convertIndexGhostAux G M b c).bind fun ⟨n, off⟩ =>
    let o : Fin d → ℤ := fun k => if off k < 0 then -1 else 0
    if n.levelDiff = -1 ∧ ∃ k, o k ≠ 0 then
      (getNeighbor n o).map fun r => { r with status := .smaller }
    else some n

/-- `ForeachCell_utils.h` L16-28, `get_sibling_cell<enable_different_block>`. -/
def getSiblingCell (diffBlock : Bool) (G : Grid d) (M : Finset (Oct d)) (c : CellIndex d)
    (off : Fin d → ℤ) : Option (CellIndex d) :=
  if diffBlock then getNeighborGhost G M c off else getNeighbor c off

/-- `ForeachCell_utils.h` L46-65, `foreach_smaller_neighbor`: the cells the functor is called on
(`none`: undefined behaviour in one of the calls). -/
def foreachSmallerNeighbor (diffBlock : Bool) (G : Grid d) (M : Finset (Oct d)) (c : CellIndex d)
    (off : Fin d → ℤ) : List (Option (CellIndex d)) :=
  (loops fun k => if off k = 0 then [(0 : ℤ), 1] else [0]).map (getSiblingCell diffBlock G M c)

/-- `ForeachCell_utils.h` L84-100, `foreach_sibling`. -/
def foreachSibling (diffBlock : Bool) (G : Grid d) (M : Finset (Oct d)) (c : CellIndex d) :
    List (Option (CellIndex d)) :=
  (loops fun _ : Fin d => [(0 : ℤ), 1]).map (getSiblingCell diffBlock G M c)

end Verif.Cells
