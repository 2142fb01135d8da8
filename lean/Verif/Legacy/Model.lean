import Mathlib.Algebra.BigOperators.Fin
import Mathlib.Data.Real.Basic
import Verif.Cells.Model

/-!
# Model of the ghost cells of the block-based hydro update

`core/src/legacy/CopyGhostBlockCellData.cpp`, `CopyInnerBlockCellData.h` and `utils_block.h`, used
by `core/src/hydro/HydroUpdate_legacy.cpp` (solver `HydroUpdate_legacy`). Before the update every
block of `b` cells is copied into a block with `w` more cells on each side (`w = 2` in
`HydroUpdate_legacy.cpp` L70), whose additional cells ("ghost cells") come from the neighbour
octants.

Coordinates are functions on `Fin d` as in `Verif.Octree.Model`; in 2D the third direction
(`bz = 1`, no ghosts) is dropped. Octants stand for their indices, ghost octants of the process are
octants of the mesh too. Real numbers replace floating-point numbers. Cells of blocks are named by
their coordinates; `none` is the undefined behaviour of leaving the array (the code has checks only
in the debug build).
-/

namespace Verif.Legacy

open Verif.Octree Verif.Cells

noncomputable section

variable {d : ℕ}

/-- `enums.h` L7-14, the kinds that a configuration can name (L19-24). -/
inductive BC
  | reflecting | absorbing | periodic | user
deriving DecidableEq, Repr

/-- `LegacyDataArray.h` L8-10: the variables of a cell (`ID`, `IP = IE`, `IU..IW`, `IGX..IGZ`). -/
inductive Var (d : ℕ)
  | rho | etot
  | mom (k : Fin d)
  | grav (k : Fin d)
deriving DecidableEq

/-- `CopyGhostBlockCellData.cpp` L238, `CellData`. -/
abbrev Cell (d : ℕ) := Var d → ℝ

/-- The parameters of the functor, `legacy/CopyGhostBlockCellData.h` L55-102. -/
structure Par (d : ℕ) where
  /-- the mesh parameters known to `lmesh` -/
  G : Grid d
  /-- `blockSizes` -/
  b : Fin d → ℕ
  /-- `ghostWidth` -/
  w : ℕ
  bcMin : Fin d → BC
  bcMax : Fin d → BC
  copyGravity : Bool

/-- The data of the mesh: octant, coordinates in the block, variable. -/
abbrev Mesh (d : ℕ) := Oct d → (Fin d → ℕ) → Cell d

/-- The group data of one octant, a block with ghost cells; coordinates are relative to the first
inner cell (`(-1,0,0)` is in the left border). -/
abbrev Block (d : ℕ) := (Fin d → ℤ) → Cell d

/-! ### Numbering of the ghost cells -/

/-- `CopyGhostBlockCellData.cpp` L128-163, `borderSizes` for direction `k`: `ghostWidth` along `k`,
with the corners along the directions before `k`, without along those after. -/
def borderSize (P : Par d) (k i : Fin d) : ℕ :=
  if i = k then P.w else if i < k then P.b i + 2 * P.w else P.b i

/-- L122-158, `borderOrigin` for direction `k`. -/
def borderOrigin (P : Par d) (k i : Fin d) : ℤ := if i ≤ k then -(P.w : ℤ) else 0

/-- L159, `nbcells_face` (`b1*b2*ghostWidth`). -/
def nbFace (P : Par d) (k : Fin d) : ℕ := ∏ i, borderSize P k i

/-- `utils_block.h` L117-134, `index_to_coord`: the digits of `index` in the mixed radix
`(bx, by, bz)`, lowest first. Simplification: the last digit is reduced modulo `bz` too, which
changes nothing for an index of the border. -/
def indexToCoord (s : Fin d → ℕ) (index : ℕ) (i : Fin d) : ℕ :=
  (index / ∏ j : Fin i, s (Fin.castLE i.is_lt.le j)) % s i

/-- `CopyGhostBlockCellData.cpp` L84-90, `get_pos_t`. -/
structure Pos (d : ℕ) where
  inLocal : Fin d → ℤ
  neighbor : Fin d → SignType
  inNeighbor : Fin d → ℤ

/-- L197-212: position of the neighbour octant. -/
def neighborOf (P : Par d) (p : Fin d → ℤ) (i : Fin d) : SignType :=
  if p i < 0 then -1 else if (P.b i : ℤ) ≤ p i then 1 else 0

/-- L198-215: `pos_in_neighbor_aux`. -/
def inNeighborOf (P : Par d) (p : Fin d → ℤ) (i : Fin d) : ℤ :=
  if p i < 0 then p i + P.b i else if (P.b i : ℤ) ≤ p i then p i - P.b i else p i

/-- L112-236, `get_pos`; `none` when `index` is outside the border (`in_domain = false`). -/
def getPos (P : Par d) (k : Fin d) (index : ℕ) : Option (Pos d) :=
  if index < nbFace P k * 2 then
    let right := nbFace P k ≤ index
    let c := indexToCoord (borderSize P k) (if right then index - nbFace P k else index)
    let p : Fin d → ℤ := fun i =>
      c i + borderOrigin P k i + (if right ∧ i = k then (P.w + P.b k : ℤ) else 0)
    some ⟨p, neighborOf P p, inNeighborOf P p⟩
  else none

/-! ### Values of ghost cells -/

/-- L248-281, `get_cell_data_same_size`. -/
def fetchSame (P : Par d) (U : Mesh d) (n : Oct d) (pos : Fin d → ℤ) : Option (Cell d) :=
  (inBlock P.b pos).map (U n)

/-- L307-322, `get_cell_data_larger`. -/
def fetchLarger (P : Par d) (U : Mesh d) (n : Oct d) (pos : Fin d → ℤ) (cp : Fin d → ℚ) :
    Option (Cell d) :=
  fetchSame P U n fun i =>
    pos i / 2 + if getCenter P.G n i < cp i then ((P.b i / 2 : ℕ) : ℤ) else 0

/-- `LightOctree_storage.h` L173-183, `getCorner`, with exact arithmetic. -/
def getCorner (G : Grid d) (o : Oct d) (i : Fin d) : ℚ := o.pos i * getSize G o i

/-- `CopyGhostBlockCellData.cpp` L367-388: the smaller neighbour that contains the cell centre. -/
def findSub (P : Par d) (ns : List (Oct d)) (cp : Fin d → ℚ) : Option (Oct d) :=
  ns.find? fun n => decide (∀ i, getCorner P.G n i < cp i ∧
    cp i < getCorner P.G n i + getSize P.G n i)

/-- L400-411: coordinates of subcell `s`. -/
def subPos (P : Par d) (pos : Fin d → ℤ) (s : Fin d → ℤ) (i : Fin d) : ℤ :=
  let q := pos i * 2 + s i
  if (P.b i : ℤ) ≤ q then q - P.b i else q

/-- L354-436, `get_cell_data_smaller`: mean over `2^ndim` subcells (`dimz_size*4`). -/
def fetchSmaller (P : Par d) (U : Mesh d) (ns : List (Oct d)) (pos : Fin d → ℤ)
    (cp : Fin d → ℚ) : Option (Cell d) :=
  (findSub P ns cp).bind fun n =>
    ((loops fun _ : Fin d => [(0 : Fin 2), 1]).mapM fun s =>
      fetchSame P U n (subPos P pos fun i => ((s i : ℕ) : ℤ))).map
      fun vs v => (vs.map fun c => c v).sum / 2 ^ d

/-- L535-547 and L663-674: centre of cell `p` of octant `o` (before the periodic shift). -/
def cellPos (P : Par d) (o : Oct d) (p : Fin d → ℤ) (i : Fin d) : ℚ :=
  getCorner P.G o i + p i * (getSize P.G o i / P.b i) + getSize P.G o i / P.b i / 2

/-- L549-558: shift to the periodic image in the domain (`tree_min = 0`, `tree_max = 1`). -/
def shiftPeriodic (P : Par d) (x : Fin d → ℚ) (i : Fin d) : ℚ :=
  let y := if P.bcMin i = .periodic ∧ x i < 0 then x i + 1 else x i
  if P.bcMax i = .periodic ∧ 1 < y then y - 1 else y

/-- L561-566: the value written for cells outside the domain (replaced later). -/
def outside : Cell d
  | .rho => 0
  | .etot => 1.11
  | _ => 0

/-- L530-590, `get_cell_data`. The neighbour list comes from the cache filled in L725-740 with
`findNeighbors`. -/
def getCellData (P : Par d) (M : Finset (Oct d)) (U : Mesh d) (o : Oct d) (q : Pos d) :
    Option (Cell d) :=
  let cp := shiftPeriodic P (cellPos P o q.inLocal)
  if ∃ i, cp i < 0 ∨ 1 < cp i then some outside
  else
    match findNeighbors P.G M o q.neighbor with
    | none => none
    | some [] => none
    | some (n :: ns) =>
      if n.level = o.level then fetchSame P U n q.inNeighbor
      else if o.level < n.level then fetchSmaller P U (n :: ns) q.inNeighbor cp
      else fetchLarger P U n q.inNeighbor cp

/-- L600-617, `write_cell_data`: the third component of the gravity field is not written. -/
def writeCell (P : Par d) (B : Block d) (p : Fin d → ℤ) (c : Cell d) : Block d := fun q v =>
  if q = p then
    match v with
    | .grav k => if P.copyGravity ∧ (k : ℕ) < 2 then c v else B q v
    | _ => c v
  else B q v

/-- L632-646, `fill_ghost_faces`. -/
def fillGhostFace (P : Par d) (M : Finset (Oct d)) (U : Mesh d) (o : Oct d) (k : Fin d)
    (index : ℕ) (B : Block d) : Option (Block d) :=
  match getPos P k index with
  | none => some B
  | some q => (getCellData P M U o q).map (writeCell P B q.inLocal)

/-- L708-711, `nbCells`: twice the largest border. -/
def nbCells (P : Par d) : ℕ := 2 * Finset.univ.sup (nbFace P)

/-- The parallel loops over the cells of the borders, in sequence: for every index all directions
(L745-754, L758-767). -/
def overBorders (P : Par d) (f : Fin d → ℕ → Block d → Option (Block d)) (B : Block d) :
    Option (Block d) :=
  ((List.range (nbCells P)).flatMap fun index => (List.finRange d).map fun k => (k, index)).foldlM
    (fun B ki => f ki.1 ki.2 B) B

/-! ### Boundary conditions -/

/-- L454-491: coordinate that ghost coordinate `p i` is copied from. -/
def coordIn (P : Par d) (p : Fin d → ℤ) (cp : Fin d → ℚ) (i : Fin d) : ℤ :=
  if P.bcMin i = .reflecting ∧ cp i < 0 then -1 - p i
  else if P.bcMax i = .reflecting ∧ 1 < cp i then (P.b i - 1 : ℤ) - (p i - P.b i)
  else if P.bcMin i = .absorbing ∧ cp i < 0 then 0
  else if P.bcMax i = .absorbing ∧ 1 < cp i then (P.b i : ℤ) - 1
  else p i

/-- L451-452, L477-491: sign of the vector component `i`. -/
def signOf (P : Par d) (cp : Fin d → ℚ) (i : Fin d) : ℝ :=
  if P.bcMin i = .reflecting ∧ cp i < 0 then -1
  else if P.bcMax i = .reflecting ∧ 1 < cp i then -1
  else 1

/-- L447-510, `get_cell_data_border`. -/
def getCellDataBorder (P : Par d) (B : Block d) (p : Fin d → ℤ) (cp : Fin d → ℚ) :
    Option (Cell d) :=
  let c := coordIn P p cp
  if ∀ i, -(P.w : ℤ) ≤ c i ∧ c i < P.b i + P.w then
    some fun
      | .rho => B c .rho
      | .etot => B c .etot
      | .mom k => B c (.mom k) * signOf P cp k
      | .grav k => B c (.grav k) * signOf P cp k
  else none

/-- L653-684, `fill_boundary_faces`. -/
def fillBoundaryFace (P : Par d) (o : Oct d) (k : Fin d) (index : ℕ) (B : Block d) :
    Option (Block d) :=
  match getPos P k index with
  | none => some B
  | some q =>
    let cp := cellPos P o q.inLocal
    if ∃ i, cp i < 0 ∨ 1 < cp i then
      (getCellDataBorder P B q.inLocal cp).map (writeCell P B q.inLocal)
    else some B

/-- `LightOctree_storage.h` L184-196, `getBound`. In 2D the third coordinate is always 0, so the
result is always true. -/
def getBound (G : Grid d) (o : Oct d) : Bool :=
  decide (d ≤ 2 ∨ ∃ i, o.pos i = 0 ∨ o.pos i = cellCount G i o.level - 1)

/-- `CopyInnerBlockCellData.h` L114-174: copy of the inner cells. -/
def copyInner (P : Par d) (U : Mesh d) (o : Oct d) (B : Block d) : Block d := fun p v =>
  if ∀ i, 0 ≤ p i ∧ p i < P.b i then
    match v with
    | .grav _ => if P.copyGravity then U o (fun i => (p i).toNat) v else B p v
    | _ => U o (fun i => (p i).toNat) v
  else B p v

/-- `CopyGhostBlockCellData.cpp` L691-770, `fill_ghosts`, after the copy of the inner cells
(`HydroUpdate_legacy.cpp` L120-143). `B` is what the group array contains before. Simplification:
the two loops are run one after the other (there is no `team_barrier` between them in the code). -/
def fillGhosts (P : Par d) (M : Finset (Oct d)) (U : Mesh d) (o : Oct d) (B : Block d) :
    Option (Block d) :=
  (overBorders P (fillGhostFace P M U o) (copyInner P U o B)).bind fun B1 =>
    if getBound P.G o then overBorders P (fillBoundaryFace P o) B1 else some B1

end

end Verif.Legacy
