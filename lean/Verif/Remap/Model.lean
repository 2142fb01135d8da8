import Verif.Adapt.Model
import Verif.Cells.Model
import Mathlib.Algebra.Field.Defs
import Mathlib.Algebra.BigOperators.Group.Finset.Defs

/-!
# Model of `core/src/amr/CellIndexRemapper.h` and `core/src/amr/MapUserData_mean.cpp`

One field is remapped; the loops over `ivar` treat all fields alike. A field of a rank is a function
of octant and cell (the ghosts included). Values are in an exact field `K`.
-/

namespace Verif.Remap

open Verif.Octree Verif.Cells Verif.Adapt

variable {d : ℕ} {K : Type} [Field K]

/-- `CellIndexRemapper.h` L34-40: centre of the first quarter of the new octant. -/
def firstOldPos (G : Grid d) (o : Oct d) (k : Fin d) : ℚ := getCenter G o k - 1 / 4 * getSize G o k

/-- L78-80: suboctant offset of a cell of a coarsened octant. -/
def subOctOffset (b x : Fin d → ℕ) (k : Fin d) : SignType := if (b k - 1) / 2 < x k then 1 else 0

/-- `CellIndexRemapper.h` L27-105, `get_old_cell`. `Mr` is the octant map of the old mesh on this
rank, `minLevel` and `maxLevel` its search bounds. `none`: octant not found, level difference above
one, or position outside the block. -/
def getOldCell (G : Grid d) (Mr : Finset (Oct d)) (minLevel maxLevel : ℕ) (c : CellIndex d) :
    Option (CellIndex d) :=
  (getiOctFromPos G Mr minLevel maxLevel (firstOldPos G c.oct)).bind fun o =>
    if o.level = c.oct.level then some { c with oct := o }
    else if o.level + 1 = c.oct.level then
      (inBlock c.b fun k => ((c.idx k : ℤ) +
        c.b k * (if getCenter G o k < getCenter G c.oct k then 1 else 0)) / 2).map fun x =>
          ⟨o, x, c.b, .bigger⟩
    else if o.level = c.oct.level + 1 then
      (findNeighbors G Mr o (subOctOffset c.b c.idx)).bind fun ns => ns.head?.bind fun s =>
        (inBlock c.b fun k => (c.idx k : ℤ) * 2 - (subOctOffset c.b c.idx k : ℤ) * c.b k).map
          fun x => ⟨s, x, c.b, .smaller⟩
    else none

/-- `MapUserData_mean.cpp` L75: `nsubcells`. -/
def nsubcells (d : ℕ) : ℕ := (d - 1) * 2 * 2

/-- `MapUserData_mean.cpp` L63-85: the new value of a cell and the number of ghost cells read. -/
def remapCell (G : Grid d) (Mr : Finset (Oct d)) (isGhost : Oct d → Bool) (minLevel maxLevel : ℕ)
    (U : Oct d → (Fin d → ℕ) → K) (c : CellIndex d) : Option (K × ℕ) :=
  (getOldCell G Mr minLevel maxLevel c).bind fun o =>
    if 0 ≤ o.levelDiff then some (U o.oct o.idx, 0)
    else ((loops fun _ : Fin d => [(0 : ℤ), 1]).map (getNeighborGhost G Mr o)).foldlM
      (fun (acc : K × ℕ) n => n.map fun n =>
        (acc.1 + U n.oct n.idx / (nsubcells d : K), acc.2 + if isGhost n.oct then 1 else 0)) (0, 0)

/-- The octants a rank had. -/
def rankOld {P : ℕ} (D : Dist d P) (M : Finset (Oct d)) (r : Fin P) : Finset (Oct d) :=
  M.filter fun o => D.owner o = r

/-- The octants a rank has after `adapt` with markers `f` (see `Verif.Adapt.newLeaves`). -/
def rankNew {P : ℕ} (D : Dist d P) (M : Finset (Oct d)) (f : Oct d → ℤ) (r : Fin P) :
    Finset (Oct d) := newMesh f (rankOld D M r)

/-- Cells of a block. -/
def block (b : Fin d → ℕ) : Finset (Fin d → ℕ) := Fintype.piFinset fun k => Finset.range (b k)

/-- L56-91: the lambda `remap` on rank `r`: the new field and `ghost_coarsen_count`. -/
def remapPass {P : ℕ} (G : Grid d) (D : Dist d P) (M : Finset (Oct d)) (f : Oct d → ℤ)
    (b : Fin d → ℕ) (minLevel maxLevel : ℕ) (U : Oct d → (Fin d → ℕ) → K) (r : Fin P) :
    Option ((Oct d → (Fin d → ℕ) → K) × ℕ) :=
  let cell := fun o x => remapCell G (localMap D M r) (fun o => decide (D.owner o ≠ r))
    minLevel maxLevel U ⟨o, x, b, .localToBlock⟩
  if ∀ o ∈ rankNew D M f r, ∀ x ∈ block b, (cell o x).isSome then
    some (fun o x => match cell o x with
        | some (v, _) => v
        | none => 0,
      ∑ o ∈ rankNew D M f r, ∑ x ∈ block b, match cell o x with
        | some (_, n) => n
        | none => 0)
  else none

/-- L48-108, `remap_aux` on all ranks. `exch` is the ghost exchange of L104-105, whatever it does.
`fuel` bounds the depth of the recursion; `none`: no result. -/
def remapAux {P : ℕ} (G : Grid d) (D : Dist d P) (M : Finset (Oct d)) (f : Oct d → ℤ)
    (b : Fin d → ℕ) (minLevel maxLevel : ℕ)
    (exch : (Fin P → Oct d → (Fin d → ℕ) → K) → Fin P → Oct d → (Fin d → ℕ) → K) :
    ℕ → (Fin P → Oct d → (Fin d → ℕ) → K) → Option (Fin P → Oct d → (Fin d → ℕ) → K)
  | 0, _ => none
  | fuel + 1, U =>
    let pass := fun r => remapPass G D M f b minLevel maxLevel (U r) r
    if ∀ r, (pass r).isSome then
      if (∑ r, match pass r with
          | some (_, n) => n
          | none => 0) = 0 then
        some fun r => match pass r with
          | some (v, _) => v
          | none => U r
      else remapAux G D M f b minLevel maxLevel exch fuel (exch U)
    else none

end Verif.Remap
