import Verif.Octree.Model
import Mathlib.Data.Finset.Union

/-!
# Model of `AMRmesh_hashmap_new::adapt`

File `core/src/amr/AMRmesh_hashmap_new.cpp`, L683-967.

Arrays indexed by octants are functions on octants. The distribution of the leaves over `P` ranks is
given by the owner of each leaf and by the ghost set of each rank. `none` stands for undefined
behaviour (reading a neighbour that was not found) and, in the loops, for running out of fuel.
-/

namespace Verif.Adapt

open Verif.Octree

variable {d : ℕ}

/-- Conversion of an integer to `uint32_t` (`level_t`). -/
def u32 (x : ℤ) : ℤ := x % 2 ^ 32

/-- Conversion of a `uint32_t` to `int`. -/
def s32 (x : ℤ) : ℤ := (x + 2 ^ 31) % 2 ^ 32 - 2 ^ 31

/-- L736-742, L745: offsets `(sx*x, sy*y, sz*z)` of the siblings of an octant at position `pos`, in
loop order, without `(0,0,0)`. -/
def siblingOffsets (pos : Fin d → ℕ) : List (Fin d → SignType) :=
  ((loops fun _ => [0, 1]).filter fun x : Fin d → ℕ => ¬ ∀ i, x i = 0).map fun x i =>
    if x i = 0 then 0 else if pos i % 2 = 0 then 1 else -1

/-- L758-762: the offsets of the `3^d - 1` neighbour directions, in loop order. -/
def directions (d : ℕ) : List (Fin d → SignType) :=
  (loops fun _ => [-1, 0, 1]).filter fun n : Fin d → SignType => ¬ ∀ i, n i = 0

/-- L745-753: one iteration of the sibling check. `level_t` is unsigned, `int` operands are
converted. -/
def checkSibling (G : Grid d) (M : Finset (Oct d)) (mk : Oct d → ℤ) (a : Oct d) (m : ℤ)
    (off : Fin d → SignType) : Option ℤ :=
  (findNeighbors G M a off).bind fun ns =>
    ns.head?.map fun s =>
      if u32 (a.level + m) < u32 (s.level + mk s) then 0 else m

/-- L767-774: one neighbour of the 2:1 check. -/
def checkNeighbor (mk : Oct d → ℤ) (a : Oct d) (m : ℤ) (n : Oct d) : ℤ :=
  if u32 (a.level + m) < u32 (n.level + mk n - 1) then
    s32 (u32 (((n.level : ℤ) - a.level) + mk n - 1))
  else m

/-- L764-775: one direction of the 2:1 check. -/
def checkDirection (G : Grid d) (M : Finset (Oct d)) (mk : Oct d → ℤ) (a : Oct d) (m : ℤ)
    (off : Fin d → SignType) : Option ℤ :=
  (findNeighbors G M a off).map fun ns => ns.foldl (checkNeighbor mk a) m

/-- L722-784: `check_21_cell`, the new marker of the octant `a`. -/
def checkOct (G : Grid d) (M : Finset (Oct d)) (mk : Oct d → ℤ) (a : Oct d) : Option ℤ := do
  let m ← if mk a = -1 then (siblingOffsets a.pos).foldlM (checkSibling G M mk a) (mk a)
    else some (mk a)
  (directions d).foldlM (checkDirection G M mk a) m

/-- A distribution of the leaves over `P` ranks: owner of each leaf and ghosts of each rank. -/
structure Dist (d P : ℕ) where
  owner : Oct d → Fin P
  ghost : Fin P → Finset (Oct d)

/-- Octants in the hash map of rank `r`: its own leaves and its ghosts (`LightOctree_hashmap.h`
L74-99). -/
def localMap {P : ℕ} (D : Dist d P) (M : Finset (Oct d)) (r : Fin P) : Finset (Oct d) :=
  (M.filter fun o => D.owner o = r) ∪ D.ghost r

/-- L701-707: `getMarker` on rank `r`: own markers from the current buffer, ghost markers from the
last exchange. -/
def readMarker {P : ℕ} (D : Dist d P) (r : Fin P) (frozen cur : Oct d → ℤ) (o : Oct d) : ℤ :=
  if D.owner o = r then cur o else frozen o

/-- L800-808: one pass of rank `r` over its octants: reads the `in` buffer, writes the `out`
buffer, copies `out` to `in`. -/
def pass {P : ℕ} (G : Grid d) (D : Dist d P) (M : Finset (Oct d)) (r : Fin P)
    (frozen cur : Oct d → ℤ) : Option (Oct d → ℤ) :=
  if ∀ a ∈ M, D.owner a = r →
      (checkOct G (localMap D M r) (readMarker D r frozen cur) a).isSome = true then
    some fun o => if o ∈ M ∧ D.owner o = r then
      (checkOct G (localMap D M r) (readMarker D r frozen cur) o).getD 0 else cur o
  else none

/-- L795-814: inner loop of rank `r`, repeats passes until one changes nothing. Returns the markers
and whether some pass changed a marker. -/
def innerLoop {P : ℕ} (G : Grid d) (D : Dist d P) (M : Finset (Oct d)) (r : Fin P)
    (frozen : Oct d → ℤ) : ℕ → (Oct d → ℤ) → Bool → Option ((Oct d → ℤ) × Bool)
  | 0, _, _ => none
  | fuel + 1, cur, updated =>
    (pass G D M r frozen cur).bind fun new =>
      if ∀ a ∈ M, D.owner a = r → new a = cur a then some (new, updated)
      else innerLoop G D M r frozen fuel new true

/-- L789-817: outer loop: ghost exchange, inner loop on every rank, logical-or reduction. The ghost
exchange gives every ghost the owner's current marker (see C19). -/
def outerLoop {P : ℕ} (G : Grid d) (D : Dist d P) (M : Finset (Oct d)) (innerFuel : ℕ) :
    ℕ → (Oct d → ℤ) → Option (Oct d → ℤ)
  | 0, _ => none
  | fuel + 1, mk =>
    if ∀ r : Fin P, (innerLoop G D M r mk innerFuel mk false).isSome = true then
      let new : Oct d → ℤ := fun o =>
        match innerLoop G D M (D.owner o) mk innerFuel mk false with
        | some (f, _) => f o
        | none => 0
      if ∃ r : Fin P, ((innerLoop G D M r mk innerFuel mk false).map Prod.snd) = some true then
        outerLoop G D M innerFuel fuel new
      else some new
    else none

/-- L869-880: the children in Z-curve order: `dz = j/4`, `dy = (j - 4*dz)/2`, `dx = j - 4*dz - 2*dy`,
that is, bit `i` of `j` in direction `i`. -/
def children (a : Oct d) : List (Oct d) :=
  (List.range (2 ^ d)).map fun j => ⟨a.level + 1, fun i => a.pos i * 2 + j / 2 ^ (i : ℕ) % 2⟩

/-- L892-905: the octant written when `a` is coarsened. -/
def parent (a : Oct d) : Oct d := ⟨a.level - 1, fun i => a.pos i / 2⟩

/-- L867-905: the octants written for the old octant `a` with marker `m`
(any other marker writes nothing). -/
def written (m : ℤ) (a : Oct d) : List (Oct d) :=
  if m = 1 then children a
  else if m = 0 then [a]
  else if m = -1 then (if ∀ i, a.pos i % 2 = 0 then [parent a] else [])
  else []

/-- L838-843: number of octants counted for `a` in the scan. -/
def nwrite (m : ℤ) (a : Oct d) : ℕ :=
  if m = 1 then 2 ^ d
  else if m = 0 then 1
  else if m = -1 then (if ∀ i, a.pos i % 2 = 0 then 1 else 0)
  else 0

/-- L829-850: exclusive prefix sums of `nwrite` over the local octants, and the total. -/
def offsets (mk : Oct d → ℤ) : ℕ → List (Oct d) → List ℕ × ℕ
  | acc, [] => ([], acc)
  | acc, a :: l =>
    let r := offsets mk (acc + nwrite (mk a) a) l
    (acc :: r.1, r.2)

/-- L853-906: the new storage: slot `j` holds what is written there, `none` if nothing is. The
writes of different octants happen in any order; `writes` lists (slot, octant). -/
def writes (mk : Oct d → ℤ) (l : List (Oct d)) : List (ℕ × Oct d) :=
  (l.zip (offsets mk 0 l).1).flatMap fun (a, off) =>
    (written (mk a) a).zipIdx.map fun (o, j) => (off + j, o)

/-- Content of the new storage of a rank: slot `j` holds the last value written to it, `none` if
nothing was written. `ws` is the sequence of writes in the order in which they happen. -/
def storage (ws : List (ℕ × Oct d)) (j : ℕ) : Option (Oct d) :=
  (ws.reverse.find? fun w => w.1 == j).map Prod.snd

/-- The new leaves of a rank in storage order. -/
def newLeaves (mk : Oct d → ℤ) (l : List (Oct d)) : List (Oct d) :=
  l.flatMap fun a => written (mk a) a

/-- The leaves of all ranks after `adapt`. -/
def newMesh (mk : Oct d → ℤ) (M : Finset (Oct d)) : Finset (Oct d) :=
  M.biUnion fun a => (written (mk a) a).toFinset

end Verif.Adapt
