import Verif.Adapt.Model
import Verif.Partition.Model
import Verif.Partition.InitModel

/-!
# The mesh during a run

`core/src/amr/AMRmesh_hashmap_new.cpp`. The parts of the mesh class are modelled in `Verif.Adapt` and
`Verif.Partition`; here they are put together: the constructor, `adapt` and `loadBalance` act on the
local octants and ghosts of all ranks. User data, the neighbour table (`Verif.Octree.Table`) and the
numbering of ghosts (`Verif.Comm`) are left out.
-/

namespace Verif.Run

open Verif.Octree Verif.Adapt Verif.Partition

variable {d P : ℕ}

/-- The local octants of every rank in storage order (`storage`), its ghosts as a set, and the faces of the mask with
which a ghost was sent (`GhostMap_t::send_cell_masks`). -/
structure Ranks (d P : ℕ) where
  octs : Fin P → List (Oct d)
  ghost : Fin P → Finset (Oct d)
  faces : Fin P → Oct d → List (Face d)

/-- All leaves. -/
def leaves (octs : Fin P → List (Oct d)) : Finset (Oct d) := (List.ofFn octs).flatten.toFinset

/-- The rank that holds the leaf `a`. -/
def owner [NeZero P] (octs : Fin P → List (Oct d)) (a : Oct d) : Fin P :=
  ((List.finRange P).find? fun r => decide (a ∈ octs r)).getD 0

/-- L275-494 `discover_ghosts`, then the exchange of L180-190, L636-646 and L937-947: the ghosts of rank `s` are the leaves that
other ranks send to it. -/
def discovered [NeZero P] (e L : ℕ) (G : Grid d) (I : ℕ → ℕ) (octs : Fin P → List (Oct d)) (s : Fin P) :
    Finset (Oct d) :=
  (leaves octs).filter fun a => ((s : ℕ) : ℤ) ∈ ghostRanks e L G I P (owner octs a) a

/-- L345-359 and L384-397: the faces of the mask of ghost `a` of rank `s`. -/
def discoveredFaces [NeZero P] (e L : ℕ) (G : Grid d) (I : ℕ → ℕ) (octs : Fin P → List (Oct d)) (s : Fin P)
    (a : Oct d) : List (Face d) := faceMask e L G I P (owner octs a) a s

def Ranks.mesh (s : Ranks d P) : Finset (Oct d) := leaves s.octs

def Ranks.dist [NeZero P] (s : Ranks d P) : Dist d P := ⟨owner s.octs, s.ghost⟩

/-- L42-194, the constructor. Keys have `e` bits per level. -/
def start [NeZero P] (e : ℕ) (G : Grid d) : Option (Ranks d P) :=
  if ∀ r : Fin P, (initLocal G P r).isSome = true then
    let octs := fun r : Fin P => (initLocal G P r).getD []
    some ⟨octs, discovered e G.lmin G (initIntervals3 e G P) octs,
      discoveredFaces e G.lmin G (initIntervals3 e G P) octs⟩
  else none

/-- L683-955 `adapt`, with requested markers `mk`. The loops of the marker correction end within
`2 * card + 1` iterations (C09). -/
def adapt [NeZero P] (e L : ℕ) (G : Grid d) (mk : Oct d → ℤ) (s : Ranks d P) : Option (Ranks d P) :=
  (outerLoop G s.dist s.mesh (2 * s.mesh.card + 1) (2 * s.mesh.card + 1) mk).bind fun f =>
    let new := fun r => newLeaves f (s.octs r)
    (adaptIntervals e L (List.ofFn s.octs) (List.ofFn new)).map fun I =>
      ⟨new, discovered e L G I new, discoveredFaces e L G I new⟩

/-- L496-674 `loadBalance`. -/
def balance [NeZero P] (e L : ℕ) (G : Grid d) (level : ℕ) (s : Ranks d P) : Option (Ranks d P) :=
  (loadBalance e L level (List.ofFn s.octs)).map fun r =>
    let new := fun i : Fin P => r.1.getD i []
    ⟨new, discovered e L G r.2 new, discoveredFaces e L G r.2 new⟩

end Verif.Run
