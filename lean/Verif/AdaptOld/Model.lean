import Verif.Adapt.Model

/-!
# Model of `AMRmesh_hashmap::adapt`

File `core/src/amr/AMRmesh_hashmap.cpp`, L157-428 and L631-684. This is the older of the two hash map
meshes; `AMRmesh_hashmap_new` is in `Verif.Adapt`. The lookup of neighbours is the same
(`LightOctree_hashmap`), and so are the octants written in the end (`Verif.Adapt.written`).

The unordered map `markers` of a rank is a function on octants which is 0 where the map has no entry
(the code never stores a 0 on purpose: L75, L95, L307, L590). Octants replace their indices.
`none` stands for undefined behaviour (reading a neighbour that was not found) and, in the loops, for
running out of fuel.
-/

namespace Verif.AdaptOld

open Verif.Octree Verif.Adapt

variable {d : ℕ} {P : ℕ}

/-- Conversion of an integer to `uint16_t` (`level_t`, `AMRmesh_hashmap.h` L27). -/
def u16 (x : ℤ) : ℤ := x % 2 ^ 16

/-- L157-193, `is_full_coarsening`: the loop over the siblings, left at the first one whose target
level is not that of the octant. -/
def fullCoarsening (G : Grid d) (Mr : Finset (Oct d)) (mk : Oct d → ℤ) (a : Oct d) :
    List (Fin d → SignType) → Option Bool
  | [] => some true
  | off :: os => (findNeighbors G Mr a off).bind fun ns => ns.head?.bind fun s =>
      if u16 (s.level + mk s) ≠ u16 (a.level - 1) then some false
      else fullCoarsening G Mr mk a os

/-- L213-225: the new marker of a local octant in `adapt_clean`; 0 is an octant that is not inserted. -/
def cleanOct (G : Grid d) (Mr : Finset (Oct d)) (mk : Oct d → ℤ) (a : Oct d) : Option ℤ :=
  if mk a = 1 then some 1
  else if mk a = -1 then
    (fullCoarsening G Mr mk a (siblingOffsets a.pos)).map fun b => if b then -1 else 0
  else some 0

/-- L233-273, `need_refine_to_balance`: the loop over directions and neighbours, left at the first
neighbour that will be more than one level finer. -/
def needRefine (G : Grid d) (Mr : Finset (Oct d)) (mk : Oct d → ℤ) (a : Oct d) :
    List (Fin d → SignType) → Option Bool
  | [] => some false
  | off :: os => (findNeighbors G Mr a off).bind fun ns =>
      if ∃ n ∈ ns, u16 (n.level + mk n) - u16 (a.level + mk a) > 1 then some true
      else needRefine G Mr mk a os

/-- L287-308: the new marker of a local octant in `adapt_21balance_step`. -/
def stepOct (G : Grid d) (Mr : Finset (Oct d)) (mk : Oct d → ℤ) (a : Oct d) : Option ℤ :=
  (needRefine G Mr mk a (directions d)).map fun b => if b then mk a + 1 else mk a

/-- A new map of markers with entries for the local octants of rank `r` only. -/
def onOwn (D : Dist d P) (M : Finset (Oct d)) (r : Fin P) (F : Oct d → Option ℤ) :
    Option (Oct d → ℤ) :=
  if ∀ a ∈ M, D.owner a = r → (F a).isSome = true then
    some fun o => if o ∈ M ∧ D.owner o = r then (F o).getD 0 else 0
  else none

/-- L199-229, `adapt_clean` on rank `r`. Markers of ghosts are dropped (L216). -/
def clean (G : Grid d) (D : Dist d P) (M : Finset (Oct d)) (r : Fin P) (mk : Oct d → ℤ) :
    Option (Oct d → ℤ) := onOwn D M r (cleanOct G (localMap D M r) mk)

/-- L276-315, `adapt_21balance_step` on rank `r`. `markers_out` gets local octants only (L282-308). -/
def step (G : Grid d) (D : Dist d P) (M : Finset (Oct d)) (r : Fin P) (mk : Oct d → ℤ) :
    Option (Oct d → ℤ) := onOwn D M r (stepOct G (localMap D M r) mk)

/-- L299-301, L314: whether the step changed a marker. -/
def modified (G : Grid d) (D : Dist d P) (M : Finset (Oct d)) (r : Fin P) (mk : Oct d → ℤ) : Prop :=
  ∃ a ∈ M, D.owner a = r ∧ needRefine G (localMap D M r) mk a (directions d) = some true

instance (G : Grid d) (D : Dist d P) (M : Finset (Oct d)) (r : Fin P) (mk : Oct d → ℤ) :
    Decidable (modified G D M r mk) := by unfold modified; infer_instance

/-- L655-665: the loop of one rank. `upd` is `modified_local`. -/
def inner (G : Grid d) (D : Dist d P) (M : Finset (Oct d)) (r : Fin P) :
    ℕ → (Oct d → ℤ) → Bool → Option ((Oct d → ℤ) × Bool)
  | 0, _, _ => none
  | fuel + 1, mk, upd => (step G D M r mk).bind fun new =>
      if modified G D M r mk then
        (clean G D M r new).bind fun c => inner G D M r fuel c true
      else some (new, upd)

/-- The markers of rank `r` without those of its ghosts. -/
def own (D : Dist d P) (r : Fin P) (mk : Oct d → ℤ) (o : Oct d) : ℤ :=
  if D.owner o = r then mk o else 0

/-- The markers of all ranks, each octant having that of its owner. -/
def gather (D : Dist d P) (F : Fin P → Option (Oct d → ℤ)) : Option (Oct d → ℤ) :=
  if ∀ r, (F r).isSome = true then
    some fun o => match F (D.owner o) with
      | some f => f o
      | none => 0
  else none

/-- L647-669: the loop of all ranks. `exchange_markers` (L559-604) gives every ghost the marker of
its owner; markers are read at local octants and ghosts only, so that all ranks can be given the same
function. -/
def outer (G : Grid d) (D : Dist d P) (M : Finset (Oct d)) (innerFuel : ℕ) :
    ℕ → (Oct d → ℤ) → Option (Oct d → ℤ)
  | 0, _ => none
  | fuel + 1, mk => (gather D fun r => clean G D M r (own D r mk)).bind fun c =>
      (gather D fun r => (inner G D M r innerFuel c false).map Prod.fst).bind fun new =>
        if ∃ r : Fin P, (inner G D M r innerFuel c false).map Prod.snd = some true then
          outer G D M innerFuel fuel new
        else some new

/-- L631-675: the corrected markers. -/
def adaptMarkers (G : Grid d) (D : Dist d P) (M : Finset (Oct d)) (innerFuel fuel : ℕ)
    (mk : Oct d → ℤ) : Option (Oct d → ℤ) :=
  (outer G D M innerFuel fuel mk).bind fun f => gather D fun r => clean G D M r (own D r f)

/-- L320-341, `adapt_apply`: the size of the new array, from the number of octants and of markers.
The scan (L343-424) writes `newLeaves` one after the other from index 0 (see `Verif.Adapt.writes`). -/
def newSize (mk : Oct d → ℤ) (l : List (Oct d)) : ℕ :=
  let cr := l.countP fun a => mk a = 1
  let cc := l.countP fun a => mk a = -1
  (l.length - cr - cc) + 2 ^ d * cr + cc / 2 ^ d

end Verif.AdaptOld
