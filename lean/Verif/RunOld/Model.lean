import Verif.AdaptOld.Model
import Verif.Run.Model

/-!
# Model of the domain decomposition of `AMRmesh_hashmap`

File `core/src/amr/AMRmesh_hashmap.cpp`, the older of the two hash map meshes: the constructor, the
discovery of ghosts, load balancing and the whole of `adapt` (its marker correction is in
`Verif.AdaptOld`). The domain is a cube of `2^level_min` octants in each direction. Keys are natural
numbers as in `Verif.Partition`; `shift_level` (L429-436) and `get_morton_smaller` (L439-452) are
`Partition.shiftKey` and `Partition.mkey`. Octant counts are natural numbers; the code stores them in 32 bits
on each rank and in 64 bits for the whole mesh.
-/

namespace Verif.RunOld

open Verif.Octree Verif.Adapt Verif.Partition Verif.Run Verif.AdaptOld

variable {d P : ℕ}

/-- L18-35, L487: `2^level` octants in each direction. -/
def cube (lmin : ℕ) (periodic : Fin d → Bool) : Grid d := ⟨lmin, fun _ => 2 ^ lmin, periodic⟩

/-! ### Ghosts -/

/-- L462-472 `find_rank`: `std::upper_bound` over all `P + 1` entries, minus 1. -/
def findRank (I : ℕ → ℕ) (P m : ℕ) : ℤ := (upperBound I m 0 (P + 1) : ℤ) - 1

/-- L515-529: keys of the suboctants of the same-size neighbour with key `m`, by arithmetic on keys. -/
def subKeys (e L l m : ℕ) (off : Fin d → SignType) : List ℕ :=
  let origin := shiftKey e m L (l + 1) + ∑ i : Fin d, (if off i = -1 then 1 else 0) * 2 ^ (i : ℕ)
  (loops fun i => if off i = 0 then [0, 1] else [0]).map fun s : Fin d → ℕ =>
    shiftKey e (origin + ∑ i : Fin d, s i * 2 ^ (i : ℕ)) (l + 1) L

/-- L491-535: ranks found for one direction. -/
def registerDir (e L : ℕ) (G : Grid d) (I : ℕ → ℕ) (P : ℕ) (a : Oct d) (off : Fin d → SignType) :
    List ℤ :=
  if insideDomain G a off then
    let m := mkey e L ⟨a.level, wrapPos G a off⟩
    let next := shiftKey e (shiftKey e m L a.level + 1) a.level L
    if a.level < L ∧ next < I (upperBound I m 0 (P + 1)) then [findRank I P m]
    else (subKeys e L a.level m off).map (findRank I P)
  else []

/-- L454-539 `discover_ghosts`: ranks that receive the octant `a` of rank `rank`. -/
def ghostRanks (e L : ℕ) (G : Grid d) (I : ℕ → ℕ) (P rank : ℕ) (a : Oct d) : List ℤ :=
  ((directions d).flatMap (registerDir e L G I P a)).filter fun r => r ≠ (rank : ℤ)

/-- L541-556, L694-704 and L852-860: the ghosts of rank `s` are the leaves that other ranks send to it. -/
def discovered [NeZero P] (e L : ℕ) (G : Grid d) (I : ℕ → ℕ) (octs : Fin P → List (Oct d)) (s : Fin P) :
    Finset (Oct d) :=
  (leaves octs).filter fun a => ((s : ℕ) : ℤ) ∈ ghostRanks e L G I P (owner octs a) a

/-- This mesh has no masks: ghosts are exchanged as whole blocks. -/
def allFaces (_ : Fin P) (_ : Oct d) : List (Face d) := (List.finRange d).flatMap fun j => [(j, false), (j, true)]

theorem mem_allFaces (r : Fin P) (a : Oct d) (f : Face d) : f ∈ allFaces r a := by
  obtain ⟨j, u⟩ := f
  refine List.mem_flatMap.2 ⟨j, List.mem_finRange j, ?_⟩
  cases u <;> simp

/-! ### Intervals -/

/-- L605-627 `compute_current_morton_intervals`: `none` if an assertion fails (L616, L622). -/
def currentIntervals (e L : ℕ) (ls : List (List (Oct d))) : Option (ℕ → ℕ) :=
  let I := oldIntervals e L ls
  if I 0 = 0 ∧ ∀ i < ls.length, 1 ≤ i → I i ≤ I (i + 1) then some I else none

/-- L753-759: the new intervals, truncated keys; `raw` are the gathered keys. -/
def newIntervals (e level P : ℕ) (raw : ℕ → ℕ) (r : ℕ) : ℕ :=
  if r < P then truncKey e (if r = 0 then 0 else raw r) level else 2 ^ 64 - 1

/-- L782-793: first local octant with key at least `m`, or the number of octants. -/
def pivot (e L : ℕ) (l : List (Oct d)) (m : ℕ) : ℕ := l.findIdx fun o => decide (m ≤ mkey e L o)

/-- L777-800: first global index of each new rank, gathered; `old` are the intervals before. Entries
that are not of this rank keep the even index of L740. -/
def newOct (e L : ℕ) (ls : List (List (Oct d))) (old I : ℕ → ℕ) (i : ℕ) : Option ℕ :=
  let P := ls.length
  let mine := fun r i => decide (old r ≤ I i ∧ I i < old (r + 1))
  if i < P then
    allgatherv P (fun r => ((List.range (P + 1)).filter (mine r)).length)
      (fun r i => if mine r i then firstIdx ls r + pivot e L (ls.getD r []) (I i)
        else evenIdx ls.flatten.length P i) i
  else some ls.flatten.length

/-- L805-833: rank `s` receives from every rank, in rank order, the octants with local index from
`to_send_begin` to `to_send_end`. (In the constructor `global_id_begin` is 0 on all ranks and not
`firstIdx`; ranks other than 0 have no octant to send then.) -/
def exchanged (ls : List (List (Oct d))) (J : ℕ → ℕ) (s : ℕ) : List (Oct d) :=
  (List.range ls.length).flatMap fun r =>
    let b := J s - firstIdx ls r
    let en := min (J (s + 1) - firstIdx ls r) (ls.getD r []).length
    ((ls.getD r []).drop b).take (en - b)

/-- L835-842: the first and the last octant of a rank are in its new interval. -/
def inInterval (e L : ℕ) (I : ℕ → ℕ) (s : ℕ) (l : List (Oct d)) : Bool :=
  l.head?.all (fun o => decide (I s ≤ mkey e L o)) &&
    l.getLast?.all (fun o => decide (mkey e L o < I (s + 1)))

/-- L724-874 `loadBalance`: new octants of every rank and new intervals. `none` if a gathered entry is
undefined or an assertion fails (L760, L616, L622, L838, L840, L869). -/
def loadBalance (e L level : ℕ) (ls : List (List (Oct d))) : Option (List (List (Oct d)) × (ℕ → ℕ)) :=
  let P := ls.length
  if (List.range P).all fun i => (rawCuts e L ls i).isSome then
    let I := newIntervals e level P fun i => (rawCuts e L ls i).getD 0
    if (List.range P).all fun i => decide (I i ≤ I (i + 1)) then
      (currentIntervals e L ls).bind fun old =>
        if (List.range P).all fun i => (newOct e L ls old I i).isSome then
          let J := fun i => (newOct e L ls old I i).getD 0
          if (List.range P).all fun i => inInterval e L I i (exchanged ls J i) &&
              !(exchanged ls J i).isEmpty then
            some ((List.range P).map (exchanged ls J), I)
          else none
        else none
    else none
  else none

/-! ### Runs -/

/-- L724-874 with the discovery of ghosts (L852-860). -/
def balance [NeZero P] (e L : ℕ) (G : Grid d) (level : ℕ) (s : Ranks d P) : Option (Ranks d P) :=
  (loadBalance e L level (List.ofFn s.octs)).map fun r =>
    let new := fun i : Fin P => r.1.getD i []
    ⟨new, discovered e L G r.2 new, allFaces⟩

/-- L39-71 `adaptGlobalRefine`: every octant is replaced by its children, the first direction running
fastest. -/
def refineAll (l : List (Oct d)) : List (Oct d) := l.flatMap children

/-- L18-37, the constructor: one octant on rank 0, `lmin` refinements, load balancing. -/
def start [NeZero P] (e L lmin : ℕ) (periodic : Fin d → Bool) : Option (Ranks d P) :=
  balance e L (cube lmin periodic) 0
    ⟨fun r => if (r : ℕ) = 0 then refineAll^[lmin] [⟨0, fun _ => 0⟩] else [], fun _ => ∅, allFaces⟩

/-- L631-722 `adapt`, with requested markers `mk`. -/
def adapt [NeZero P] (e L : ℕ) (G : Grid d) (mk : Oct d → ℤ) (s : Ranks d P) : Option (Ranks d P) :=
  (adaptMarkers G s.dist s.mesh (2 * s.mesh.card + 1) (2 * s.mesh.card + 1) mk).bind fun f =>
    let new := fun r => newLeaves f (s.octs r)
    (currentIntervals e L (List.ofFn new)).map fun I => ⟨new, discovered e L G I new, allFaces⟩

end Verif.RunOld
