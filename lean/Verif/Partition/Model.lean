import Verif.Octree.Order
import Verif.Adapt.Model
import Mathlib.Data.Rat.Floor

/-!
# Model of the domain decomposition

Files `core/src/amr/AMRmesh_hashmap_new.cpp` and `core/src/amr/LightOctree_hashmap.h`.

Morton keys are natural numbers (`Verif.Morton.zkey`, with `e` bits per level; the code has `e = 3`
except in the constructor). `Verif.Morton` proves that the 64-bit machine keys equal them for levels
up to 21. The array `morton_intervals` of `P+1` keys is a function on `ℕ`.
-/

namespace Verif.Partition

open Verif.Octree Verif.Morton Verif.Adapt

variable {d : ℕ}

/-- L228-234 `shift_level`, from level `l` to level `t`. -/
def shiftKey (e m l t : ℕ) : ℕ :=
  if l ≤ t then m * 2 ^ (e * (t - l)) else m / 2 ^ (e * (l - t))

/-- L238-244 and L312-317 `compute_morton`: key of an octant on the grid of level `L`. -/
def mkey (e L : ℕ) (o : Oct d) : ℕ := shiftKey e (zkey d e o.level o.pos) o.level L

/-- L322-334: `upper_bound`, first index in `[b, en)` with `I > m`. -/
def upperBound (I : ℕ → ℕ) (m b en : ℕ) : ℕ :=
  if b < en then
    let p := b + (en - b) / 2
    if I p ≤ m then upperBound I m (p + 1) en else upperBound I m b p
  else b
termination_by en - b

/-- L319-342 `find_rank`: the rank just before the upper bound (-1 if there is none). -/
def findRank (I : ℕ → ℕ) (P m : ℕ) : ℤ := (upperBound I m 0 P : ℤ) - 1

/-- L374-376: the neighbour position is inside the domain or the direction is periodic. A negative
position wraps to a large unsigned number there and fails the comparison. -/
def insideDomain (G : Grid d) (a : Oct d) (off : Fin d → SignType) : Bool :=
  decide (∀ i, G.periodic i = true ∨
    (0 ≤ (a.pos i : ℤ) + (off i : ℤ) ∧ (a.pos i : ℤ) + (off i : ℤ) < cellCount G i a.level))

/-- L378-382: position of the same-size neighbour. -/
def wrapPos (G : Grid d) (a : Oct d) (off : Fin d → SignType) (i : Fin d) : ℕ :=
  ((a.pos i : ℤ) + (off i : ℤ) + cellCount G i a.level).toNat % cellCount G i a.level

/-- L411-433: the suboctants of the same-size neighbour along the shared face, edge or corner. -/
def subOctants (l : ℕ) (p : Fin d → ℕ) (off : Fin d → SignType) : List (Oct d) :=
  (loops fun i => if off i = 0 then [0, 1] else [0]).map fun s =>
    ⟨l + 1, fun i => (p i <<< 1) + (if off i = -1 then 1 else 0) + s i⟩

/-- L373-435: ranks registered for one direction. -/
def registerDir (e L : ℕ) (G : Grid d) (I : ℕ → ℕ) (P : ℕ) (a : Oct d)
    (off : Fin d → SignType) : List ℤ :=
  if insideDomain G a off then
    let n : Oct d := ⟨a.level, wrapPos G a off⟩
    let m := mkey e L n
    let next := shiftKey e (shiftKey e m L a.level + 1) a.level L
    if a.level < L ∧ next < I (upperBound I m 0 P) then [findRank I P m]
    else (subOctants a.level n.pos off).map fun s => findRank I P (mkey e L s)
  else []

/-- L361-435 and L345-359: ranks that receive the octant `a` of rank `rank` as a ghost. Insertion in
the hash map and the restart after a failed insertion (L303-446) are modelled by the resulting
set. -/
def ghostRanks (e L : ℕ) (G : Grid d) (I : ℕ → ℕ) (P rank : ℕ) (a : Oct d) : List ℤ :=
  ((directions d).flatMap (registerDir e L G I P a)).filter fun r => r ≠ (rank : ℤ)

/-- A face of an octant: its direction, and `true` for the upper side. -/
abbrev Face (d : ℕ) : Type := Fin d × Bool

/-- L386-397: the face registered for the direction `off` is that of the first component that is not 0. -/
def faceOf (off : Fin d → SignType) : Option (Face d) :=
  ((List.finRange d).find? fun j => off j ≠ 0).map fun j => (j, decide (off j = 1))

/-- L345-359: the mask with which the octant `a` of rank `rank` is sent to rank `s`, as the list of its faces. Bits are
set with `atomic_or`. -/
def faceMask (e L : ℕ) (G : Grid d) (I : ℕ → ℕ) (P rank : ℕ) (a : Oct d) (s : ℕ) : List (Face d) :=
  if s = rank then []
  else (directions d).filterMap fun off => if (s : ℤ) ∈ registerDir e L G I P a off then faceOf off else none

/-- `GhostCommunicator_partial_blocks.cpp` L5-99 (C21): the cell `y` of a block is exchanged with the faces `F`, that is,
it is in one of the `gc` layers at one of these faces. -/
def InLayers (blk : Fin d → ℕ) (gc : ℕ) (F : List (Face d)) (y : Fin d → ℕ) : Prop :=
  ∃ f ∈ F, if f.2 = true then blk f.1 ≤ y f.1 + gc else y f.1 < gc

instance (blk : Fin d → ℕ) (gc : ℕ) (F : List (Face d)) (y : Fin d → ℕ) : Decidable (InLayers blk gc F y) := by
  unfold InLayers; infer_instance

/-! ### `getDomainFromPos` -/

/-- `LightOctree_hashmap.h` L50-62: key of the first octant of a rank, from its corner, on a grid of
`2^max_level` octants per direction. Exact arithmetic. -/
def firstMorton (e L : ℕ) (G : Grid d) (o : Oct d) : ℕ :=
  zkey d e L fun i => ⌊((o.pos i : ℚ) * (1 / cellCount G i o.level)) / (1 / (2 : ℚ) ^ L)⌋₊

/-- `LightOctree_hashmap.h` L320-331: key of a position, on the grid of `cell_count(max_level)`. -/
def posMorton (e L : ℕ) (G : Grid d) (x : Fin d → ℚ) : ℕ :=
  zkey d e L fun i => ⌊x i / (1 / (cellCount G i L : ℚ))⌋₊

/-- `LightOctree_hashmap.h` L333-344: first `i` with `morton_intervals(i) > morton`, minus 1
(-1 if there is none). The array has `P+1` entries. -/
def scanIntervals (J : ℕ → ℕ) (P m : ℕ) : ℤ :=
  match (List.range (P + 1)).find? fun i => decide (m < J i) with
  | some i => (i : ℤ) - 1
  | none => -1

/-- `LightOctree_hashmap.h` L46-66: the array `morton_intervals`; `none` if a rank has no octant
(octant 0 is read from empty storage). -/
def lightIntervals (e L : ℕ) (G : Grid d) (ls : List (List (Oct d))) (i : ℕ) : Option ℕ :=
  if h : i < ls.length then (ls[i].head?).map (firstMorton e L G)
  else some (2 ^ 64 - 1)

/-! ### Intervals from the first octant of each rank -/

/-- L560-562 and L929-931: ranks without octants (entry 0) get the begin of the next rank. Entry 0 is
never changed. The loop goes down from the last rank; `v` are the gathered values, `top` the last
entry. -/
def backfill (v : ℕ → ℕ) (top P : ℕ) : ℕ → ℕ := fun i =>
  if i = 0 then v 0 else go (P - i) i
where
  /-- value at `i`, with `k` = number of ranks from `i` to the end -/
  go : ℕ → ℕ → ℕ
    | 0, _ => top
    | k + 1, i => if v i = 0 then go k (i + 1) else v i

/-- L552-555: begin of a rank's interval before load balancing, 0 if it has no octant. -/
def beginKey (e L : ℕ) (l : List (Oct d)) : ℕ :=
  match l with
  | [] => 0
  | a :: _ => mkey e L a

/-- L556-564: old intervals used by `loadBalance`. -/
def oldIntervals (e L : ℕ) (ls : List (List (Oct d))) : ℕ → ℕ := fun i =>
  if i < ls.length then backfill (fun r => beginKey e L (ls.getD r [])) (2 ^ 64 - 1) ls.length i
  else 2 ^ 64 - 1

/-- L908-932: new intervals computed by `adapt`. The test at L912 looks at the old storage; `none`
if the old storage of some rank has octants but the new one has none (octant 0 is read from empty
storage). -/
def adaptIntervals (e L : ℕ) (old new : List (List (Oct d))) : Option (ℕ → ℕ) :=
  if (List.range old.length).all fun r => (old.getD r []).isEmpty || !(new.getD r []).isEmpty then
    some fun i => if i < new.length then
      backfill (fun r => if (old.getD r []).isEmpty then 0 else beginKey e L (new.getD r []))
        (2 ^ 64 - 1) new.length i
      else 2 ^ 64 - 1
  else none

/-! ### `loadBalance` -/

/-- `MpiComm_mpi.tpp` L81-96 `MPI_Allgatherv_inplace`: entry `i` of the result comes from the buffer
of the rank `r` with `displs r ≤ i < displs r + counts r`. -/
def displs (counts : ℕ → ℕ) (r : ℕ) : ℕ := ((List.range r).map counts).sum

def allgatherv {α : Type} (P : ℕ) (counts : ℕ → ℕ) (buf : ℕ → ℕ → α) (i : ℕ) : Option α :=
  ((List.range P).find? fun r => decide (displs counts r ≤ i ∧ i < displs counts r + counts r)).map
    fun r => buf r i

/-- `AMRmesh_hashmap_new.h` L68-71 `getGlobalIdx(0)`: number of octants on lower ranks. -/
def firstIdx (ls : List (List (Oct d))) (r : ℕ) : ℕ := (ls.take r).flatten.length

/-- L511: global index of the first octant of rank `i` when octants are evenly distributed. -/
def evenIdx (N P i : ℕ) : ℕ := N * i / P

/-- L514: index `x` belongs to rank `r`. -/
def inRank (ls : List (List (Oct d))) (r x : ℕ) : Bool :=
  decide (firstIdx ls r ≤ x ∧ x < firstIdx ls r + (ls.getD r []).length)

/-- L509-522: keys at evenly distributed indices, gathered. The buffers start with zeros. -/
def rawCuts (e L : ℕ) (ls : List (List (Oct d))) (i : ℕ) : Option ℕ :=
  let P := ls.length
  let N := ls.flatten.length
  allgatherv P (fun r => ((List.range P).filter fun i => inRank ls r (evenIdx N P i)).length)
    (fun r i => if inRank ls r (evenIdx N P i) then
        ((ls.getD r [])[evenIdx N P i - firstIdx ls r]?).elim 0 (mkey e L)
      else 0) i

/-- L534: drop `k` levels of suboctants. -/
def truncKey (e m k : ℕ) : ℕ := m / 2 ^ (e * k) * 2 ^ (e * k)

/-- L529-536: largest `k ≤ level` such that the truncated key is above the previous cut, or 0. -/
def adjust (e prev m : ℕ) : ℕ → ℕ
  | 0 => 0
  | k + 1 => if truncKey e m (k + 1) ≤ prev then adjust e prev m k else k + 1

/-- L523-540: the new intervals; `raw` are the gathered keys. -/
def newCut (e level : ℕ) (raw : ℕ → ℕ) : ℕ → ℕ
  | 0 => 0
  | r + 1 => truncKey e (raw (r + 1)) (adjust e (newCut e level raw r) (raw (r + 1)) level)

def newIntervals (e level P : ℕ) (raw : ℕ → ℕ) (r : ℕ) : ℕ :=
  if r < P then newCut e level raw r else 2 ^ 64 - 1

/-- L247-266 `lower_bound_morton`, loop. -/
def lowerBoundLoop (key : ℕ → ℕ) (m b en : ℕ) : ℕ :=
  if b < en then
    let p := b + (en - b) / 2
    if key p = m then p
    else if key p < m then lowerBoundLoop key m (p + 1) en
    else lowerBoundLoop key m b p
  else b
termination_by en - b

/-- L247-266 `lower_bound_morton` on a non-empty list. -/
def lowerBound (e L : ℕ) (l : List (Oct d)) (m : ℕ) : ℕ :=
  lowerBoundLoop (fun i => (l[i]?).elim 0 (mkey e L)) m 0 (l.length - 1)

/-- L569-582: first global index of each new rank, gathered. -/
def newOct (e L : ℕ) (ls : List (List (Oct d))) (I : ℕ → ℕ) (i : ℕ) : Option ℕ :=
  let P := ls.length
  let old := oldIntervals e L ls
  let mine := fun r i => decide (old r ≤ I i ∧ I i < old (r + 1))
  if i < P then
    allgatherv P (fun r => ((List.range P).filter (mine r)).length)
      (fun r i => if mine r i then firstIdx ls r + lowerBound e L (ls.getD r []) (I i) else 0) i
  else some ls.flatten.length

/-- L603-613: number of octants that rank `r` sends to rank `s`. -/
def sendSize (ls : List (List (Oct d))) (J : ℕ → ℕ) (r s : ℕ) : ℕ :=
  let b := max (J s) (firstIdx ls r)
  let en := min (J (s + 1)) (firstIdx ls r + (ls.getD r []).length)
  if b < en then en - b else 0

/-- L588-628: rank `s` receives from every rank, in rank order, a contiguous part of its octants
(`send_iOcts` is the identity; the communicator sends consecutive parts, see C19). -/
def exchanged (ls : List (List (Oct d))) (J : ℕ → ℕ) (s : ℕ) : List (Oct d) :=
  (List.range ls.length).flatMap fun r =>
    ((ls.getD r []).drop (displs (sendSize ls J r) s)).take (sendSize ls J r s)

/-- L496-674 `loadBalance`: new octants of every rank and new intervals. `none` if a gathered entry
is undefined or an assertion fails (L542 strictly increasing intervals; L586; L671). -/
def loadBalance (e L level : ℕ) (ls : List (List (Oct d))) :
    Option (List (List (Oct d)) × (ℕ → ℕ)) :=
  let P := ls.length
  if (List.range P).all fun i => (rawCuts e L ls i).isSome then
    let I := newIntervals e level P fun i => (rawCuts e L ls i).getD 0
    if (List.range P).all fun i => decide (I i < I (i + 1)) then
      if (List.range P).all fun i => (newOct e L ls I i).isSome then
        let J := fun i => (newOct e L ls I i).getD 0
        if (List.range P).all fun i => decide (J i ≤ J (i + 1)) &&
            !(exchanged ls J i).isEmpty then
          some ((List.range P).map (exchanged ls J), I)
        else none
      else none
    else none
  else none

end Verif.Partition
