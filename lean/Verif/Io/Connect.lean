import Verif.Io.Ranges
import Mathlib.Data.Rat.Defs
import Mathlib.Algebra.Order.Ring.Rat
import Mathlib.Tactic.IntervalCases
import Mathlib.Tactic.FinCases
import Mathlib.Tactic.NormNum
import Mathlib.Data.Fin.VecNotation
import Mathlib.Data.List.GetD
import Mathlib.Data.Fintype.Basic

/-!
# C37: connectivity of the visualisation output

Model of the parts of `IOManager_hdf5::save_snapshot_aux` (`core/src/io/IOManager_hdf5.cpp`) that write
node coordinates (L346-377), connectivity (L381-412) and cell values (L334-337, L455-464).

Coordinates are in exact arithmetic. `corner` and `size` are `getCorner` and `getSize` of the octants of
type `β`; the ranks' octants are a list of lists.
-/

namespace Verif.Io

variable {β : Type}

/-! ### Model -/

/-- L217-231: dimension and block size. -/
structure Block where
  ndim : ℕ
  b : Fin 3 → ℕ

/-- L218. -/
def Block.nbNodesPerCell (B : Block) : ℕ := (B.ndim - 1) * 4

/-- L227. -/
def Block.nbCellsPerOct (B : Block) : ℕ := B.b 0 * B.b 1 * B.b 2

/-- L228-230: `Bx`, `By`, `Bz`. -/
def Block.nodes (B : Block) (c : Fin 3) : ℕ := if c = 2 then (if B.ndim = 3 then B.b 2 + 1 else 1) else B.b c + 1

/-- L231. -/
def Block.nbNodesPerOct (B : Block) : ℕ := B.nodes 0 * B.nodes 1 * B.nodes 2

/-- Domain: lower corner and extent, L352-357. -/
structure Box where
  min : Fin 3 → ℚ
  len : Fin 3 → ℚ

/-- L363-367: logical position of a node in its octant. -/
def nodePos (B : Block) (iNode : ℕ) : Fin 3 → ℕ :=
  ![iNode % B.nodes 0, iNode / B.nodes 0 % B.nodes 1, iNode / (B.nodes 0 * B.nodes 1)]

/-- L360-374 on one rank: the coordinates of its nodes; the number of nodes is a `uint32_t`. `none` if
the octant does not exist. -/
def coordinates (B : Block) (D : Box) (corner size : β → Fin 3 → ℚ) (octs : List β) :
    List (Option (Fin 3 → ℚ)) :=
  (List.range (octs.length * B.nbNodesPerOct % 2 ^ 32)).map fun index =>
    octs[index / B.nbNodesPerOct]?.map fun o c =>
      D.min c + (corner o c + ((nodePos B (index % B.nbNodesPerOct) c : ℕ) * size o c) / B.b c) * D.len c

/-- L397. -/
def nodeShuffle : List ℕ := [0, 1, 3, 2, 4, 5, 7, 6]

/-- L390-408: node `iNodeCell` of local cell `iCell`. -/
def nodeIndex (B : Block) (firstOct iCell iNodeCell : ℕ) : ℕ :=
  let iOct := iCell / B.nbCellsPerOct
  let iNodeBlock := iCell % B.nbCellsPerOct
  let s := nodeShuffle.getD iNodeCell 0
  let iCellPos := s % 2
  let jCellPos := s / 2 % 2
  let kCellPos := s / 4
  let iBlock := iNodeBlock % B.b 0
  let jBlock := iNodeBlock / B.b 0 % B.b 1
  let kBlock := iNodeBlock / (B.b 0 * B.b 1)
  (firstOct + iOct) * B.nbNodesPerOct + (iCellPos + iBlock) + (jCellPos + jBlock) * B.nodes 0 +
    (kCellPos + kBlock) * B.nodes 0 * B.nodes 1

/-- L379-409 on one rank: `local_num_cells` is a `uint32_t` and so is the number of iterations of the
loop; entries that are not written are 0. -/
def connectivity (B : Block) (firstOct nOcts : ℕ) : List (List ℕ) :=
  (List.range (nOcts * B.nbCellsPerOct % 2 ^ 32)).map fun iCell =>
    (List.range B.nbNodesPerCell).map fun n =>
      if iCell * B.nbNodesPerCell + n <
          nOcts * B.nbCellsPerOct % 2 ^ 32 * B.nbNodesPerCell % 2 ^ 32 then
        nodeIndex B firstOct iCell n else 0

/-- L334-337: position of the value of a cell in the local array of a variable (no 32-bit overflow). -/
def linearize (B : Block) (iOct : ℕ) (p : Fin 3 → ℕ) : ℕ :=
  p 0 + B.b 0 * (p 1 + B.b 1 * (p 2 + B.b 2 * iOct))

/-- The datasets `coordinates` and `connectivity` of the file, see C36. `getGlobalIdx(0)` (L383) is the
number of octants of the previous ranks. -/
def coordinatesFile (B : Block) (D : Box) (corner size : β → Fin 3 → ℚ) (ranks : List (List β)) :
    List (Option (Fin 3 → ℚ)) :=
  (ranks.map (coordinates B D corner size)).flatten

def connectivityFile (B : Block) (ranks : List (List β)) : List (List ℕ) :=
  ((List.range ranks.length).map fun r =>
    connectivity B (before (ranks.map List.length) r) (ranks.getD r []).length).flatten

/-! ### Specification -/

/-- Corners of a quadrilateral (first four) and of a hexahedron in the order that XDMF and VTK expect:
counter-clockwise around the lower face, then around the upper face. -/
def vtkCorner : ℕ → Fin 3 → ℕ
  | 0 => ![0, 0, 0]
  | 1 => ![1, 0, 0]
  | 2 => ![1, 1, 0]
  | 3 => ![0, 1, 0]
  | 4 => ![0, 0, 1]
  | 5 => ![1, 0, 1]
  | 6 => ![1, 1, 1]
  | _ => ![0, 1, 1]

/-- Position of a corner of the cell at logical position `p` in octant `o`: the octant is divided into
`b` cells in each direction. -/
def cornerOfCell (B : Block) (D : Box) (corner size : β → Fin 3 → ℚ) (o : β) (p : Fin 3 → ℕ)
    (n : ℕ) (c : Fin 3) : ℚ :=
  D.min c + D.len c * (corner o c + (p c + vtkCorner n c : ℕ) * (size o c / B.b c))

/-- 2D blocks have one layer of cells. -/
structure Block.WF (B : Block) : Prop where
  pos : ∀ c, 0 < B.b c
  dim : B.ndim = 3 ∨ (B.ndim = 2 ∧ B.b 2 = 1)

/-- Number of octants on every rank small enough for the 32-bit counters. -/
def SmallRanks (B : Block) (ranks : List (List β)) : Prop :=
  ∀ l ∈ ranks, l.length * B.nbNodesPerOct < 2 ^ 32 ∧
    l.length * B.nbCellsPerOct * B.nbNodesPerCell < 2 ^ 32

/-! ### Lemmas -/

theorem div_of_lt {a b c : ℕ} (h : c < b) : (a * b + c) / b = a := by
  rw [Nat.mul_comm, Nat.mul_add_div (by omega), Nat.div_eq_of_lt h, Nat.add_zero]

theorem mod_of_lt {a b c : ℕ} (h : c < b) : (a * b + c) % b = c := by
  rw [Nat.mul_comm, Nat.mul_add_mod, Nat.mod_eq_of_lt h]

/-- Digits of a number in mixed base `x, y`. -/
theorem digits3 {x y i j : ℕ} (hi : i < x) (hj : j < y) (k : ℕ) :
    (i + x * (j + y * k)) % x = i ∧ (i + x * (j + y * k)) / x % y = j ∧
      (i + x * (j + y * k)) / (x * y) = k := by
  have hx : 0 < x := by omega
  have hy : 0 < y := by omega
  have e : (i + x * (j + y * k)) / x = j + y * k := by
    rw [Nat.add_mul_div_left _ _ hx, Nat.div_eq_of_lt hi, Nat.zero_add]
  refine ⟨by rw [Nat.add_mul_mod_self_left, Nat.mod_eq_of_lt hi], ?_, ?_⟩
  · rw [e, Nat.add_mul_mod_self_left, Nat.mod_eq_of_lt hj]
  · rw [← Nat.div_div_eq_div_mul, e, Nat.add_mul_div_left _ _ hy, Nat.div_eq_of_lt hj, Nat.zero_add]

theorem mixed_lt {x y z i j k : ℕ} (hi : i < x) (hj : j < y) (hk : k < z) :
    i + x * (j + y * k) < x * y * z := by
  have h1 : j + y * k < y * z := by
    calc j + y * k < y + y * k := by omega
      _ = y * (k + 1) := by ring
      _ ≤ y * z := Nat.mul_le_mul_left _ hk
  calc i + x * (j + y * k) < x + x * (j + y * k) := by omega
    _ = x * (j + y * k + 1) := by ring
    _ ≤ x * (y * z) := Nat.mul_le_mul_left _ h1
    _ = x * y * z := by ring

theorem shuffle_vtk {n : ℕ} (hn : n < 8) :
    nodeShuffle.getD n 0 % 2 = vtkCorner n 0 ∧ nodeShuffle.getD n 0 / 2 % 2 = vtkCorner n 1 ∧
      nodeShuffle.getD n 0 / 4 = vtkCorner n 2 := by
  interval_cases n <;> decide

theorem vtkCorner_le (n : ℕ) (c : Fin 3) : vtkCorner n c ≤ 1 := by
  unfold vtkCorner; split <;> (revert c; decide)

theorem vtkCorner_lt_four {n : ℕ} (hn : n < 4) : vtkCorner n 2 = 0 := by
  interval_cases n <;> rfl

theorem before_scale (n : List ℕ) (k r : ℕ) : before (n.map (· * k)) r = before n r * k := by
  unfold before
  induction n generalizing r with
  | nil => simp
  | cons a n ih =>
    cases r with
    | zero => simp
    | succ r => simp only [List.map_cons, List.take_succ_cons, List.sum_cons, ih]; ring

section

variable {B : Block} (hB : B.WF)
include hB

theorem Block.WF.nodesPerCell_le : B.nbNodesPerCell ≤ 8 := by
  unfold Block.nbNodesPerCell; rcases hB.dim with h | h <;> omega

/-- Nodes of a cell: logical position of the corner in the octant. -/
theorem Block.WF.node_lt {p : Fin 3 → ℕ} (hp : ∀ c, p c < B.b c) {n : ℕ} (hn : n < B.nbNodesPerCell)
    (c : Fin 3) : p c + vtkCorner n c < B.nodes c := by
  have h1 := hp c
  have h2 := vtkCorner_le n c
  unfold Block.nodes
  by_cases hc : c = 2
  · subst hc
    rw [if_pos rfl]
    rcases hB.dim with h | ⟨h, h'⟩
    · rw [if_pos h]; omega
    · rw [if_neg (by omega)]
      have : n < 4 := by unfold Block.nbNodesPerCell at hn; omega
      have := vtkCorner_lt_four this
      omega
  · rw [if_neg hc]; omega

theorem nodeIndex_eq (first iOct : ℕ) {p : Fin 3 → ℕ} (hp : ∀ c, p c < B.b c) {n : ℕ}
    (hn : n < B.nbNodesPerCell) :
    nodeIndex B first (linearize B iOct p) n = (first + iOct) * B.nbNodesPerOct +
      ((p 0 + vtkCorner n 0) + B.nodes 0 * ((p 1 + vtkCorner n 1) + B.nodes 1 *
        (p 2 + vtkCorner n 2))) := by
  have h0 := hp 0
  have h1 := hp 1
  have h2 := hp 2
  have e : linearize B iOct p = (p 0 + B.b 0 * (p 1 + B.b 1 * p 2)) + B.nbCellsPerOct * iOct := by
    unfold linearize Block.nbCellsPerOct; ring
  have hlt : p 0 + B.b 0 * (p 1 + B.b 1 * p 2) < B.nbCellsPerOct := mixed_lt h0 h1 h2
  have e1 : linearize B iOct p / B.nbCellsPerOct = iOct := by
    rw [e, Nat.add_mul_div_left _ _ (by omega), Nat.div_eq_of_lt hlt, Nat.zero_add]
  have e2 : linearize B iOct p % B.nbCellsPerOct = p 0 + B.b 0 * (p 1 + B.b 1 * p 2) := by
    rw [e, Nat.add_mul_mod_self_left, Nat.mod_eq_of_lt hlt]
  obtain ⟨d1, d2, d3⟩ := digits3 h0 h1 (p 2)
  obtain ⟨s1, s2, s3⟩ := shuffle_vtk (lt_of_lt_of_le hn hB.nodesPerCell_le)
  unfold nodeIndex
  simp only [e1, e2, d1, d2, d3, s1, s2, s3]
  ring

/-- The local part of a node index. -/
theorem localNode_lt {p : Fin 3 → ℕ} (hp : ∀ c, p c < B.b c) {n : ℕ} (hn : n < B.nbNodesPerCell) :
    (p 0 + vtkCorner n 0) + B.nodes 0 * ((p 1 + vtkCorner n 1) + B.nodes 1 *
        (p 2 + vtkCorner n 2)) < B.nbNodesPerOct :=
  mixed_lt (hB.node_lt hp hn 0) (hB.node_lt hp hn 1) (hB.node_lt hp hn 2)

omit hB in
theorem linearize_lt {nOcts iOct : ℕ} (ho : iOct < nOcts) {p : Fin 3 → ℕ} (hp : ∀ c, p c < B.b c) :
    linearize B iOct p < nOcts * B.nbCellsPerOct := by
  have hlt : p 0 + B.b 0 * (p 1 + B.b 1 * p 2) < B.nbCellsPerOct := mixed_lt (hp 0) (hp 1) (hp 2)
  calc linearize B iOct p = (p 0 + B.b 0 * (p 1 + B.b 1 * p 2)) + B.nbCellsPerOct * iOct := by
        unfold linearize Block.nbCellsPerOct; ring
    _ < B.nbCellsPerOct + B.nbCellsPerOct * iOct := by omega
    _ = (iOct + 1) * B.nbCellsPerOct := by ring
    _ ≤ nOcts * B.nbCellsPerOct := Nat.mul_le_mul_right _ ho

theorem nodesPerCell_pos : 0 < B.nbNodesPerCell := by
  unfold Block.nbNodesPerCell; rcases hB.dim with h | h <;> omega

theorem cells_lt {nOcts : ℕ} (h : nOcts * B.nbCellsPerOct * B.nbNodesPerCell < 2 ^ 32) :
    nOcts * B.nbCellsPerOct < 2 ^ 32 :=
  lt_of_le_of_lt (Nat.le_mul_of_pos_right _ (nodesPerCell_pos hB)) h

theorem connectivity_length {first nOcts : ℕ}
    (h : nOcts * B.nbCellsPerOct * B.nbNodesPerCell < 2 ^ 32) :
    (connectivity B first nOcts).length = nOcts * B.nbCellsPerOct := by
  unfold connectivity
  rw [List.length_map, List.length_range, Nat.mod_eq_of_lt (cells_lt hB h)]

theorem connectivity_get {first nOcts iCell : ℕ}
    (h : nOcts * B.nbCellsPerOct * B.nbNodesPerCell < 2 ^ 32) (hc : iCell < nOcts * B.nbCellsPerOct) :
    (connectivity B first nOcts)[iCell]? =
      some ((List.range B.nbNodesPerCell).map (nodeIndex B first iCell)) := by
  have h1 := Nat.mod_eq_of_lt (cells_lt hB h)
  unfold connectivity
  rw [h1, List.getElem?_map, List.getElem?_range hc, Option.map_some, Option.some.injEq]
  apply List.map_congr_left
  intro n hn
  have hn : n < B.nbNodesPerCell := by simpa using hn
  rw [if_pos]
  rw [Nat.mod_eq_of_lt h]
  calc iCell * B.nbNodesPerCell + n < iCell * B.nbNodesPerCell + B.nbNodesPerCell := by omega
    _ = (iCell + 1) * B.nbNodesPerCell := by ring
    _ ≤ _ := Nat.mul_le_mul_right _ hc

omit hB in
theorem ranks_get {ranks : List (List β)} {r : ℕ} (hr : r < ranks.length) :
    ranks.getD r [] ∈ ranks ∧ (ranks.map List.length).getD r 0 = (ranks.getD r []).length := by
  constructor
  · rw [List.getD_eq_getElem _ _ hr]; exact List.getElem_mem hr
  · exact getD_length ranks hr

theorem connectivity_lengths {ranks : List (List β)} (hs : SmallRanks B ranks) :
    ((List.range ranks.length).map fun r => connectivity B (before (ranks.map List.length) r)
      (ranks.getD r []).length).map List.length =
      (ranks.map List.length).map (· * B.nbCellsPerOct) := by
  apply List.ext_getElem
  · simp
  · intro r h1 h2
    have hr : r < ranks.length := by simpa using h2
    simp only [List.getElem_map, List.getElem_range]
    rw [connectivity_length hB (hs _ (ranks_get hr).1).2, List.getD_eq_getElem _ _ hr]

/-- Entry of the connectivity dataset for a cell. -/
theorem connectivityFile_get {ranks : List (List β)} (hs : SmallRanks B ranks) {r iOct : ℕ}
    (hr : r < ranks.length) (ho : iOct < (ranks.getD r []).length) {p : Fin 3 → ℕ}
    (hp : ∀ c, p c < B.b c) :
    (connectivityFile B ranks)[before (ranks.map List.length) r * B.nbCellsPerOct +
        linearize B iOct p]? = some ((List.range B.nbNodesPerCell).map fun n =>
      (before (ranks.map List.length) r + iOct) * B.nbNodesPerOct +
        ((p 0 + vtkCorner n 0) + B.nodes 0 * ((p 1 + vtkCorner n 1) + B.nodes 1 *
        (p 2 + vtkCorner n 2)))) := by
  have hl := connectivity_lengths hB hs
  have hc := linearize_lt ho hp
  have hsm := (hs _ (ranks_get hr).1).2
  unfold connectivityFile
  have hr' : r < ((List.range ranks.length).map fun r => connectivity B
    (before (ranks.map List.length) r) (ranks.getD r []).length).length := by simpa using hr
  have := flatten_get _ hr' (j := linearize B iOct p) (by
    rw [getD_length _ hr', List.getD_eq_getElem _ _ hr']
    simp only [List.getElem_map, List.getElem_range]
    rw [connectivity_length hB hsm]; exact hc)
  rw [hl, before_scale, List.getD_eq_getElem _ _ hr'] at this
  rw [this]
  simp only [List.getElem_map, List.getElem_range]
  rw [connectivity_get hB hsm hc, Option.some.injEq]
  apply List.map_congr_left
  intro n hn
  exact nodeIndex_eq hB _ _ hp (by simpa using hn)

omit hB in
theorem coordinates_lengths {ranks : List (List β)} (hs : SmallRanks B ranks) (D : Box)
    (corner size : β → Fin 3 → ℚ) :
    (ranks.map (coordinates B D corner size)).map List.length =
      (ranks.map List.length).map (· * B.nbNodesPerOct) := by
  rw [List.map_map, List.map_map]
  apply List.map_congr_left
  intro l hl
  simp only [Function.comp, coordinates, List.length_map, List.length_range]
  exact Nat.mod_eq_of_lt (hs l hl).1

omit hB in
/-- Entry of the coordinates dataset for a node of an octant. -/
theorem coordinatesFile_get {ranks : List (List β)} (hs : SmallRanks B ranks) (D : Box)
    (corner size : β → Fin 3 → ℚ) {r iOct : ℕ} (hr : r < ranks.length)
    (ho : iOct < (ranks.getD r []).length) {q : Fin 3 → ℕ} (hq : ∀ c, q c < B.nodes c) :
    (coordinatesFile B D corner size ranks)[(before (ranks.map List.length) r + iOct) *
        B.nbNodesPerOct + (q 0 + B.nodes 0 * (q 1 + B.nodes 1 * q 2))]? =
      some ((ranks.getD r [])[iOct]?.map fun o c =>
        D.min c + (corner o c + ((q c : ℕ) * size o c) / B.b c) * D.len c) := by
  have hl := coordinates_lengths hs D corner size
  have hsm := (hs _ (ranks_get hr).1).1
  have hlt : q 0 + B.nodes 0 * (q 1 + B.nodes 1 * q 2) < B.nbNodesPerOct :=
    mixed_lt (hq 0) (hq 1) (hq 2)
  have hlt2 : iOct * B.nbNodesPerOct + (q 0 + B.nodes 0 * (q 1 + B.nodes 1 * q 2)) <
      (ranks.getD r []).length * B.nbNodesPerOct := by
    calc _ < iOct * B.nbNodesPerOct + B.nbNodesPerOct := by omega
      _ = (iOct + 1) * B.nbNodesPerOct := by ring
      _ ≤ _ := Nat.mul_le_mul_right _ ho
  have hr' : r < (ranks.map (coordinates B D corner size)).length := by simpa using hr
  have eg : (ranks.map (coordinates B D corner size)).getD r [] =
      coordinates B D corner size (ranks.getD r []) := by
    rw [List.getD_eq_getElem _ _ hr', List.getD_eq_getElem _ _ hr, List.getElem_map]
  have := flatten_get _ hr' (j := iOct * B.nbNodesPerOct +
      (q 0 + B.nodes 0 * (q 1 + B.nodes 1 * q 2))) (by
    rw [getD_length _ hr', eg]
    simp only [coordinates, List.length_map, List.length_range]
    rw [Nat.mod_eq_of_lt hsm]; exact hlt2)
  rw [hl, before_scale, eg, ← Nat.add_assoc, ← Nat.add_mul] at this
  unfold coordinatesFile
  rw [this]
  unfold coordinates
  rw [Nat.mod_eq_of_lt hsm, List.getElem?_map, List.getElem?_range hlt2, Option.map_some,
    Option.some.injEq]
  have e1 : (iOct * B.nbNodesPerOct + (q 0 + B.nodes 0 * (q 1 + B.nodes 1 * q 2))) /
      B.nbNodesPerOct = iOct := div_of_lt hlt
  have e2 : (iOct * B.nbNodesPerOct + (q 0 + B.nodes 0 * (q 1 + B.nodes 1 * q 2))) %
      B.nbNodesPerOct = q 0 + B.nodes 0 * (q 1 + B.nodes 1 * q 2) := mod_of_lt hlt
  rw [e1, e2]
  obtain ⟨d1, d2, d3⟩ := digits3 (hq 0) (hq 1) (q 2)
  have e3 : nodePos B (q 0 + B.nodes 0 * (q 1 + B.nodes 1 * q 2)) = q := by
    unfold nodePos
    rw [d1, d2, d3]
    funext c
    fin_cases c <;> rfl
  rw [e3]

/-! ### Properties -/

/-- Every cell of every octant of every rank: its entry of the connectivity dataset, at the index of
its values, lists the nodes whose coordinates are the corners of the cell, in the order that the
visualisation expects. -/
theorem C37_cell_corners {ranks : List (List β)} (hs : SmallRanks B ranks) (D : Box)
    (corner size : β → Fin 3 → ℚ) {r iOct : ℕ} (hr : r < ranks.length)
    (ho : iOct < (ranks.getD r []).length) {p : Fin 3 → ℕ} (hp : ∀ c, p c < B.b c) :
    ∃ nodes : List ℕ, (connectivityFile B ranks)[before (ranks.map List.length) r *
        B.nbCellsPerOct + linearize B iOct p]? = some nodes ∧ nodes.length = B.nbNodesPerCell ∧
      ∀ n (hn : n < nodes.length), (coordinatesFile B D corner size ranks)[nodes[n]]? =
        some (some (cornerOfCell B D corner size ((ranks.getD r [])[iOct]) p n)) := by
  refine ⟨_, connectivityFile_get hB hs hr ho hp, by simp, fun n hn => ?_⟩
  have hn' : n < B.nbNodesPerCell := by simpa using hn
  simp only [List.getElem_map, List.getElem_range]
  have := coordinatesFile_get hs D corner size hr ho (q := fun c => p c + vtkCorner n c)
    (hB.node_lt hp hn')
  rw [this, List.getElem?_eq_getElem ho, Option.map_some]
  congr 2
  funext c
  unfold cornerOfCell
  ring

/-- The nodes of a cell are nodes of its own octant. -/
theorem C37_own_octant {ranks : List (List β)} (hs : SmallRanks B ranks) {r iOct : ℕ}
    (hr : r < ranks.length) (ho : iOct < (ranks.getD r []).length) {p : Fin 3 → ℕ}
    (hp : ∀ c, p c < B.b c) (nodes : List ℕ)
    (h : (connectivityFile B ranks)[before (ranks.map List.length) r *
        B.nbCellsPerOct + linearize B iOct p]? = some nodes) :
    ∀ g ∈ nodes, g / B.nbNodesPerOct = before (ranks.map List.length) r + iOct := by
  rw [connectivityFile_get hB hs hr ho hp, Option.some.injEq] at h
  subst h
  intro g hg
  obtain ⟨n, hn, rfl⟩ := List.mem_map.mp hg
  have hlt := localNode_lt hB hp (n := n) (by simpa using hn)
  exact div_of_lt hlt

/-- Every entry of the connectivity dataset belongs to a cell. -/
theorem C37_every_entry {ranks : List (List β)} (hs : SmallRanks B ranks) {c : ℕ}
    (hc : c < (connectivityFile B ranks).length) :
    ∃ r iOct p, ∃ _ : r < ranks.length, iOct < (ranks.getD r []).length ∧ (∀ k, p k < B.b k) ∧
      c = before (ranks.map List.length) r * B.nbCellsPerOct + linearize B iOct p := by
  have hl := connectivity_lengths hB hs
  unfold connectivityFile at hc
  rw [flatten_size, hl] at hc
  obtain ⟨r, hr, h1, h2⟩ := exists_rank _ hc
  have hr : r < ranks.length := by simpa using hr
  rw [before_scale] at h1 h2
  have e : ((ranks.map List.length).map (· * B.nbCellsPerOct)).getD r 0 =
      (ranks.getD r []).length * B.nbCellsPerOct := by
    rw [List.getD_eq_getElem _ _ (by simpa using hr), List.getD_eq_getElem _ _ hr]; simp
  rw [e] at h2
  have hpos : 0 < B.nbCellsPerOct := by
    have := hB.pos
    exact Nat.mul_pos (Nat.mul_pos (this 0) (this 1)) (this 2)
  generalize hs' : before (ranks.map List.length) r * B.nbCellsPerOct = s at h1 h2
  obtain ⟨m, rfl⟩ := Nat.exists_eq_add_of_le h1
  have hm : m < (ranks.getD r []).length * B.nbCellsPerOct := by omega
  have hx := hB.pos 0
  have hy := hB.pos 1
  refine ⟨r, m / B.nbCellsPerOct, ![m % B.nbCellsPerOct % B.b 0,
    m % B.nbCellsPerOct / B.b 0 % B.b 1, m % B.nbCellsPerOct / (B.b 0 * B.b 1)], hr, ?_, ?_, ?_⟩
  · exact (Nat.div_lt_iff_lt_mul hpos).mpr hm
  · intro k
    fin_cases k
    · exact Nat.mod_lt _ hx
    · exact Nat.mod_lt _ hy
    · show m % B.nbCellsPerOct / (B.b 0 * B.b 1) < B.b 2
      rw [Nat.div_lt_iff_lt_mul (Nat.mul_pos hx hy)]
      have := Nat.mod_lt m hpos
      unfold Block.nbCellsPerOct at this ⊢
      rw [Nat.mul_comm (B.b 2)]; exact this
  · rw [hs']
    congr 1
    unfold linearize
    show m = m % B.nbCellsPerOct % B.b 0 + B.b 0 * (m % B.nbCellsPerOct / B.b 0 % B.b 1 + B.b 1 *
      (m % B.nbCellsPerOct / (B.b 0 * B.b 1) + B.b 2 * (m / B.nbCellsPerOct)))
    have a1 := Nat.div_add_mod m B.nbCellsPerOct
    have a2 := Nat.div_add_mod (m % B.nbCellsPerOct) (B.b 0)
    have a3 := Nat.div_add_mod (m % B.nbCellsPerOct / B.b 0) (B.b 1)
    rw [Nat.div_div_eq_div_mul] at a3
    generalize m % B.nbCellsPerOct = u at *
    generalize m / B.nbCellsPerOct = v at *
    generalize u / (B.b 0 * B.b 1) = w at *
    generalize u / B.b 0 % B.b 1 = t at *
    generalize u % B.b 0 = k at *
    rw [← a1, ← a2, ← a3]
    unfold Block.nbCellsPerOct
    ring

/-- Different cells have different nodes. -/
theorem C37_distinct {ranks : List (List β)} (hs : SmallRanks B ranks) {c c' : ℕ}
    (hc : c < (connectivityFile B ranks).length) (hc' : c' < (connectivityFile B ranks).length)
    (h : (connectivityFile B ranks)[c] = (connectivityFile B ranks)[c']) : c = c' := by
  obtain ⟨r, o, p, hr, ho, hp, rfl⟩ := C37_every_entry hB hs hc
  obtain ⟨r', o', p', hr', ho', hp', rfl⟩ := C37_every_entry hB hs hc'
  have e1 := connectivityFile_get hB hs hr ho hp
  have e2 := connectivityFile_get hB hs hr' ho' hp'
  rw [List.getElem?_eq_getElem hc, Option.some.injEq] at e1
  rw [List.getElem?_eq_getElem hc', Option.some.injEq] at e2
  rw [e1, e2] at h
  have hn0 : 0 < B.nbNodesPerCell := nodesPerCell_pos hB
  have h0 := congrArg (fun l => l[0]?) h
  simp only [List.getElem?_map, List.getElem?_range hn0, Option.map_some, Option.some.injEq] at h0
  have hlt := localNode_lt hB hp hn0
  have hlt' := localNode_lt hB hp' hn0
  -- octant and position in the octant
  have hd := congrArg (· / B.nbNodesPerOct) h0
  have hm := congrArg (· % B.nbNodesPerOct) h0
  simp only [div_of_lt hlt, div_of_lt hlt'] at hd
  simp only [mod_of_lt hlt, mod_of_lt hlt'] at hm
  have d := digits3 (hB.node_lt hp hn0 0) (hB.node_lt hp hn0 1) (p 2 + vtkCorner 0 2)
  have d' := digits3 (hB.node_lt hp' hn0 0) (hB.node_lt hp' hn0 1) (p' 2 + vtkCorner 0 2)
  rw [hm] at d
  have p0 : p 0 = p' 0 := by have := d.1.symm.trans d'.1; omega
  have p1 : p 1 = p' 1 := by have := d.2.1.symm.trans d'.2.1; omega
  have p2 : p 2 = p' 2 := by have := d.2.2.symm.trans d'.2.2; omega
  have e : ∀ (s o : ℕ) (p : Fin 3 → ℕ), s * B.nbCellsPerOct + linearize B o p =
      (s + o) * B.nbCellsPerOct + (p 0 + B.b 0 * (p 1 + B.b 1 * p 2)) := by
    intro s o p; unfold linearize Block.nbCellsPerOct; ring
  rw [e, e, hd, p0, p1, p2]

end

/-! ### Example: two ranks with one and two octants of 2x1 cells -/

def exBlock : Block := ⟨2, ![2, 1, 1]⟩

theorem exBlock_wf : exBlock.WF := ⟨by decide, Or.inr (by decide)⟩

def exRanks : List (List (ℕ × ℕ)) := [[(0, 0)], [(1, 0), (0, 1)]]

def exCorner (o : ℕ × ℕ) : Fin 3 → ℚ := ![o.1 / 2, o.2 / 2, 0]

theorem exRanks_small : SmallRanks exBlock exRanks := by unfold SmallRanks; decide +kernel

example : connectivityFile exBlock exRanks = [[0, 1, 4, 3], [1, 2, 5, 4], [6, 7, 10, 9], [7, 8, 11, 10],
    [12, 13, 16, 15], [13, 14, 17, 16]] := by decide +kernel

/-- Upper right corner of the second cell of the first octant of rank 1: `(1, 1/2)`. -/
example : (coordinatesFile exBlock ⟨![0, 0, 0], ![1, 1, 1]⟩ exCorner (fun _ => ![1/2, 1/2, 1/2])
    exRanks)[11]? = some (some ![1, 1/2, 0]) := by
  obtain ⟨nodes, h1, h2, h3⟩ := C37_cell_corners exBlock_wf exRanks_small ⟨![0, 0, 0], ![1, 1, 1]⟩
    exCorner (fun _ => ![1/2, 1/2, 1/2]) (r := 1) (iOct := 0) (by decide) (by decide)
    (p := ![1, 0, 0]) (by decide)
  have e : nodes = [7, 8, 11, 10] := by
    have : (connectivityFile exBlock exRanks)[before (exRanks.map List.length) 1 *
      exBlock.nbCellsPerOct + linearize exBlock 0 ![1, 0, 0]]? = some [7, 8, 11, 10] := by
      decide +kernel
    rw [this, Option.some.injEq] at h1; exact h1.symm
  subst e
  have h4 := h3 2 (by decide)
  refine Eq.trans h4 ?_
  congr 2
  funext c
  fin_cases c <;> norm_num [cornerOfCell, vtkCorner, exCorner, exRanks, exBlock]

end Verif.Io
