import Verif.Sim.Restart
import Verif.Io.Connect

/-!
# C106: a snapshot does not depend on the ranks

`IOManager_hdf5::save_snapshot_aux` and `save_particles` (`core/src/io/IOManager_hdf5.cpp`) on all ranks, on top of
`Verif.Io` (C36 `collective_write`, C37 nodes of the cells). Coordinates and values are exact (the conversion to
`output_real_t` is left out), and so are the files `.xmf`, which only name the datasets.
-/

namespace Verif.Sim

open Verif.Io

variable {α β ι K : Type}

/-! ### Model -/

/-- L119-127: `std::getline` with `,` as the end of a line. `cur` is what was read of the name. Nothing is removed from
the names; there is no name after the last comma if nothing follows. -/
def splitNames (cur : List Char) : List Char → List (List Char)
  | [] => if cur = [] then [] else [cur]
  | c :: l => if c = ',' then cur :: splitNames [] l else splitNames (cur ++ [c]) l

/-- L120-127: the set `write_varnames`, without repetitions. -/
def varNames (value : String) : List String := ((splitNames [] value.toList).map String.ofList).dedup

/-- Variables of the output. -/
inductive Column (ι : Type)
  | ioct
  | level
  | rank
  | field (i : ι)
  deriving DecidableEq

/-- L416-467: what a name stands for, in the order of the tests; `fieldOf` is `has_field` and `getField`. A name that is
not known is not written. -/
def column (fieldOf : String → Option ι) (name : String) : Option (Column ι) :=
  if name = "ioct" then some .ioct
  else if name = "level" then some .level
  else if name = "rank" then some .rank
  else (fieldOf name).map .field

/-- Elements of datasets of integers and of reals. -/
inductive Entry (K : Type)
  | int (n : ℕ)
  | real (x : K)
  deriving DecidableEq

/-- What a rank has: its octants, its copy of the fields, and the order in which `foreach_cell` visits the cells of
its octants. -/
structure Local (β ι K : Type) where
  octs : List β
  data : β → (Fin 3 → ℕ) → ι → K
  loop : List (ℕ × (Fin 3 → ℕ))

/-- A view of `n` elements that a loop writes to; `none` if it writes outside. -/
def fill (n : ℕ) (zero : α) (ws : List (ℕ × α)) : Option (List α) :=
  ws.foldlM (fun l w => if w.1 < l.length then some (l.set w.1 w.2) else none) (List.replicate n zero)

/-- L379 `local_num_cells`, a `uint32_t`. -/
def Local.cells (B : Block) (l : Local β ι K) : ℕ := l.octs.length * B.nbCellsPerOct % 2 ^ 32

/-- L416-466 on one rank: the local part of a variable. `first` is `getGlobalIdx(0)`. `linearize_iCell` (L334-337)
is a `uint32_t`. `none` if the loop leaves an array. -/
def columnLocal [Zero K] (B : Block) (level : β → ℕ) (first rank : ℕ) (l : Local β ι K) :
    Column ι → Option (List (Entry K))
  | .ioct => some ((List.range (l.cells B)).map fun i => .int (first + i / B.nbCellsPerOct))
  | .level => (List.range (l.cells B)).mapM fun i => l.octs[i / B.nbCellsPerOct]?.map fun o => .int (level o)
  | .rank => some ((List.range (l.cells B)).map fun _ => .int rank)
  | .field i => (l.loop.mapM fun c => l.octs[c.1]?.map fun o =>
      (linearize B c.1 c.2 % 2 ^ 32, Entry.real (l.data o c.2 i))).bind (fill (l.cells B) (.real 0))

/-- A dataset: every rank computes its part from the number of octants of the ranks before it, from its rank and from what it
has; the ranks write in the order `order`. -/
def datasetOf (order : List ℕ) (part : ℕ → ℕ → Local β ι K → Option (List α)) (ranks : List (Local β ι K)) :
    Option (List α) :=
  (ranks.zipIdx.mapM fun p => part (before (ranks.map fun l => l.octs.length) p.2) p.2 p.1).bind fun parts =>
    dataset parts order

/-- The datasets of a snapshot, and its time. -/
structure Snapshot (K : Type) where
  coordinates : List (Fin 3 → ℚ)
  connectivity : List (List ℕ)
  columns : List (String × List (Entry K))
  time : K

/-- What is known of the octants: `getCorner`, `getSize`, `getLevel`. -/
structure Geometry (β : Type) where
  block : Block
  box : Box
  corner : β → Fin 3 → ℚ
  size : β → Fin 3 → ℚ
  level : β → ℕ

/-- L346-376 on all ranks. -/
def coordinatesData (G : Geometry β) (order : List ℕ) (ranks : List (Local β ι K)) : Option (List (Fin 3 → ℚ)) :=
  datasetOf order (fun _ _ l => (coordinates G.block G.box G.corner G.size l.octs).mapM id) ranks

/-- L381-412 on all ranks. -/
def connectivityData (G : Geometry β) (order : List ℕ) (ranks : List (Local β ι K)) : Option (List (List ℕ)) :=
  datasetOf order (fun first _ l => some (connectivity G.block first l.octs.length)) ranks

/-- L414-467: the variables with names `names`. -/
def columnsData [Zero K] (G : Geometry β) (fieldOf : String → Option ι) (order : List ℕ) (ranks : List (Local β ι K))
    (names : List String) : Option (List (String × List (Entry K))) :=
  (names.filterMap fun name => (column fieldOf name).map fun v => (name, v)).mapM fun p =>
    (datasetOf order (fun first rank l => columnLocal G.block G.level first rank l p.2) ranks).map fun c => (p.1, c)

/-- L206-468: the file `.h5` of a snapshot. -/
def snapshot [Zero K] (G : Geometry β) (fieldOf : String → Option ι) (value : String) (order : List ℕ)
    (ranks : List (Local β ι K)) (time : K) : Option (Snapshot K) :=
  (coordinatesData G order ranks).bind fun x => (connectivityData G order ranks).bind fun c =>
    (columnsData G fieldOf order ranks (varNames value)).map fun v => ⟨x, c, v, time⟩

/-! ### Lists in blocks -/

theorem range_blocks (n c : ℕ) (g : ℕ → α) :
    (List.range (n * c)).map g = (List.range n).flatMap fun k => (List.range c).map fun j => g (k * c + j) := by
  induction n with
  | zero => simp
  | succ n ih =>
    rw [Nat.succ_mul, List.range_add, List.map_append, ih, List.range_succ, List.flatMap_append, List.map_map]
    simp [Function.comp_def]

theorem zip_blocks (octs : List β) (a : ℕ) (h : β × ℕ → List α) (H : ℕ → List α)
    (hH : ∀ k (hk : k < octs.length), H k = h (octs[k], a + k)) :
    (List.range octs.length).flatMap H = (octs.zipIdx a).flatMap h := by
  rw [List.flatMap_def, List.flatMap_def]
  congr 1
  apply List.ext_getElem
  · simp
  · intro k h1 h2
    simp only [List.getElem_map, List.getElem_range, List.getElem_zipIdx]
    exact hH k (by simpa using h1)

/-- Element `j` of block `g` of a list of blocks with `c` elements. -/
theorem blocks_get (l : List β) (h : β → List α) {c : ℕ} (hc : ∀ x ∈ l, (h x).length = c) (g j : ℕ) (hj : j < c) :
    (l.flatMap h)[g * c + j]? = l[g]?.bind fun x => (h x)[j]? := by
  induction l generalizing g with
  | nil => simp
  | cons a l ih =>
    have ha := hc a (by simp)
    rw [List.flatMap_cons]
    cases g with
    | zero =>
      rw [Nat.zero_mul, Nat.zero_add, List.getElem?_append_left (by omega)]
      simp
    | succ g =>
      rw [List.getElem?_append_right (by rw [ha, Nat.succ_mul]; omega), ha, Nat.succ_mul,
        show g * c + c + j - c = g * c + j by omega, ih (fun x hx => hc x (by simp [hx]))]
      simp

theorem blocks_length (l : List β) (h : β → List α) {c : ℕ} (hc : ∀ x ∈ l, (h x).length = c) :
    (l.flatMap h).length = l.length * c := by
  induction l with
  | nil => simp
  | cons a l ih =>
    rw [List.flatMap_cons, List.length_append, ih fun x hx => hc x (by simp [hx]), hc a (by simp), List.length_cons]
    ring

theorem mapM_of_map (l : List α) (f : α → Option β) (l' : List β) (h : l.map f = l'.map some) : l.mapM f = some l' := by
  have : l.mapM f = (l.map f).mapM id := by simp [List.mapM_map]
  rw [this, h, mapM_some]

/-- The octants of all ranks, with their ranks. -/
def items (ranks : List (Local β ι K)) : List (ℕ × Local β ι K × β) :=
  ranks.zipIdx.flatMap fun p => p.1.octs.map fun o => (p.2, p.1, o)

theorem items_concat (ranks : List (Local β ι K)) (l : Local β ι K) :
    items (ranks ++ [l]) = items ranks ++ l.octs.map fun o => (ranks.length, l, o) := by
  simp [items, List.zipIdx_append]

theorem items_length (ranks : List (Local β ι K)) : (items ranks).length = (ranks.map fun l => l.octs.length).sum := by
  induction ranks using List.reverseRecOn with
  | nil => rfl
  | append_singleton ranks l ih => rw [items_concat]; simp [ih]

theorem parts_flatten (ranks : List (Local β ι K)) (h : ℕ → ℕ × Local β ι K × β → List α) :
    (ranks.zipIdx.map fun p => (p.1.octs.zipIdx (before (ranks.map fun l => l.octs.length) p.2)).flatMap fun q =>
      h q.2 (p.2, p.1, q.1)).flatten = (items ranks).zipIdx.flatMap fun p => h p.2 p.1 := by
  induction ranks using List.reverseRecOn with
  | nil => rfl
  | append_singleton ranks l ih =>
    have e : (ranks.zipIdx.map fun p => (p.1.octs.zipIdx (before ((ranks ++ [l]).map fun l => l.octs.length) p.2)).flatMap
        fun q => h q.2 (p.2, p.1, q.1)) = ranks.zipIdx.map fun p => (p.1.octs.zipIdx (before (ranks.map fun l =>
          l.octs.length) p.2)).flatMap fun q => h q.2 (p.2, p.1, q.1) := by
      apply List.map_congr_left
      rintro ⟨x, r⟩ hx
      have hr : r < ranks.length := by
        have := List.snd_lt_of_mem_zipIdx hx
        simpa using this
      have : before ((ranks ++ [l]).map fun l => l.octs.length) r = before (ranks.map fun l => l.octs.length) r := by
        unfold before
        rw [List.map_append, List.take_append_of_le_length (by simpa using hr.le)]
      show (x.octs.zipIdx (before ((ranks ++ [l]).map fun l => l.octs.length) r)).flatMap _ = _
      rw [this]
    have e2 : before ((ranks ++ [l]).map fun l => l.octs.length) ranks.length = (items ranks).length := by
      unfold before
      rw [List.map_append, List.take_append_of_le_length (by simp), items_length]
      rw [List.take_of_length_le (by simp)]
    rw [List.zipIdx_append, List.map_append, List.flatten_append, e, ih, items_concat, List.zipIdx_append,
      List.flatMap_append]
    congr 1
    simp only [List.zipIdx_singleton, List.map_cons, List.map_nil, List.flatten_cons, List.flatten_nil, List.append_nil,
      Nat.zero_add]
    rw [e2, List.zipIdx_map, List.flatMap_map]
    rfl

/-- A dataset the local parts of which are blocks, one for each octant. -/
theorem datasetOf_eq {order : List ℕ} {ranks : List (Local β ι K)} (ho : order.Perm (List.range ranks.length))
    {part : ℕ → ℕ → Local β ι K → Option (List α)} {h : ℕ → ℕ × Local β ι K × β → List α}
    (hp : ∀ first r, ∀ l ∈ ranks, part first r l = some ((l.octs.zipIdx first).flatMap fun q => h q.2 (r, l, q.1)))
    {c : ℕ} (hc : ∀ g x, (h g x).length = c) (hn : (items ranks).length * c < 2 ^ 63) :
    datasetOf order part ranks = some ((items ranks).zipIdx.flatMap fun p => h p.2 p.1) := by
  unfold datasetOf
  have e : (ranks.zipIdx.mapM fun p => part (before (ranks.map fun l => l.octs.length) p.2) p.2 p.1) =
      some (ranks.zipIdx.map fun p => (p.1.octs.zipIdx (before (ranks.map fun l => l.octs.length) p.2)).flatMap fun q =>
        h q.2 (p.2, p.1, q.1)) := by
    apply mapM_of_map
    rw [List.map_map]
    apply List.map_congr_left
    rintro ⟨l, r⟩ hl
    exact hp _ r l (List.fst_mem_of_mem_zipIdx hl)
  rw [e, Option.bind_some, dataset_eq _ _ (by simpa using ho), parts_flatten]
  rw [parts_flatten, blocks_length _ _ (c := c) fun x _ => hc _ _]
  simpa using hn

/-! ### Local parts -/

/-- L334-337 backwards: the cell with index `j` of a block. -/
def cellPos (B : Block) (j : ℕ) : Fin 3 → ℕ := ![j % B.b 0, j / B.b 0 % B.b 1, j / (B.b 0 * B.b 1)]

/-- A loop over all cells of `n` octants: every cell once, in any order. -/
structure AllCells (B : Block) (n : ℕ) (loop : List (ℕ × (Fin 3 → ℕ))) : Prop where
  nodup : loop.Nodup
  mem : ∀ c, c ∈ loop ↔ c.1 < n ∧ ∀ k, c.2 k < B.b k

/-- The position of a cell in its block. -/
def inBlock (B : Block) (p : Fin 3 → ℕ) : ℕ := p 0 + B.b 0 * (p 1 + B.b 1 * p 2)

theorem linearize_eq (B : Block) (o : ℕ) (p : Fin 3 → ℕ) : linearize B o p = o * B.nbCellsPerOct + inBlock B p := by
  unfold linearize inBlock Block.nbCellsPerOct; ring

theorem inBlock_lt {B : Block} {p : Fin 3 → ℕ} (hp : ∀ k, p k < B.b k) : inBlock B p < B.nbCellsPerOct :=
  mixed_lt (hp 0) (hp 1) (hp 2)

theorem cellPos_inBlock {B : Block} {p : Fin 3 → ℕ} (hp : ∀ k, p k < B.b k) : cellPos B (inBlock B p) = p := by
  obtain ⟨d1, d2, d3⟩ := digits3 (hp 0) (hp 1) (p 2)
  unfold cellPos inBlock
  rw [d1, d2, d3]
  funext c
  fin_cases c <;> rfl

theorem inBlock_cellPos {B : Block} (j : ℕ) : inBlock B (cellPos B j) = j := by
  show j % B.b 0 + B.b 0 * (j / B.b 0 % B.b 1 + B.b 1 * (j / (B.b 0 * B.b 1))) = j
  rw [← Nat.div_div_eq_div_mul, Nat.mod_add_div, Nat.mod_add_div]

theorem cellPos_lt {B : Block} (hB : ∀ k, 0 < B.b k) {j : ℕ} (hj : j < B.nbCellsPerOct) (k : Fin 3) :
    cellPos B j k < B.b k := by
  fin_cases k
  · exact Nat.mod_lt _ (hB 0)
  · exact Nat.mod_lt _ (hB 1)
  · show j / (B.b 0 * B.b 1) < B.b 2
    rw [Nat.div_lt_iff_lt_mul (Nat.mul_pos (hB 0) (hB 1))]
    unfold Block.nbCellsPerOct at hj
    rw [Nat.mul_comm]; exact hj

theorem foldl_set (ws : List (ℕ × α)) (l : List α) (hb : ∀ w ∈ ws, w.1 < l.length)
    (hn : (ws.map Prod.fst).Nodup) :
    ∃ l', ws.foldlM (fun l w => if w.1 < l.length then some (l.set w.1 w.2) else none) l = some l' ∧
      l'.length = l.length ∧ (∀ w ∈ ws, l'[w.1]? = some w.2) ∧
      ∀ k, (∀ w ∈ ws, w.1 ≠ k) → l'[k]? = l[k]? := by
  induction ws generalizing l with
  | nil => exact ⟨l, rfl, rfl, by simp, fun _ _ => rfl⟩
  | cons w ws ih =>
    rw [List.map_cons, List.nodup_cons] at hn
    have hw := hb w (by simp)
    obtain ⟨l', e, h1, h2, h3⟩ := ih (l.set w.1 w.2) (fun v hv => by rw [List.length_set]; exact hb v (by simp [hv])) hn.2
    refine ⟨l', ?_, by rw [h1, List.length_set], ?_, ?_⟩
    · rw [List.foldlM_cons, if_pos hw]; exact e
    · intro v hv
      rcases List.mem_cons.1 hv with rfl | hv
      · rw [h3 v.1 fun u hu he => hn.1 (by rw [← he]; exact List.mem_map_of_mem hu), List.getElem?_set_self hw]
      · exact h2 v hv
    · intro k hk
      rw [h3 k fun u hu => hk u (by simp [hu]), List.getElem?_set_ne (hk w (by simp))]

theorem cells_eq {B : Block} (hB : B.WF) {l : Local β ι K}
    (hs : l.octs.length * B.nbCellsPerOct * B.nbNodesPerCell < 2 ^ 32) : l.cells B = l.octs.length * B.nbCellsPerOct :=
  Nat.mod_eq_of_lt (cells_lt hB hs)

/-- What a variable shows for a cell. `g` is the global index of the octant. -/
def shown (level : β → ℕ) (g : ℕ) (x : ℕ × Local β ι K × β) (p : Fin 3 → ℕ) : Column ι → Entry K
  | .ioct => .int g
  | .level => .int (level x.2.2)
  | .rank => .int x.1
  | .field i => .real (x.2.1.data x.2.2 p i)

theorem columnLocal_eq [Zero K] {B : Block} (hB : B.WF) (level : β → ℕ) (first rank : ℕ) {l : Local β ι K}
    (hs : l.octs.length * B.nbCellsPerOct * B.nbNodesPerCell < 2 ^ 32) (hl : AllCells B l.octs.length l.loop)
    (v : Column ι) :
    columnLocal B level first rank l v = some ((l.octs.zipIdx first).flatMap fun q =>
      (List.range B.nbCellsPerOct).map fun j => shown level q.2 (rank, l, q.1) (cellPos B j) v) := by
  have hc := cells_eq hB hs
  have hpos : 0 < B.nbCellsPerOct := Nat.mul_pos (Nat.mul_pos (hB.pos 0) (hB.pos 1)) (hB.pos 2)
  -- all that is needed is element `k * c + j`
  have key : ∀ g : ℕ → Entry K, (∀ k (hk : k < l.octs.length) j, j < B.nbCellsPerOct →
      g (k * B.nbCellsPerOct + j) = shown level (first + k) (rank, l, l.octs[k]) (cellPos B j) v) →
      (List.range (l.cells B)).map g = (l.octs.zipIdx first).flatMap fun q =>
        (List.range B.nbCellsPerOct).map fun j => shown level q.2 (rank, l, q.1) (cellPos B j) v := by
    intro g hg
    rw [hc, range_blocks]
    refine zip_blocks l.octs first _ _ fun k hk => ?_
    apply List.map_congr_left
    intro j hj
    exact hg k hk j (by simpa using hj)
  cases v with
  | ioct =>
    show some ((List.range (l.cells B)).map fun i => Entry.int (first + i / B.nbCellsPerOct)) = _
    rw [key _ fun k hk j hj => by rw [div_of_lt hj]; rfl]
  | rank =>
    show some ((List.range (l.cells B)).map fun _ => Entry.int rank) = _
    rw [key _ fun k hk j hj => rfl]
  | level =>
    unfold columnLocal
    apply mapM_of_map
    rw [← key (fun i => match l.octs[i / B.nbCellsPerOct]? with | none => .int 0 | some o => .int (level o))
      fun k hk j hj => by rw [div_of_lt hj, List.getElem?_eq_getElem hk]; rfl]
    rw [List.map_map]
    apply List.map_congr_left
    intro i hi
    have hi : i < l.octs.length * B.nbCellsPerOct := by rw [← hc]; simpa using hi
    have : i / B.nbCellsPerOct < l.octs.length := by rwa [Nat.div_lt_iff_lt_mul hpos]
    simp [List.getElem?_eq_getElem this]
  | field i =>
    show (l.loop.mapM fun c => l.octs[c.1]?.map fun o =>
      (linearize B c.1 c.2 % 2 ^ 32, Entry.real (l.data o c.2 i))).bind (fill (l.cells B) (.real 0)) = _
    -- what is written
    have hmap : (l.loop.mapM fun c => l.octs[c.1]?.map fun o =>
        (linearize B c.1 c.2 % 2 ^ 32, Entry.real (l.data o c.2 i))) = some (l.loop.map fun c =>
          (linearize B c.1 c.2, match l.octs[c.1]? with | none => .real 0 | some o => .real (l.data o c.2 i))) := by
      apply mapM_of_map
      rw [List.map_map]
      apply List.map_congr_left
      intro c hcl
      obtain ⟨h1, h2⟩ := (hl.mem c).1 hcl
      have h3 := linearize_lt (B := B) h1 h2
      have h4 := cells_lt hB hs
      simp only [Function.comp, List.getElem?_eq_getElem h1, Option.map_some]
      rw [Nat.mod_eq_of_lt (by omega)]
    rw [hmap, Option.bind_some]
    unfold fill
    obtain ⟨L, e, h1, h2, -⟩ := foldl_set (l.loop.map fun c =>
      (linearize B c.1 c.2, match l.octs[c.1]? with | none => Entry.real 0 | some o => .real (l.data o c.2 i)))
      (List.replicate (l.cells B) (.real 0)) (by
        intro w hw
        obtain ⟨c, hcl, rfl⟩ := List.mem_map.1 hw
        obtain ⟨k1, k2⟩ := (hl.mem c).1 hcl
        rw [List.length_replicate, hc]
        exact linearize_lt k1 k2) (by
        rw [List.map_map]
        refine List.Nodup.map_on ?_ hl.nodup
        intro c hcl c' hcl' he
        obtain ⟨k1, k2⟩ := (hl.mem c).1 hcl
        obtain ⟨k1', k2'⟩ := (hl.mem c').1 hcl'
        simp only [Function.comp, linearize_eq] at he
        have e1 := congrArg (· / B.nbCellsPerOct) he
        have e2 := congrArg (· % B.nbCellsPerOct) he
        simp only [div_of_lt (inBlock_lt k2), div_of_lt (inBlock_lt k2')] at e1
        simp only [mod_of_lt (inBlock_lt k2), mod_of_lt (inBlock_lt k2')] at e2
        have e3 := congrArg (cellPos B) e2
        rw [cellPos_inBlock k2, cellPos_inBlock k2'] at e3
        exact Prod.ext e1 e3)
    rw [e, Option.some.injEq, ← key (fun m => (L[m]?).getD (.real 0))]
    · apply List.ext_getElem
      · rw [h1]; simp
      · intro m m1 m2
        rw [List.getElem_map, List.getElem_range, List.getElem?_eq_getElem m1]
        rfl
    · intro k hk j hj
      have hm : (k, cellPos B j) ∈ l.loop := (hl.mem _).2 ⟨hk, cellPos_lt hB.pos hj⟩
      have h3 := h2 _ (List.mem_map_of_mem hm)
      simp only [linearize_eq, inBlock_cellPos] at h3
      simp only [h3, List.getElem?_eq_getElem hk]
      rfl

/-! ### The file -/

/-- Node `j` of octant `o`. -/
def nodeOf (G : Geometry β) (o : β) (j : ℕ) : Fin 3 → ℚ := fun c =>
  G.box.min c + (G.corner o c + ((nodePos G.block j c : ℕ) * G.size o c) / G.block.b c) * G.box.len c

theorem coordinates_eq (G : Geometry β) (octs : List β) (hs : octs.length * G.block.nbNodesPerOct < 2 ^ 32) (a : ℕ) :
    (coordinates G.block G.box G.corner G.size octs).mapM id = some ((octs.zipIdx a).flatMap fun q =>
      (List.range G.block.nbNodesPerOct).map (nodeOf G q.1)) := by
  apply mapM_of_map
  rw [List.map_id]
  unfold coordinates
  rw [Nat.mod_eq_of_lt hs, range_blocks, List.map_flatMap]
  refine zip_blocks octs a _ _ fun k hk => ?_
  rw [List.map_map]
  apply List.map_congr_left
  intro j hj
  have hj : j < G.block.nbNodesPerOct := by simpa using hj
  rw [div_of_lt hj, mod_of_lt hj, List.getElem?_eq_getElem hk, Option.map_some]
  rfl

/-- The nodes of cell `j` of the octant with global index `g`. -/
def nodesOf (B : Block) (g j : ℕ) : List ℕ := (List.range B.nbNodesPerCell).map fun n =>
  g * B.nbNodesPerOct + ((cellPos B j 0 + vtkCorner n 0) + B.nodes 0 * ((cellPos B j 1 + vtkCorner n 1) + B.nodes 1 *
    (cellPos B j 2 + vtkCorner n 2)))

theorem connectivity_eq {B : Block} (hB : B.WF) (octs : List β) (first : ℕ)
    (hs : octs.length * B.nbCellsPerOct * B.nbNodesPerCell < 2 ^ 32) :
    connectivity B first octs.length = (octs.zipIdx first).flatMap fun q =>
      (List.range B.nbCellsPerOct).map (nodesOf B q.2) := by
  have e : connectivity B first octs.length = (List.range (octs.length * B.nbCellsPerOct)).map fun m =>
      (List.range B.nbNodesPerCell).map (nodeIndex B first m) := by
    apply List.ext_getElem?
    intro m
    by_cases hm : m < octs.length * B.nbCellsPerOct
    · rw [connectivity_get hB hs hm, List.getElem?_map, List.getElem?_range hm]
      rfl
    · rw [List.getElem?_eq_none (by rw [connectivity_length hB hs]; omega), List.getElem?_eq_none (by simpa using hm)]
  rw [e, range_blocks]
  refine zip_blocks octs first _ _ fun k hk => ?_
  apply List.map_congr_left
  intro j hj
  have hj : j < B.nbCellsPerOct := by simpa using hj
  have h := linearize_eq B k (cellPos B j)
  rw [inBlock_cellPos] at h
  rw [← h]
  apply List.map_congr_left
  intro n hn
  exact nodeIndex_eq hB first k (cellPos_lt hB.pos hj) (by simpa using hn)

/-- What the code needs to write a file: 32-bit numbers of nodes on every rank (C37), loops over all cells, every rank
writes, 64-bit extents. -/
structure Writable (B : Block) (order : List ℕ) (ranks : List (Local β ι K)) : Prop where
  small : ∀ l ∈ ranks, l.octs.length * B.nbNodesPerOct < 2 ^ 32 ∧
    l.octs.length * B.nbCellsPerOct * B.nbNodesPerCell < 2 ^ 32
  loops : ∀ l ∈ ranks, AllCells B l.octs.length l.loop
  order : order.Perm (List.range ranks.length)
  total : (items ranks).length * B.nbNodesPerOct < 2 ^ 63

theorem cells_le_nodes {B : Block} (hB : B.WF) : B.nbCellsPerOct ≤ B.nbNodesPerOct := by
  have h : ∀ c, B.b c ≤ B.nodes c := by
    intro c
    unfold Block.nodes
    by_cases hc : c = 2
    · subst hc
      rw [if_pos rfl]
      rcases hB.dim with h | ⟨h, h'⟩
      · rw [if_pos h]; omega
      · rw [if_neg (by omega)]; omega
    · rw [if_neg hc]; omega
  exact Nat.mul_le_mul (Nat.mul_le_mul (h 0) (h 1)) (h 2)

/-- The dataset of a variable: a block of values for every octant. -/
def shownColumn (G : Geometry β) (ranks : List (Local β ι K)) (v : Column ι) : List (Entry K) :=
  (items ranks).zipIdx.flatMap fun q =>
    (List.range G.block.nbCellsPerOct).map fun j => shown G.level q.2 q.1 (cellPos G.block j) v

theorem snapshot_eq [Zero K] {G : Geometry β} (hB : G.block.WF) (fieldOf : String → Option ι) (value : String)
    {order : List ℕ} {ranks : List (Local β ι K)} (hw : Writable G.block order ranks) (time : K) :
    snapshot G fieldOf value order ranks time = some {
      coordinates := (items ranks).zipIdx.flatMap fun q => (List.range G.block.nbNodesPerOct).map (nodeOf G q.1.2.2)
      connectivity := (items ranks).zipIdx.flatMap fun q => (List.range G.block.nbCellsPerOct).map (nodesOf G.block q.2)
      columns := (varNames value).filterMap fun name => (column fieldOf name).map fun v => (name, shownColumn G ranks v)
      time := time } := by
  have hn : (items ranks).length * G.block.nbCellsPerOct < 2 ^ 63 :=
    lt_of_le_of_lt (Nat.mul_le_mul_left _ (cells_le_nodes hB)) hw.total
  have e1 : coordinatesData G order ranks = some ((items ranks).zipIdx.flatMap fun q =>
      (List.range G.block.nbNodesPerOct).map (nodeOf G q.1.2.2)) :=
    datasetOf_eq (h := fun _ x => (List.range G.block.nbNodesPerOct).map (nodeOf G x.2.2)) hw.order
      (fun first r l hl => coordinates_eq G l.octs (hw.small l hl).1 first) (fun _ _ => by simp) hw.total
  have e2 : connectivityData G order ranks = some ((items ranks).zipIdx.flatMap fun q =>
      (List.range G.block.nbCellsPerOct).map (nodesOf G.block q.2)) :=
    datasetOf_eq (h := fun g _ => (List.range G.block.nbCellsPerOct).map (nodesOf G.block g)) hw.order
      (fun first r l hl => by rw [connectivity_eq hB l.octs first (hw.small l hl).2]) (fun _ _ => by simp) hn
  have e3 : ∀ v : Column ι, datasetOf order (fun first rank l => columnLocal G.block G.level first rank l v) ranks =
      some (shownColumn G ranks v) := fun v =>
    datasetOf_eq (h := fun g x => (List.range G.block.nbCellsPerOct).map fun j => shown G.level g x (cellPos G.block j) v)
      hw.order (fun first r l hl => columnLocal_eq hB G.level first r (hw.small l hl).2 (hw.loops l hl) v)
      (fun _ _ => by simp) hn
  have e4 : columnsData G fieldOf order ranks (varNames value) = some ((varNames value).filterMap fun name =>
      (column fieldOf name).map fun v => (name, shownColumn G ranks v)) := by
    unfold columnsData
    apply mapM_of_map
    rw [List.map_filterMap, List.map_filterMap]
    apply List.filterMap_congr
    intro name _
    cases column fieldOf name with
    | none => rfl
    | some v => simp [e3]
  unfold snapshot
  rw [e1, e2, e4]
  rfl

end Verif.Sim
