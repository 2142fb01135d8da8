import Verif.Sim.Snapshot
import Verif.Sim.WorldMore

/-!
# C106: theorems
-/

namespace Verif.Sim

open Verif.Octree Verif.Cells Verif.Adapt Verif.Run Verif.Io Verif.Restart

variable {d P P' : ℕ} {K ι ν S : Type}

/-! ### Model: the snapshot of a state -/

/-- A direction of a domain in `d` dimensions, or what the code has in the third direction in 2D. -/
def extend {α : Type} (f : Fin d → α) (z : α) (c : Fin 3) : α := if h : c.val < d then f ⟨c, h⟩ else z

/-- `IOManager_hdf5.cpp` L217-231. -/
def blockOf (C : Config d K ι ν S) : Block := ⟨d, extend C.blk 1⟩

/-- `LightOctree_storage.h` L174-209 and `IOManager_hdf5.cpp` L352-357. In 2D octants have logical coordinate 0 in the third
direction; their size in this direction is multiplied with 0 (`k` is 0 in `IOManager_hdf5.cpp` L365, L373). -/
def geometryOf (C : Config d K ι ν S) (zmin zmax : ℚ) : Geometry (Oct d) where
  block := blockOf C
  box := ⟨extend C.dom.xmin zmin, extend (fun k => C.dom.xmax k - C.dom.xmin k) (zmax - zmin)⟩
  corner o := extend (fun k => o.pos k * getSize C.grid o k) 0
  size o := extend (getSize C.grid o) 1
  level o := o.level

/-- The cell of a block from its three indices. -/
def drop3 (p : Fin 3 → ℕ) : Fin d → ℕ := fun k => p (Fin.ofNat 3 k)

/-- What the ranks have; `loops` are the orders in which they visit their cells. -/
def ranksOf (s : State d P K ι) (loops : Fin P → List (ℕ × (Fin 3 → ℕ))) : List (Local (Oct d) ι K) :=
  List.ofFn fun r => ⟨s.ranks.octs r, fun o p => s.data r o (drop3 p), loops r⟩

/-- `IOManager_hdf5.cpp` L206-468 on all ranks. `value` is the parameter `output/write_variables`. -/
def saveSnapshot [Zero K] (C : Config d K ι ν S) (zmin zmax : ℚ) (fieldOf : String → Option ι) (value : String)
    (order : List ℕ) (loops : Fin P → List (ℕ × (Fin 3 → ℕ))) (s : State d P K ι) : Option (Snapshot K) :=
  snapshot (geometryOf C zmin zmax) fieldOf value order (ranksOf s loops) s.time

/-- `IOManager_hdf5.cpp` L486-606 `save_particles` on all ranks: positions and attributes. -/
def saveParticles (order : List ℕ) (attrs : List (Part 3 → ℚ)) (parts : Fin P → List (Part 3)) :
    Option (List (Fin 3 → ℚ) × List (List ℚ)) :=
  (dataset (List.ofFn fun r => (parts r).map Part.pos) order).bind fun x =>
    (attrs.mapM fun a => dataset (List.ofFn fun r => (parts r).map a) order).map fun c => (x, c)

/-! ### Specification -/

/-- Corner `n` (in the order of VTK) of cell `x` of octant `o`. -/
def cornerAt (C : Config d K ι ν S) (zmin : ℚ) (o : Oct d) (x : Fin d → ℕ) (n : ℕ) : Fin 3 → ℚ := fun c =>
  if h : c.val < d then
    C.dom.xmin ⟨c, h⟩ + (C.dom.xmax ⟨c, h⟩ - C.dom.xmin ⟨c, h⟩) * (lo C.grid o ⟨c, h⟩ +
      (x ⟨c, h⟩ + vtkCorner n c : ℕ) * ((hi C.grid o ⟨c, h⟩ - lo C.grid o ⟨c, h⟩) / C.blk ⟨c, h⟩))
  else zmin

/-- What names stand for: three names are those of the number, the level and the rank of an octant; the other names are those
of the fields. -/
inductive Means (fieldOf : String → Option ι) : String → Column ι → Prop
  | ioct : Means fieldOf "ioct" .ioct
  | level : Means fieldOf "level" .level
  | rank : Means fieldOf "rank" .rank
  | field {name : String} {i : ι} (h : name ∉ ["ioct", "level", "rank"]) (hi : fieldOf name = some i) :
    Means fieldOf name (.field i)

/-- What a variable shows for cell `x` of leaf `o`: the number of leaves before it in Z-order, its level, the rank that has
it, or the value that this rank has. -/
def Shows (C : Config d K ι ν S) (s : State d P K ι) (o : Oct d) (x : Fin d → ℕ) : Column ι → Entry K → Prop
  | .ioct, e => e = .int (s.ranks.mesh.filter fun a => okey C.bits C.lmax a < okey C.bits C.lmax o).card
  | .level, e => e = .int o.level
  | .rank, e => ∃ r : Fin P, o ∈ s.ranks.octs r ∧ e = .int r
  | .field i, e => ∃ r : Fin P, o ∈ s.ranks.octs r ∧ e = .real (s.data r o x i)

/-- What the code needs: at least one cell, numbers of nodes and of connectivity entries on a rank below `2^32`, loops over all
cells of a rank, every rank writes, fewer than `2^63` nodes. -/
structure Saveable (C : Config d K ι ν S) (order : List ℕ) (loops : Fin P → List (ℕ × (Fin 3 → ℕ))) (s : State d P K ι) :
    Prop where
  nodes : ∀ r, (s.ranks.octs r).length * (blockOf C).nbNodesPerOct < 2 ^ 32
  cells : ∀ r, (s.ranks.octs r).length * (blockOf C).nbCellsPerOct * (blockOf C).nbNodesPerCell < 2 ^ 32
  loops : ∀ r, AllCells (blockOf C) (s.ranks.octs r).length (loops r)
  order : order.Perm (List.range P)
  total : s.ranks.mesh.card * (blockOf C).nbNodesPerOct < 2 ^ 63

/-! ### Lemmas -/

theorem column_iff {fieldOf : String → Option ι} {name : String} {v : Column ι} :
    column fieldOf name = some v ↔ Means fieldOf name v := by
  unfold column
  constructor
  · intro h
    split_ifs at h with h1 h2 h3
    · cases h; subst h1; exact .ioct
    · cases h; subst h2; exact .level
    · cases h; subst h3; exact .rank
    · obtain ⟨i, hi, rfl⟩ := Option.map_eq_some_iff.1 h
      exact .field (by simp [h1, h2, h3]) hi
  · rintro (_ | _ | _ | ⟨h, hi⟩)
    · rfl
    · rfl
    · rfl
    · simp only [List.mem_cons, List.not_mem_nil, or_false, not_or] at h
      rw [if_neg h.1, if_neg h.2.1, if_neg h.2.2, hi]
      rfl

theorem block_wf [Field K] [LinearOrder K] {C : Config d K ι ν S} (hC : C.Ok) : (blockOf C).WF where
  pos c := by
    show 0 < extend C.blk 1 c
    unfold extend
    split
    · exact hC.blk _
    · exact Nat.one_pos
  dim := by
    rcases hC.dim with h | h
    · right
      refine ⟨h, ?_⟩
      show extend C.blk 1 2 = 1
      unfold extend
      rw [dif_neg (by subst h; decide)]
    · exact Or.inl h

/-- The leaves in the order of the file. -/
def leafList (s : State d P K ι) : List (Oct d) := (List.ofFn s.ranks.octs).flatten

theorem items_octs (s : State d P K ι) (loops : Fin P → List (ℕ × (Fin 3 → ℕ))) :
    (items (ranksOf s loops)).map (fun x => x.2.2) = leafList s := by
  unfold items leafList ranksOf
  rw [List.map_flatMap]
  simp only [List.map_map, Function.comp_def, List.map_id']
  rw [List.flatMap_def]
  congr 1
  apply List.ext_getElem
  · simp
  · intro k h1 h2
    simp

theorem items_mem {s : State d P K ι} {loops : Fin P → List (ℕ × (Fin 3 → ℕ))} {x : ℕ × Local (Oct d) ι K × Oct d}
    (h : x ∈ items (ranksOf s loops)) : ∃ r : Fin P, x.1 = r ∧ x.2.2 ∈ s.ranks.octs r ∧
      x.2.1.data = fun o p => s.data r o (drop3 p) := by
  unfold items at h
  obtain ⟨⟨l, r⟩, h1, h2⟩ := List.mem_flatMap.1 h
  obtain ⟨o, h3, rfl⟩ := List.mem_map.1 h2
  have h4 := List.mem_zipIdx_iff_getElem?.1 h1
  obtain ⟨hr, h5⟩ := List.getElem?_eq_some_iff.1 h4
  have hr' : r < P := by simpa [ranksOf] using hr
  change (ranksOf s loops)[r] = l at h5
  have h6 : (ranksOf s loops)[r] = ⟨s.ranks.octs ⟨r, hr'⟩, fun o p => s.data ⟨r, hr'⟩ o (drop3 p), loops ⟨r, hr'⟩⟩ := by
    simp [ranksOf]
  rw [h6] at h5
  clear h6
  subst h5
  exact ⟨⟨r, hr'⟩, rfl, h3, rfl⟩

section
variable [NeZero P] [NeZero P'] [Field K] [LinearOrder K] {C : Config d K ι ν S}

omit [Field K] [LinearOrder K] in
theorem leafList_spec {s : State d P K ι} (hs : Ok C s) :
    (leafList s).Pairwise (fun a b => okey C.bits C.lmax a < okey C.bits C.lmax b) ∧
      ∀ o, o ∈ leafList s ↔ o ∈ s.ranks.mesh :=
  ⟨hs.distributed.order, hs.distributed.mem⟩

omit [Field K] [LinearOrder K] in
theorem leafList_length {s : State d P K ι} (hs : Ok C s) : (leafList s).length = s.ranks.mesh.card := by
  obtain ⟨h1, h2⟩ := leafList_spec hs
  have hn : (leafList s).Nodup := h1.imp fun hlt he => by rw [he] at hlt; exact lt_irrefl _ hlt
  rw [← List.toFinset_card_of_nodup hn]
  congr 1

omit [Field K] [LinearOrder K] in
theorem writable {s : State d P K ι} {order : List ℕ} {loops : Fin P → List (ℕ × (Fin 3 → ℕ))} (hs : Ok C s)
    (h : Saveable C order loops s) : Writable (blockOf C) order (ranksOf s loops) where
  small l hl := by
    obtain ⟨r, rfl⟩ := (List.mem_ofFn' _ _).1 hl
    exact ⟨h.nodes r, h.cells r⟩
  loops l hl := by
    obtain ⟨r, rfl⟩ := (List.mem_ofFn' _ _).1 hl
    exact h.loops r
  order := by simpa [ranksOf] using h.order
  total := by
    have : (items (ranksOf s loops)).length = s.ranks.mesh.card := by
      rw [← leafList_length hs, ← items_octs s loops, List.length_map]
    rw [this]
    exact h.total

theorem zip_items {α β γ : Type} (l : List α) (f : α → β) (F : ℕ → α → List γ) (F' : ℕ → β → List γ)
    (h : ∀ g, ∀ x ∈ l, F g x = F' g (f x)) :
    (l.zipIdx.flatMap fun q => F q.2 q.1) = (l.map f).zipIdx.flatMap fun q => F' q.2 q.1 := by
  rw [List.zipIdx_map, List.flatMap_map]
  refine List.flatMap_congr fun q hq => ?_
  exact h q.2 q.1 (List.fst_mem_of_mem_zipIdx hq)

/-- What a variable shows, from the leaves and values of the whole mesh. -/
def shownMesh (own : Oct d → ℕ) (f : Oct d → (Fin d → ℕ) → ι → K) (g : ℕ) (o : Oct d) (p : Fin 3 → ℕ) : Column ι → Entry K
  | .ioct => .int g
  | .level => .int o.level
  | .rank => .int (own o)
  | .field i => .real (f o (drop3 p) i)

/-- The file from the leaves and the values of the whole mesh. -/
def meshSnapshot (C : Config d K ι ν S) (zmin zmax : ℚ) (fieldOf : String → Option ι) (value : String)
    (l : List (Oct d)) (own : Oct d → ℕ) (f : Oct d → (Fin d → ℕ) → ι → K) (time : K) : Snapshot K where
  coordinates := l.flatMap fun o => (List.range (blockOf C).nbNodesPerOct).map (nodeOf (geometryOf C zmin zmax) o)
  connectivity := l.zipIdx.flatMap fun q => (List.range (blockOf C).nbCellsPerOct).map (nodesOf (blockOf C) q.2)
  columns := (varNames value).filterMap fun name => (column fieldOf name).map fun v => (name, l.zipIdx.flatMap fun q =>
    (List.range (blockOf C).nbCellsPerOct).map fun j => shownMesh own f q.2 q.1 (cellPos (blockOf C) j) v)
  time := time

theorem zip_drop {α β : Type} (l : List α) (F : α → List β) : (l.zipIdx.flatMap fun q => F q.1) = l.flatMap F := by
  rw [← List.flatMap_map, List.zipIdx_map_fst]

theorem saveSnapshot_eq (hC : C.Ok) (zmin zmax : ℚ) (fieldOf : String → Option ι) (value : String) {s : State d P K ι}
    (hs : Ok C s) {order : List ℕ} {loops : Fin P → List (ℕ × (Fin 3 → ℕ))} (h : Saveable C order loops s) :
    saveSnapshot C zmin zmax fieldOf value order loops s = some (meshSnapshot C zmin zmax fieldOf value (leafList s)
      (fun o => owner s.ranks.octs o) s.field s.time) := by
  unfold saveSnapshot
  refine (snapshot_eq (G := geometryOf C zmin zmax) (block_wf hC) fieldOf value (writable hs h) s.time).trans ?_
  unfold meshSnapshot
  congr 2
  · rw [← items_octs s loops]
    refine Eq.trans ?_ (zip_drop ((items (ranksOf s loops)).map fun x => x.2.2) fun o =>
      (List.range (blockOf C).nbNodesPerOct).map (nodeOf (geometryOf C zmin zmax) o))
    exact zip_items _ _ (fun _ (x : ℕ × Local (Oct d) ι K × Oct d) => (List.range (blockOf C).nbNodesPerOct).map
        (nodeOf (geometryOf C zmin zmax) x.2.2))
      (fun _ o => (List.range (blockOf C).nbNodesPerOct).map (nodeOf (geometryOf C zmin zmax) o)) fun _ _ _ => rfl
  · rw [← items_octs s loops]
    exact zip_items _ _ (fun g _ => (List.range (blockOf C).nbCellsPerOct).map (nodesOf (blockOf C) g))
      (fun g _ => (List.range (blockOf C).nbCellsPerOct).map (nodesOf (blockOf C) g)) fun _ _ _ => rfl
  · apply List.filterMap_congr
    intro name _
    congr 1
    funext v
    congr 1
    unfold shownColumn
    rw [← items_octs s loops]
    refine zip_items _ _ (fun g x => (List.range (blockOf C).nbCellsPerOct).map fun j =>
        shown (geometryOf C zmin zmax).level g x (cellPos (blockOf C) j) v)
      (fun g o => (List.range (blockOf C).nbCellsPerOct).map fun j =>
        shownMesh (fun o => owner s.ranks.octs o) s.field g o (cellPos (blockOf C) j) v) fun g x hx => ?_
    obtain ⟨r, h1, h2, h3⟩ := items_mem hx
    apply List.map_congr_left
    intro j _
    cases v with
    | ioct => rfl
    | level => rfl
    | rank => simp only [shown, shownMesh, h1, owner_eq hs h2]
    | field i => simp only [shown, shownMesh, h3, State.field, owner_eq hs h2]

omit [NeZero P] [NeZero P'] in
theorem drop3_lt {p : Fin 3 → ℕ} (hC : C.Ok) (hp : ∀ c, p c < (blockOf C).b c) (k : Fin d) :
    (drop3 p : Fin d → ℕ) k < C.blk k := by
  have hk : k.val < 3 := by have := hC.dim; have := k.isLt; omega
  have h := hp (Fin.ofNat 3 k)
  have e : (Fin.ofNat 3 k.val).val = k.val := Nat.mod_eq_of_lt hk
  have : (blockOf C).b (Fin.ofNat 3 k) = C.blk k := by
    show extend C.blk 1 _ = _
    unfold extend
    rw [dif_pos (by rw [e]; exact k.isLt)]
    congr 1
    exact Fin.ext e
  rw [this] at h
  exact h

/-! ### The file does not depend on the ranks -/

/-- **C106**: two states with the same mesh and values, on any numbers of ranks, in any distribution, with any order of
the loops and of the writing ranks, give the same file, if the variable `rank` is not asked for. -/
theorem C106_same_file_partial (hC : C.Ok) (zmin zmax : ℚ) (fieldOf : String → Option ι) {value : String}
    (hv : "rank" ∉ varNames value) {s : State d P K ι} {s' : State d P' K ι} (hs : Ok C s) (hs' : Ok C s')
    (hsame : Same C.blk s s') {order order' : List ℕ} {loops : Fin P → List (ℕ × (Fin 3 → ℕ))}
    {loops' : Fin P' → List (ℕ × (Fin 3 → ℕ))} (h : Saveable C order loops s) (h' : Saveable C order' loops' s') :
    ∃ file, saveSnapshot C zmin zmax fieldOf value order loops s = some file ∧
      saveSnapshot C zmin zmax fieldOf value order' loops' s' = some file := by
  refine ⟨_, saveSnapshot_eq hC zmin zmax fieldOf value hs h, ?_⟩
  rw [saveSnapshot_eq hC zmin zmax fieldOf value hs' h', Option.some.injEq]
  obtain ⟨hm, ht, hf⟩ := (same_iff hs hs').1 hsame
  obtain ⟨a1, a2⟩ := leafList_spec hs
  obtain ⟨b1, b2⟩ := leafList_spec hs'
  have hl : leafList s' = leafList s := zlist_unique b1 a1 fun o => by rw [a2, b2, hm]
  unfold meshSnapshot
  rw [hl, ht]
  congr 1
  apply List.filterMap_congr
  intro name hn
  have hne : name ≠ "rank" := fun e => hv (e ▸ hn)
  cases hc : column fieldOf name with
  | none => rfl
  | some v =>
    have hvr : v ≠ .rank := by
      intro e
      subst e
      unfold column at hc
      split at hc
      · cases hc
      · split at hc
        · cases hc
        · obtain ⟨i, -, h⟩ := Option.map_eq_some_iff.1 hc
          cases h
    simp only [Option.map_some, Option.some.injEq, Prod.mk.injEq, true_and]
    refine List.flatMap_congr fun q hq => List.map_congr_left fun j hj => ?_
    have hq : q.1 ∈ s.ranks.mesh := (a2 _).1 (List.fst_mem_of_mem_zipIdx hq)
    cases v with
    | ioct => rfl
    | level => rfl
    | rank => exact absurd rfl hvr
    | field i =>
      simp only [shownMesh]
      rw [hf q.1 hq (drop3 (cellPos (blockOf C) j))
        (drop3_lt hC (cellPos_lt (block_wf hC).pos (by simpa using hj)))]

/-- **C106** for runs: gas, mesh refinement and load balancing (C85). -/
theorem C106_same_run_partial [IsStrictOrderedRing K] (hC : C.Ok) (hP : P ≤ ∏ k, C.grid.coarse k) (hP' : P' ≤ ∏ k, C.grid.coarse k) (zmin zmax : ℚ)
    (fieldOf : String → Option ι) {value : String} (hv : "rank" ∉ varNames value) (time : K) (ops : List Op)
    {t : State d P K ι} {t' : State d P' K ι} (e : simulate C time ops = some t) (e' : simulate C time ops = some t')
    {order order' : List ℕ} {loops : Fin P → List (ℕ × (Fin 3 → ℕ))} {loops' : Fin P' → List (ℕ × (Fin 3 → ℕ))}
    (h : Saveable C order loops t) (h' : Saveable C order' loops' t') :
    ∃ file, saveSnapshot C zmin zmax fieldOf value order loops t = some file ∧
      saveSnapshot C zmin zmax fieldOf value order' loops' t' = some file :=
  C106_same_file_partial hC zmin zmax fieldOf hv (simulate_ok hC hP e) (simulate_ok hC hP' e')
    (C85_same_result hC hP hP' time ops e e') h h'

/-! ### What the file shows -/

omit [NeZero P] [NeZero P'] [Field K] [LinearOrder K] in
theorem filter_before {α : Type} (key : α → ℕ) (l : List α) (h : l.Pairwise fun a b => key a < key b) {g : ℕ} {o : α}
    (hg : l[g]? = some o) : (l.filter fun a => decide (key a < key o)) = l.take g := by
  induction l generalizing g with
  | nil => simp at hg
  | cons a l ih =>
    rw [List.pairwise_cons] at h
    cases g with
    | zero =>
      simp only [List.getElem?_cons_zero, Option.some.injEq] at hg
      subst hg
      rw [List.take_zero, List.filter_eq_nil_iff]
      intro b hb
      rcases List.mem_cons.1 hb with rfl | hb
      · simp
      · have := h.1 b hb
        simp only [decide_eq_true_eq]; omega
    | succ g =>
      rw [List.getElem?_cons_succ] at hg
      have ha : key a < key o := h.1 o (List.mem_of_getElem? hg)
      rw [List.filter_cons_of_pos (by simpa using ha), List.take_succ_cons, ih h.2 hg]

omit [Field K] [LinearOrder K] in
theorem card_before {s : State d P K ι} (hs : Ok C s) {g : ℕ} {o : Oct d} (hg : (leafList s)[g]? = some o) :
    (s.ranks.mesh.filter fun a => okey C.bits C.lmax a < okey C.bits C.lmax o).card = g := by
  obtain ⟨h1, -⟩ := leafList_spec hs
  have hn : (leafList s).Nodup := h1.imp fun hlt he => by rw [he] at hlt; exact lt_irrefl _ hlt
  have hm : s.ranks.mesh = (leafList s).toFinset := rfl
  have := filter_before (okey C.bits C.lmax) (leafList s) h1 hg
  have e : (s.ranks.mesh.filter fun a => okey C.bits C.lmax a < okey C.bits C.lmax o) =
      ((leafList s).take g).toFinset := by
    rw [hm, ← this]
    ext a
    simp
  rw [e, List.toFinset_card_of_nodup (hn.sublist (List.take_sublist _ _)),
    List.length_take]
  have := (List.getElem?_eq_some_iff.1 hg).1
  omega

/-- The cell with index `m`. -/
def cellNo (C : Config d K ι ν S) (l : List (Oct d)) (m : ℕ) : Oct d × (Fin d → ℕ) :=
  (l.getD (m / (blockOf C).nbCellsPerOct) ⟨0, fun _ => 0⟩, drop3 (cellPos (blockOf C) (m % (blockOf C).nbCellsPerOct)))

omit [NeZero P] [NeZero P'] [Field K] [LinearOrder K] in
/-- The three indices of a cell are determined by its place in the block. -/
theorem drop3_inj {p q : Fin 3 → ℕ} (hp : ∀ c, p c < (blockOf C).b c) (hq : ∀ c, q c < (blockOf C).b c)
    (h : (drop3 p : Fin d → ℕ) = drop3 q) : p = q := by
  funext c
  by_cases hc : c.val < d
  · have h1 := congrFun h ⟨c, hc⟩
    have e : Fin.ofNat 3 c.val = c := Fin.ext (Nat.mod_eq_of_lt c.isLt)
    simp only [drop3, e] at h1
    exact h1
  · have h1 := hp c
    have h2 := hq c
    have e : (blockOf C).b c = 1 := by
      show extend C.blk 1 c = 1
      unfold extend
      rw [dif_neg hc]
    omega

omit [NeZero P] [NeZero P'] in
theorem cellNo_bij (hC : C.Ok) (l : List (Oct d)) (hn : l.Nodup) :
    Set.BijOn (cellNo C l) (Set.Iio (l.length * (blockOf C).nbCellsPerOct))
      {c | c.1 ∈ l ∧ ∀ k, c.2 k < C.blk k} := by
  have hB := block_wf hC
  have hpos : 0 < (blockOf C).nbCellsPerOct := Nat.mul_pos (Nat.mul_pos (hB.pos 0) (hB.pos 1)) (hB.pos 2)
  have hdiv : ∀ m, m < l.length * (blockOf C).nbCellsPerOct → m / (blockOf C).nbCellsPerOct < l.length :=
    fun m hm => by rwa [Nat.div_lt_iff_lt_mul hpos]
  have hpl : ∀ m c, cellPos (blockOf C) (m % (blockOf C).nbCellsPerOct) c < (blockOf C).b c :=
    fun m c => cellPos_lt hB.pos (Nat.mod_lt _ hpos) c
  refine ⟨fun m hm => ⟨?_, fun k => drop3_lt hC (hpl m) k⟩, fun m hm m' hm' e => ?_, fun c hc => ?_⟩
  · show l.getD _ _ ∈ l
    rw [List.getD_eq_getElem _ _ (hdiv m hm)]
    exact List.getElem_mem _
  · obtain ⟨e1, e2⟩ := Prod.mk.inj e
    rw [List.getD_eq_getElem _ _ (hdiv m hm), List.getD_eq_getElem _ _ (hdiv m' hm'),
      List.Nodup.getElem_inj_iff hn] at e1
    have e3 := congrArg (inBlock (blockOf C)) (drop3_inj (hpl m) (hpl m') e2)
    rw [inBlock_cellPos, inBlock_cellPos] at e3
    rw [← Nat.div_add_mod m (blockOf C).nbCellsPerOct, e1, e3, Nat.div_add_mod]
  · obtain ⟨h1, h2⟩ := hc
    obtain ⟨g, hg, e⟩ := List.getElem_of_mem h1
    let p : Fin 3 → ℕ := extend c.2 0
    have hp : ∀ k, p k < (blockOf C).b k := by
      intro k
      show extend c.2 0 k < extend C.blk 1 k
      unfold extend
      split
      · exact h2 _
      · exact Nat.one_pos
    have hi := inBlock_lt hp
    refine ⟨g * (blockOf C).nbCellsPerOct + inBlock (blockOf C) p, ?_, ?_⟩
    · show g * (blockOf C).nbCellsPerOct + inBlock (blockOf C) p < l.length * (blockOf C).nbCellsPerOct
      calc _ < g * (blockOf C).nbCellsPerOct + (blockOf C).nbCellsPerOct := by omega
        _ = (g + 1) * (blockOf C).nbCellsPerOct := by ring
        _ ≤ _ := Nat.mul_le_mul_right _ hg
    · unfold cellNo
      rw [div_of_lt hi, mod_of_lt hi, cellPos_inBlock hp, List.getD_eq_getElem _ _ hg]
      refine Prod.ext e ?_
      funext k
      have hk : k.val < 3 := by have := hC.dim; have := k.isLt; omega
      have e' : (Fin.ofNat 3 k.val).val = k.val := Nat.mod_eq_of_lt hk
      show extend c.2 0 (Fin.ofNat 3 k) = c.2 k
      unfold extend
      rw [dif_pos (by rw [e']; exact k.isLt)]
      exact congrArg c.2 (Fin.ext e')

omit [NeZero P] [NeZero P'] in
/-- The node at a corner of a cell. -/
theorem node_corner (hC : C.Ok) (zmin zmax : ℚ) (o : Oct d) {p : Fin 3 → ℕ} (hp : ∀ c, p c < (blockOf C).b c) {n : ℕ}
    (hn : n < (blockOf C).nbNodesPerCell) :
    nodeOf (geometryOf C zmin zmax) o ((p 0 + vtkCorner n 0) + (blockOf C).nodes 0 * ((p 1 + vtkCorner n 1) +
      (blockOf C).nodes 1 * (p 2 + vtkCorner n 2))) = cornerAt C zmin o (drop3 p) n := by
  have hB := block_wf hC
  obtain ⟨d1, d2, d3⟩ := digits3 (hB.node_lt hp hn 0) (hB.node_lt hp hn 1) (p 2 + vtkCorner n 2)
  have e : nodePos (blockOf C) ((p 0 + vtkCorner n 0) + (blockOf C).nodes 0 * ((p 1 + vtkCorner n 1) +
      (blockOf C).nodes 1 * (p 2 + vtkCorner n 2))) = fun c => p c + vtkCorner n c := by
    unfold nodePos
    rw [d1, d2, d3]
    funext c
    fin_cases c <;> rfl
  funext c
  unfold nodeOf cornerAt
  change (extend C.dom.xmin zmin c) + (extend (fun k => (o.pos k : ℚ) * getSize C.grid o k) 0 c +
    ((nodePos (blockOf C) _ c : ℕ) * extend (getSize C.grid o) 1 c) / (extend C.blk 1 c : ℕ)) *
      extend (fun k => C.dom.xmax k - C.dom.xmin k) (zmax - zmin) c = _
  rw [e]
  simp only []
  by_cases hc : c.val < d
  · rw [dif_pos hc]
    have hx : (drop3 p : Fin d → ℕ) ⟨c, hc⟩ = p c := by
      have : Fin.ofNat 3 c.val = c := Fin.ext (Nat.mod_eq_of_lt c.isLt)
      simp only [drop3, this]
    rw [hx]
    unfold extend
    simp only [dif_pos hc]
    unfold lo hi getSize
    rw [cellCount_eq]
    ring
  · rw [dif_neg hc]
    have h0 : p c + vtkCorner n c = 0 := by
      have h1 := hB.node_lt hp hn c
      have hc2 : c = 2 := by
        have := hC.dim
        exact Fin.ext (by have := c.isLt; show c.val = 2; omega)
      have : (blockOf C).nodes c = 1 := by
        unfold Block.nodes
        rw [if_pos hc2, if_neg]
        show d ≠ 3
        subst hc2
        intro h
        subst h
        exact hc (by decide)
      omega
    rw [h0]
    unfold extend
    simp only [dif_neg hc]
    norm_num

/-- **C106**: the entries of the file are the cells of the mesh, each once: entry `m` of the connectivity lists the corners of
cell `cell m`, and entry `m` of every variable shows the value of this cell. All variables that are known are written. -/
theorem C106_shows_partial (hC : C.Ok) (zmin zmax : ℚ) (fieldOf : String → Option ι) (value : String) {s : State d P K ι}
    (hs : Ok C s) {order : List ℕ} {loops : Fin P → List (ℕ × (Fin 3 → ℕ))} (h : Saveable C order loops s) :
    ∃ (file : Snapshot K) (cell : ℕ → Oct d × (Fin d → ℕ)), saveSnapshot C zmin zmax fieldOf value order loops s = some file ∧ file.time = s.time ∧
      Set.BijOn cell (Set.Iio file.connectivity.length) {c | c.1 ∈ s.ranks.mesh ∧ ∀ k, c.2 k < C.blk k} ∧
      (∀ m < file.connectivity.length, ∃ nodes, file.connectivity[m]? = some nodes ∧ nodes.length = 2 ^ d ∧
        ∀ n (hn : n < nodes.length), file.coordinates[nodes[n]]? = some (cornerAt C zmin (cell m).1 (cell m).2 n)) ∧
      (file.columns.map Prod.fst).Sublist (varNames value) ∧
      (∀ name, name ∈ file.columns.map Prod.fst ↔ name ∈ varNames value ∧ ∃ v, Means fieldOf name v) ∧
      ∀ name v, name ∈ varNames value → Means fieldOf name v → ∃ col, (name, col) ∈ file.columns ∧
        col.length = file.connectivity.length ∧ ∀ m (hm : m < col.length), Shows C s (cell m).1 (cell m).2 v col[m] := by
  have hB := block_wf hC
  have hpos : 0 < (blockOf C).nbCellsPerOct := Nat.mul_pos (Nat.mul_pos (hB.pos 0) (hB.pos 1)) (hB.pos 2)
  obtain ⟨h1, h2⟩ := leafList_spec hs
  have hn : (leafList s).Nodup := h1.imp fun hlt he => by rw [he] at hlt; exact lt_irrefl _ hlt
  have hlen : (meshSnapshot C zmin zmax fieldOf value (leafList s) (fun o => owner s.ranks.octs o) s.field
      s.time).connectivity.length = (leafList s).length * (blockOf C).nbCellsPerOct := by
    show List.length (List.flatMap _ _) = _
    rw [blocks_length _ _ (c := (blockOf C).nbCellsPerOct) fun x _ => by simp]
    simp
  have hdiv : ∀ m, m < (leafList s).length * (blockOf C).nbCellsPerOct →
      m / (blockOf C).nbCellsPerOct < (leafList s).length := fun m hm => by rwa [Nat.div_lt_iff_lt_mul hpos]
  have hpl : ∀ m c, cellPos (blockOf C) (m % (blockOf C).nbCellsPerOct) c < (blockOf C).b c :=
    fun m c => cellPos_lt hB.pos (Nat.mod_lt _ hpos) c
  have hnames : (meshSnapshot C zmin zmax fieldOf value (leafList s) (fun o => owner s.ranks.octs o) s.field
      s.time).columns.map Prod.fst = (varNames value).filter (fun name => (column fieldOf name).isSome) := by
    show List.map _ (List.filterMap _ _) = _
    rw [List.map_filterMap]
    induction varNames value with
    | nil => rfl
    | cons name l ih =>
      cases hc : column fieldOf name with
      | none => rw [List.filterMap_cons_none (by simp [hc]), List.filter_cons_of_neg (by simp [hc]), ih]
      | some v => rw [List.filterMap_cons_some (b := name) (by simp [hc]), List.filter_cons_of_pos (by simp [hc]), ih]
  refine ⟨_, cellNo C (leafList s), saveSnapshot_eq hC zmin zmax fieldOf value hs h, rfl, ?_, ?_, ?_, ?_, ?_⟩
  · rw [hlen]
    have := cellNo_bij hC (leafList s) hn
    simp only [h2] at this
    exact this
  · intro m hm
    rw [hlen] at hm
    have hg := hdiv m hm
    have hmod := Nat.mod_lt m hpos
    have hdm : m = m / (blockOf C).nbCellsPerOct * (blockOf C).nbCellsPerOct + m % (blockOf C).nbCellsPerOct := by
      rw [Nat.mul_comm, Nat.div_add_mod]
    refine ⟨nodesOf (blockOf C) (m / (blockOf C).nbCellsPerOct) (m % (blockOf C).nbCellsPerOct), ?_, ?_, ?_⟩
    · show (List.flatMap _ _)[m]? = _
      conv_lhs => rw [hdm]
      rw [blocks_get _ _ (c := (blockOf C).nbCellsPerOct) (fun x _ => by simp) _ _ hmod]
      simp [hg, hmod]
    · unfold nodesOf
      rw [List.length_map, List.length_range]
      show (d - 1) * 4 = 2 ^ d
      rcases hC.dim with h | h <;> subst h <;> rfl
    · intro n hnn
      have hn' : n < (blockOf C).nbNodesPerCell := by simpa [nodesOf] using hnn
      have hlt := localNode_lt hB (hpl m) hn'
      have e : (nodesOf (blockOf C) (m / (blockOf C).nbCellsPerOct) (m % (blockOf C).nbCellsPerOct))[n] =
          m / (blockOf C).nbCellsPerOct * (blockOf C).nbNodesPerOct +
            ((cellPos (blockOf C) (m % (blockOf C).nbCellsPerOct) 0 + vtkCorner n 0) + (blockOf C).nodes 0 *
              ((cellPos (blockOf C) (m % (blockOf C).nbCellsPerOct) 1 + vtkCorner n 1) + (blockOf C).nodes 1 *
                (cellPos (blockOf C) (m % (blockOf C).nbCellsPerOct) 2 + vtkCorner n 2))) := by
        simp [nodesOf]
      rw [e]
      show (List.flatMap _ _)[_]? = _
      rw [blocks_get _ _ (c := (blockOf C).nbNodesPerOct) (fun x _ => by simp) _ _ hlt,
        List.getElem?_eq_getElem hg, Option.bind_some, List.getElem?_map, List.getElem?_range hlt, Option.map_some,
        node_corner hC zmin zmax _ (hpl m) hn']
      congr 2
      show _ = (leafList s).getD _ _
      rw [List.getD_eq_getElem _ _ hg]
  · rw [hnames]
    exact List.filter_sublist
  · intro name
    rw [hnames, List.mem_filter, Option.isSome_iff_exists]
    simp only [column_iff]
  · intro name v hname hv
    rw [← column_iff] at hv
    refine ⟨_, List.mem_filterMap.2 ⟨name, hname, by rw [hv]; rfl⟩, ?_, ?_⟩
    · rw [hlen, blocks_length _ _ (c := (blockOf C).nbCellsPerOct) fun x _ => by simp]
      simp
    · intro m hm
      rw [blocks_length _ _ (c := (blockOf C).nbCellsPerOct) fun x _ => by simp] at hm
      have hm : m < (leafList s).length * (blockOf C).nbCellsPerOct := by simpa using hm
      have hg := hdiv m hm
      have hmod := Nat.mod_lt m hpos
      have hdm : m = m / (blockOf C).nbCellsPerOct * (blockOf C).nbCellsPerOct + m % (blockOf C).nbCellsPerOct := by
        rw [Nat.mul_comm, Nat.div_add_mod]
      have ho : (leafList s)[m / (blockOf C).nbCellsPerOct]? = some (cellNo C (leafList s) m).1 := by
        show _ = some ((leafList s).getD _ _)
        rw [List.getD_eq_getElem _ _ hg, List.getElem?_eq_getElem hg]
      have hmem : (cellNo C (leafList s) m).1 ∈ s.ranks.mesh := (h2 _).1 (List.mem_of_getElem? ho)
      have hown := owner_mem _ hmem
      have key : ∀ (x : Entry K), (List.flatMap (fun q : Oct d × ℕ => (List.range (blockOf C).nbCellsPerOct).map fun j =>
          shownMesh (fun o => (owner s.ranks.octs o : ℕ)) s.field q.2 q.1 (cellPos (blockOf C) j) v)
          (leafList s).zipIdx)[m]? = some x → Shows C s (cellNo C (leafList s) m).1 (cellNo C (leafList s) m).2 v x := by
        intro x hx
        rw [hdm, blocks_get _ _ (c := (blockOf C).nbCellsPerOct) (fun x _ => by simp) _ _ hmod] at hx
        rw [List.getElem?_zipIdx, ho] at hx
        simp only [Option.map_some, Option.bind_some, List.getElem?_map, List.getElem?_range hmod, Nat.zero_add,
          Option.some.injEq] at hx
        subst hx
        cases v with
        | ioct => exact congrArg Entry.int (card_before hs ho).symm
        | level => rfl
        | rank => exact ⟨_, hown, rfl⟩
        | field i => exact ⟨_, hown, rfl⟩
      exact key _ (List.getElem?_eq_getElem _)

end

/-! ### Runs with particles and gravity -/

section
variable {κ : Type} [Fintype κ] [DecidableEq κ] {Q : ℕ} [NeZero P] [NeZero Q] {F : Setup κ ν S}

/-- **C106**, particles: the file has one row for each particle, with its position and its attributes. -/
theorem C106_particles {order : List ℕ} (ho : order.Perm (List.range P)) (attrs : List (Part 3 → ℚ))
    (parts : Fin P → List (Part 3)) (hn : (allParts parts).length < 2 ^ 63) :
    saveParticles order attrs parts =
      some ((allParts parts).map Part.pos, attrs.map fun a => (allParts parts).map a) := by
  have key : ∀ {α : Type} (f : Part 3 → α), dataset (List.ofFn fun r => (parts r).map f) order =
      some ((allParts parts).map f) := by
    intro α f
    have e : (List.ofFn fun r => (parts r).map f).flatten = (allParts parts).map f := by
      unfold allParts
      rw [List.map_flatten, List.map_ofFn]
      rfl
    rw [dataset_eq _ (by rw [e, List.length_map]; exact hn) (by simpa using ho), e]
  unfold saveParticles
  rw [key, Option.bind_some, mapM_of_map attrs _ (attrs.map fun a => (allParts parts).map a) (by
    rw [List.map_map]
    exact List.map_congr_left fun a _ => key a)]
  rfl

/-- **C106** for runs with gas, gravity and particles (C93): the same file; the files of the particles have the same rows,
maybe in another order. -/
theorem C106_world_partial (hF : F.Ok) (hP : P ≤ ∏ k, F.cfg.grid.coarse k) (hQ : Q ≤ ∏ k, F.cfg.grid.coarse k)
    (time : ℚ) (inits : List Op) {ps : Fin P → List (Part 3)} {ps' : Fin Q → List (Part 3)}
    (hps : (allParts ps).Perm (allParts ps')) {as : List (Act × Noise P κ)} {as' : List (Act × Noise Q κ)}
    (heq : as.map Prod.fst = as'.map Prod.fst) (hn : ∀ a ∈ as, a.2.Ok) (hn' : ∀ a ∈ as', a.2.Ok)
    {t : World P κ} {t' : World Q κ} (e : runWorld F time inits ps as = some t)
    (e' : runWorld F time inits ps' as' = some t') (zmin zmax : ℚ) (fieldOf : String → Option (Var κ)) {value : String}
    (hv : "rank" ∉ varNames value) (attrs : List (Part 3 → ℚ)) {order order' : List ℕ}
    {loops : Fin P → List (ℕ × (Fin 3 → ℕ))} {loops' : Fin Q → List (ℕ × (Fin 3 → ℕ))}
    (h : Saveable F.cfg order loops t.sim) (h' : Saveable F.cfg order' loops' t'.sim)
    (hc : (allParts t.parts).length < 2 ^ 63) :
    (∃ file, saveSnapshot F.cfg zmin zmax fieldOf value order loops t.sim = some file ∧
      saveSnapshot F.cfg zmin zmax fieldOf value order' loops' t'.sim = some file) ∧
    ∃ l l' : List (Part 3), l.Perm l' ∧
      saveParticles order attrs t.parts = some (l.map Part.pos, attrs.map fun a => l.map a) ∧
      saveParticles order' attrs t'.parts = some (l'.map Part.pos, attrs.map fun a => l'.map a) := by
  have hsame := C93_same_result_partial hF hP hQ time inits hps heq hn hn' e e'
  have hl := hsame.2.length_eq
  exact ⟨C106_same_file_partial hF.cfg zmin zmax fieldOf hv (run_ok hF hP hn e).1 (run_ok hF hQ hn' e').1 hsame.1 h h',
    _, _, hsame.2, C106_particles h.order attrs t.parts hc, C106_particles h'.order attrs t'.parts (by omega)⟩

end

end Verif.Sim
