import Verif.Sim.Props
import Verif.Restart.Mesh
import Verif.TimeLoop.Trigger

/-!
# C87: a restarted simulation continues like one that was not stopped

`core/src/io/IOManager_checkpoint.cpp`, `core/src/init/InitialConditions_restart.cpp` and the loop of
`core/src/DyabloTimeLoop.h` on all ranks, on top of `Verif.Sim` (a simulation with data), `Verif.Io` (datasets) and
`Verif.Restart` (markers of the restart).
-/

namespace Verif.Sim

open Verif.Octree Verif.Cells Verif.Adapt Verif.Run Verif.Io Verif.Restart Verif.TimeLoop

variable {d P P' : ℕ} {K ι ν S : Type} [Field K] [LinearOrder K]

/-! ### Model -/

/-- What a checkpoint contains: one entry per octant in the datasets, and the values that `IOManager_checkpoint.cpp`
L84-95 puts into the new `.ini` file (`max_digits10` digits, so that they are read back without loss). A block of
values of all fields is one entry; the code has one dataset per field with the same ranges. -/
structure File (d : ℕ) (K ι : Type) where
  tree : List (Oct d)
  fields : List ((Fin d → ℕ) → ι → K)
  time : K
  iter : ℤ

/-- A dataset all entries of which are written. -/
def dataset {α : Type} (parts : List (List α)) (order : List ℕ) : Option (List α) :=
  (collectiveWrite parts order).bind fun l => l.mapM id

/-- `IOManager_checkpoint.cpp` L49-99 on all ranks, which write in the order `order`. -/
def save (order : List ℕ) (s : State d P K ι) (iter : ℤ) : Option (File d K ι) :=
  (dataset (List.ofFn s.ranks.octs) order).bind fun tree =>
    (dataset (List.ofFn fun r => (s.ranks.octs r).map (s.data r)) order).map fun fields => ⟨tree, fields, s.time, iter⟩

/-- `InitialConditions_restart.cpp` L238-275, one pass: octants are marked, `adapt`. -/
def restartPass [NeZero P] (C : Config d K ι ν S) (file : File d K ι) (R : Ranks d P) (level : ℕ) :
    Option (Ranks d P) :=
  let mark := restartMark C.grid file.tree.toFinset C.lmax level
  if ∀ o ∈ R.mesh, (mark o).isSome = true then adapt C.bits C.lmax C.grid (fun o => (mark o).getD 0) R else none

/-- L218-280: the coarse mesh, the passes, `loadBalance` with no compact levels. -/
def restartRanks [NeZero P] (C : Config d K ι ν S) (file : File d K ι) : Option (Ranks d P) :=
  (start C.bits C.grid).bind fun R =>
    ((List.range' C.grid.lmin (C.lmax - C.grid.lmin)).foldlM (restartPass C file) R).bind
      (Verif.Run.balance C.bits C.lmax C.grid 0)

/-- L282-301: every rank reads its range of the fields. The value for octants that a rank does not have is not used. -/
def restart [NeZero P] (C : Config d K ι ν S) (file : File d K ι) : Option (State d P K ι) :=
  (restartRanks C file).bind fun R =>
    let n := List.ofFn fun r => (R.octs r).length
    if ∀ r : Fin P, (readView file.fields n r).isSome = true then
      some ⟨R, fun r o => (((readView file.fields n r).getD [])[(R.octs r).idxOf o]?).getD fun _ _ => 0, file.time⟩
    else none

/-- What the time loop keeps between iterations: the state, the iteration number and the triggers of AMR cycles and of
load balancing. Output and checkpoints do not change these. -/
structure Loop (d P : ℕ) (K ι : Type) where
  state : State d P K ι
  iter : ℤ
  amrTrigger : Trigger ℤ
  lbTrigger : Trigger ℤ

/-- `DyabloTimeLoop.h` L46-51, L93-94: the triggers at the start of a run. -/
def enter (amrFreq lbFreq iter : ℤ) (s : State d P K ι) : Option (Loop d P K ι) :=
  (newIntTrigger amrFreq iter).bind fun a => (newIntTrigger lbFreq iter).map fun b => ⟨s, iter, a, b⟩

/-- `DyabloTimeLoop.h` L563-809 `step`: hydro and next iteration, AMR cycle if it is due, load balancing if it is due.
`level` are the compact levels. -/
noncomputable def iterate [NeZero P] (C : Config d K ι ν S) (level : ℕ) (l : Loop d P K ι) : Option (Loop d P K ι) :=
  let a := l.amrTrigger.trigger intFloor (l.iter + 1)
  let b := l.lbTrigger.trigger intFloor (l.iter + 1)
  (hydro C l.state).bind fun s1 =>
    (if a.1 = true then amr C s1 else some s1).bind fun s2 =>
      (if b.1 = true then loadBalance C level s2 else some s2).map fun s3 => ⟨s3, l.iter + 1, a.2, b.2⟩

/-- `n` iterations. -/
noncomputable def iterations [NeZero P] (C : Config d K ι ν S) (level : ℕ) : ℕ → Loop d P K ι → Option (Loop d P K ι)
  | 0, l => some l
  | n + 1, l => (iterate C level l).bind (iterations C level n)

/-- L137-147 `stop_criterion` with `t_end_var = "time"`. -/
def stops (iterEnd : ℤ) (tEnd : Option K) (eps : K) (l : Loop d P K ι) : Bool :=
  (decide (0 < iterEnd) && decide (iterEnd ≤ l.iter)) ||
    match tEnd with
    | none => false
    | some t => decide (t - eps ≤ l.state.time)

/-- L518-525, `run`: at least one step, until the stop criterion holds. `none` also if there is no end within `fuel`
iterations. -/
noncomputable def runLoop [NeZero P] (C : Config d K ι ν S) (level : ℕ) (stop : Loop d P K ι → Bool) :
    ℕ → Loop d P K ι → Option (Loop d P K ι)
  | 0, _ => none
  | n + 1, l => (iterate C level l).bind fun l' => if stop l' = true then some l' else runLoop C level stop n l'

/-! ### Specification -/

/-- Two runs are at the same point: same mesh, time and values, same iteration. -/
structure SameLoop [NeZero P] [NeZero P'] (b : Fin d → ℕ) (l : Loop d P K ι) (l' : Loop d P' K ι) : Prop where
  state : Same b l.state l'.state
  iter : l.iter = l'.iter

/-! ### Writing and reading -/

theorem mapM_some {α : Type} (l : List α) : (l.map some).mapM id = some l := by
  induction l with
  | nil => rfl
  | cons a l ih => simp [ih]

theorem dataset_eq {α : Type} (parts : List (List α)) (hn : parts.flatten.length < 2 ^ 63) {order : List ℕ}
    (ho : order.Perm (List.range parts.length)) : dataset parts order = some parts.flatten := by
  unfold dataset
  rw [C36_collective_write parts (by rw [← flatten_size]; omega) order ho, Option.bind_some, mapM_some]

omit [Field K] [LinearOrder K] in
theorem save_eq {order : List ℕ} (ho : order.Perm (List.range P)) (s : State d P K ι)
    (hn : (List.ofFn s.ranks.octs).flatten.length < 2 ^ 63) (iter : ℤ) :
    save order s iter = some ⟨(List.ofFn s.ranks.octs).flatten,
      (List.ofFn fun r => (s.ranks.octs r).map (s.data r)).flatten, s.time, iter⟩ := by
  unfold save
  rw [dataset_eq _ hn (by simpa using ho), Option.bind_some, dataset_eq _ _ (by simpa using ho)]
  · rfl
  · have : (List.ofFn fun r => (s.ranks.octs r).map (s.data r)).flatten.length = (List.ofFn s.ranks.octs).flatten.length := by
      simp [List.length_flatten, List.map_ofFn, Function.comp_def]
    rw [this]
    exact hn

variable [NeZero P] [NeZero P'] {C : Config d K ι ν S}

omit [Field K] [LinearOrder K] in
/-- The dataset of the fields: the values of the octants in their order. -/
theorem fields_eq {s : State d P K ι} (hs : Ok C s) :
    (List.ofFn fun r => (s.ranks.octs r).map (s.data r)).flatten =
      (List.ofFn s.ranks.octs).flatten.map s.field := by
  rw [List.map_flatten, List.map_ofFn]
  congr 1
  apply congrArg List.ofFn
  funext r
  exact List.map_congr_left fun o ho => by
    unfold State.field
    rw [owner_eq hs ho]

/-! ### The mesh -/

theorem restartPass_cut (hC : C.Ok) {file : File d K ι} (hN : Tiling C.grid file.tree.toFinset)
    (hB : Balanced C.grid file.tree.toFinset) (hlev : ∀ o ∈ file.tree.toFinset, o.level ≤ C.lmax) {L : ℕ}
    (h1 : C.grid.lmin ≤ L) (h2 : L < C.lmax) {R : Ranks d P} (hR : Good C.bits C.lmax C.grid R)
    (hcut : ∀ o, o ∈ R.mesh ↔ Valid C.grid o ∧ Cut file.tree.toFinset L o) :
    ∃ R', restartPass C file R L = some R' ∧ Good C.bits C.lmax C.grid R' ∧
      ∀ o, o ∈ R'.mesh ↔ Valid C.grid o ∧ Cut file.tree.toFinset (L + 1) o := by
  have hmark : ∀ o ∈ R.mesh, ∃ m, restartMark C.grid file.tree.toFinset C.lmax L o = some m ∧
      ((m = 1 ∧ Inner file.tree.toFinset o ∧ o.level = L) ∨ (m = 0 ∧ o ∈ file.tree.toFinset ∧ o.level ≤ L)) :=
    fun o ho => restartMark_cut hC.wf hN hlev (hR.tiling.valid o ho) ((hcut o).1 ho).2
  have hl := hC.level_lt
  obtain ⟨M', e, -, -, h3⟩ := markStep_cut hC.wf hN hB hC.lmin h1 h2 (by omega) R.dist hR.ghostComplete hR.tiling
    hR.balanced hcut hmark
  unfold markStep at e
  split at e
  swap
  · cases e
  next hsome =>
  obtain ⟨f, hf, rfl⟩ := Option.map_eq_some_iff.1 e
  have hreq := requested_of hC hR (mk := fun o => (restartMark C.grid file.tree.toFinset C.lmax L o).getD 0)
    fun o ho => by
      obtain ⟨m, e1, e2⟩ := hmark o ho
      rw [e1]
      simp only [Option.getD_some]
      rcases e2 with ⟨rfl, -, h⟩ | ⟨rfl, -, -⟩
      · exact ⟨by omega, by omega, fun h => by omega, fun _ => by omega⟩
      · exact ⟨by omega, by omega, fun h => by omega, fun h => by omega⟩
  obtain ⟨f', hf', hlc⟩ := C10_result_is_least_correction hC.wf hR.tiling hR.balanced R.dist hR.ghostComplete _ hreq.1
    (2 * R.mesh.card + 1) (2 * R.mesh.card + 1) (by omega) (by omega)
  rw [hf] at hf'
  cases hf'
  obtain ⟨g, hg, hrg, -, h4⟩ := adapt_spec hC.wf hC.bits hC.keys hR hreq.1 hreq.2
  obtain ⟨R', h5, h6, -, -⟩ := h4 fun r => by
    obtain ⟨a, ha⟩ := List.exists_mem_of_ne_nil _ (hR.nonempty r)
    have ham : a ∈ R.mesh := mem_mesh ha
    obtain ⟨m, e1, e2⟩ := hmark a ham
    have h7 := hg.1 a ham
    have h8 := hrg a ham
    simp only [e1, Option.getD_some] at h7
    have h9 : written (g a) a ≠ [] := by
      unfold written
      have : g a = 1 ∨ g a = 0 := by rcases e2 with ⟨rfl, -⟩ | ⟨rfl, -⟩ <;> omega
      rcases this with h | h
      · rw [if_pos h]
        exact List.ne_nil_of_mem ((mem_children a ⟨a.level + 1, fun i => 2 * a.pos i⟩).2 ⟨rfl, fun i => by simp⟩)
      · rw [h]; simp
    obtain ⟨c, hc⟩ := List.exists_mem_of_ne_nil _ h9
    exact List.ne_nil_of_mem (List.mem_flatMap.2 ⟨a, ha, hc⟩)
  refine ⟨R', ?_, h6, ?_⟩
  · unfold restartPass
    simp only
    rw [if_pos hsome, h5]
  · rw [(adapt_some hC hR hreq.1 hreq.2 h5 hlc).2.2]
    exact h3

theorem restartPasses (hC : C.Ok) {file : File d K ι} (hN : Tiling C.grid file.tree.toFinset)
    (hB : Balanced C.grid file.tree.toFinset) (hlev : ∀ o ∈ file.tree.toFinset, o.level ≤ C.lmax) (n L : ℕ)
    (h1 : C.grid.lmin ≤ L) (h2 : L + n = C.lmax) {R : Ranks d P} (hR : Good C.bits C.lmax C.grid R)
    (hcut : ∀ o, o ∈ R.mesh ↔ Valid C.grid o ∧ Cut file.tree.toFinset L o) :
    ∃ R', (List.range' L n).foldlM (restartPass C file) R = some R' ∧ Good C.bits C.lmax C.grid R' ∧
      R'.mesh = file.tree.toFinset := by
  induction n generalizing L R with
  | zero =>
    refine ⟨R, rfl, hR, ?_⟩
    ext o
    rw [hcut]
    constructor
    · rintro ⟨-, ⟨h, -⟩ | ⟨-, b, hb', h2, -⟩⟩
      · exact h
      · have := hlev b hb'; omega
    · intro ho
      exact ⟨hN.valid o ho, Or.inl ⟨ho, by have := hlev o ho; omega⟩⟩
  | succ n ih =>
    obtain ⟨R', e, h3, h4⟩ := restartPass_cut hC hN hB hlev h1 (by omega) hR hcut
    rw [List.range'_succ, List.foldlM_cons, e]
    exact ih (L + 1) (by omega) (by omega) h3 h4

/-- The mesh of a checkpoint is rebuilt on any number of ranks. -/
theorem restartRanks_spec (hC : C.Ok) (hP' : P' ≤ ∏ k, C.grid.coarse k) {file : File d K ι}
    (hN : Tiling C.grid file.tree.toFinset) (hB : Balanced C.grid file.tree.toFinset)
    (hlev : ∀ o ∈ file.tree.toFinset, o.level ≤ C.lmax) :
    ∃ R : Ranks d P', restartRanks C file = some R ∧ Good C.bits C.lmax C.grid R ∧ R.mesh = file.tree.toFinset := by
  have hd0 : 0 < d := by have := hC.dim; omega
  obtain ⟨R, e, hR, hm⟩ := start_spec (P := P') (e := C.bits) hC.wf hd0 hC.bits hC.lmax hC.coarse hP'
  have hlm := hC.lmax
  obtain ⟨R1, e1, hR1, hm1⟩ := restartPasses hC hN hB hlev (C.lmax - C.grid.lmin) C.grid.lmin le_rfl (by omega) hR
    fun o => by
      have h0 : o ∈ R.mesh ↔ o ∈ coarseMesh C.grid := by
        rw [hm, mem_coarseMesh]
        unfold Valid
        constructor
        · rintro ⟨h1, h2⟩
          refine ⟨⟨h1.ge, fun i => ?_⟩, h1⟩
          unfold Grid.count
          rw [h1]
          simpa using h2 i
        · rintro ⟨⟨-, h2⟩, h1⟩
          refine ⟨h1, fun i => ?_⟩
          have := h2 i
          unfold Grid.count at this
          rw [h1] at this
          simpa using this
      rw [h0, mem_coarseMesh]
      constructor
      · rintro ⟨hv, hl⟩
        refine ⟨hv, ?_⟩
        obtain ⟨c, hc, h | h⟩ := hN.exists_leaf hC.wf hv
        · have : c = o := h.eq_of_level (by have := h.1; have := (hN.valid c hc).1; omega)
          subst this
          exact Or.inl ⟨hc, by omega⟩
        · rcases Nat.lt_or_ge C.grid.lmin c.level with hlt | hge
          · exact Or.inr ⟨hl, c, hc, hlt, h⟩
          · have : o = c := h.eq_of_level (by have := h.1; omega)
            subst this
            exact Or.inl ⟨hc, by omega⟩
      · rintro ⟨hv, ⟨h, h2⟩ | ⟨h, -⟩⟩
        · exact ⟨hv, by have := hv.1; omega⟩
        · exact ⟨hv, h⟩
  obtain ⟨R2, e2, hR2, hm2⟩ := balance_spec hC.wf hC.bits hC.keys hR1 0
  refine ⟨R2, ?_, hR2, by rw [hm2, hm1]⟩
  unfold restartRanks
  rw [e, Option.bind_some, e1, Option.bind_some, e2]

/-- A restart from a checkpoint of a good state gives this state. -/
theorem restart_same (hC : C.Ok) (hP' : P' ≤ ∏ k, C.grid.coarse k) {s : State d P K ι} (hs : Ok C s)
    (hn : (List.ofFn s.ranks.octs).flatten.length < 2 ^ 63) {order : List ℕ} (ho : order.Perm (List.range P)) (iter : ℤ) :
    ∃ (file : File d K ι) (t : State d P' K ι), save order s iter = some file ∧ file.iter = iter ∧
      restart C file = some t ∧ Ok C t ∧ Same C.blk s t := by
  rw [save_eq ho s hn iter]
  generalize hfile : (⟨(List.ofFn s.ranks.octs).flatten, (List.ofFn fun r => (s.ranks.octs r).map (s.data r)).flatten,
    s.time, iter⟩ : File d K ι) = file
  have htree : file.tree = (List.ofFn s.ranks.octs).flatten := by rw [← hfile]
  have hfields : file.fields = (List.ofFn s.ranks.octs).flatten.map s.field := by
    rw [← hfile]
    exact fields_eq hs
  have htime : file.time = s.time := by rw [← hfile]
  have hiter : file.iter = iter := by rw [← hfile]
  clear hfile
  have hmesh : file.tree.toFinset = s.ranks.mesh := by rw [htree]; rfl
  obtain ⟨R, e, hR, hm⟩ := restartRanks_spec (P' := P') hC hP' (file := file) (by rw [hmesh]; exact hs.tiling)
    (by rw [hmesh]; exact hs.balanced) (by rw [hmesh]; exact fun o h => (hs.levels o h).2)
  rw [hmesh] at hm
  have hlist : (List.ofFn s.ranks.octs).flatten = (List.ofFn R.octs).flatten :=
    zlist_unique hs.distributed.order hR.distributed.order fun o => by
      rw [hs.distributed.mem, hR.distributed.mem, hm]
  have hread : ∀ r : Fin P', readView file.fields (List.ofFn fun r => (R.octs r).length) r =
      some ((R.octs r).map s.field) := by
    intro r
    have h := C36_read file.fields (List.ofFn fun r => (R.octs r).map s.field)
      (by rw [hfields, hlist, List.map_flatten, List.map_ofFn]; rfl)
      (by rw [hfields, List.length_map]; exact hn) (r := r) (by simp)
    rw [List.map_ofFn] at h
    rw [show (List.ofFn fun r => (R.octs r).length) = List.ofFn (List.length ∘ fun r => (R.octs r).map s.field) by
      apply congrArg List.ofFn; funext r; simp, h]
    congr 1
    simp [List.getD]
  refine ⟨file, ⟨R, fun r o => (((readView file.fields (List.ofFn fun r => (R.octs r).length) r).getD [])[(R.octs
    r).idxOf o]?).getD fun _ _ => 0, file.time⟩, rfl, hiter, ?_, hR, ?_⟩
  · unfold restart
    rw [e, Option.bind_some]
    simp only
    rw [if_pos fun r => by rw [hread r]; rfl]
  · refine (same_iff (C := C) (s' := ⟨R, _, file.time⟩) hs hR).2 ⟨hm.symm, htime.symm, fun o ho x _ => ?_⟩
    have ho' : o ∈ R.octs (owner R.octs o) := owner_mem _ (show o ∈ R.mesh by rw [hm]; exact ho)
    show s.field o x = ((((readView file.fields (List.ofFn fun r => (R.octs r).length) (owner R.octs o)).getD [])[(R.octs
      (owner R.octs o)).idxOf o]?).getD fun _ _ => 0) x
    rw [hread, Option.getD_some, List.getElem?_map, List.getElem?_eq_getElem (List.idxOf_lt_length_of_mem ho'),
      List.getElem_idxOf]
    rfl

/-! ### The loop -/

/-- Triggers that fire at the same iterations from now on. -/
structure SameTrigger (t t' : Trigger ℤ) : Prop where
  enabled : t.enabled = t'.enabled
  interval : t.interval = t'.interval
  last : t.enabled = true → t.last = t'.last

theorem SameTrigger.trigger {t t' : Trigger ℤ} (h : SameTrigger t t') (v : ℤ) :
    (t.trigger intFloor v).1 = (t'.trigger intFloor v).1 ∧
      SameTrigger (t.trigger intFloor v).2 (t'.trigger intFloor v).2 := by
  obtain ⟨e, i, l⟩ := t
  obtain ⟨e', i', l'⟩ := t'
  obtain ⟨h1, h2, h3⟩ := h
  simp only at h1 h2 h3
  subst h1 h2
  cases e with
  | false => exact ⟨rfl, rfl, rfl, fun h => by cases h⟩
  | true =>
    have := h3 rfl
    subst this
    exact ⟨rfl, rfl, rfl, fun _ => rfl⟩

/-- A trigger as the constructor makes it at the iteration number `v`. -/
def Fresh (t : Trigger ℤ) (i v : ℤ) : Prop := i ≠ 0 ∧ SameTrigger t ⟨decide (0 < i), i, intFloor v i⟩

theorem fresh_new {i v : ℤ} {t : Trigger ℤ} (h : newIntTrigger i v = some t) : Fresh t i v := by
  unfold newIntTrigger at h
  split at h
  · cases h
  · next h0 =>
    cases h
    exact ⟨h0, rfl, rfl, fun _ => rfl⟩

/-- A trigger that is called at the next iteration is one of that iteration. -/
theorem Fresh.trigger {t : Trigger ℤ} {i v : ℤ} (h : Fresh t i v) (hv : 0 ≤ v) :
    Fresh (t.trigger intFloor (v + 1)).2 i (v + 1) := by
  obtain ⟨h0, h⟩ := h
  refine ⟨h0, ?_⟩
  have h1 := (h.trigger (v + 1)).2
  rcases lt_or_gt_of_ne h0 with hi | hi
  · have hd : decide (0 < i) = false := by simp [hi.le]
    rw [hd] at h1 ⊢
    have h2 : (Trigger.trigger intFloor (⟨false, i, intFloor v i⟩ : Trigger ℤ) (v + 1)).2 = ⟨false, i, intFloor v i⟩ := by
      simp [Trigger.trigger]
    rw [h2] at h1
    exact ⟨h1.enabled, h1.interval, fun he => by rw [h1.enabled] at he; cases he⟩
  · have hd : decide (0 < i) = true := by simp [hi]
    rw [hd] at h1 ⊢
    have h2 := after_last (fl := intFloor) hi (v := fun n : ℕ => v + n) (fun a b hab => by simpa using hab)
      (fun n => intFloor_rounds hi (by positivity)) 1
    simp only [Trigger.after, Nat.cast_zero, add_zero, Nat.cast_one, Nat.zero_add] at h2
    rw [h2] at h1
    exact h1

theorem Fresh.same {t t' : Trigger ℤ} {i v : ℤ} (h : Fresh t i v) (h' : Fresh t' i v) : SameTrigger t t' :=
  ⟨h.2.enabled.trans h'.2.enabled.symm, h.2.interval.trans h'.2.interval.symm, fun he =>
    (h.2.last he).trans (h'.2.last (by rw [h'.2.enabled, ← h.2.enabled]; exact he)).symm⟩

/-- What holds between iterations of a run with the given frequencies. -/
structure LoopOk (C : Config d K ι ν S) (amrFreq lbFreq : ℤ) (l : Loop d P K ι) : Prop where
  state : Ok C l.state
  iter : 0 ≤ l.iter
  amr : Fresh l.amrTrigger amrFreq l.iter
  lb : Fresh l.lbTrigger lbFreq l.iter

variable [IsStrictOrderedRing K]

theorem optional_same (hC : C.Ok) {s t : State d P K ι} {s' t' : State d P' K ι} (hs : Ok C s) (hs' : Ok C s')
    (h : Same C.blk s s') {b : Bool} {op : Op} (e : (if b = true then step C s op else some s) = some t)
    (e' : (if b = true then step C s' op else some s') = some t') : Ok C t ∧ Ok C t' ∧ Same C.blk t t' := by
  cases b with
  | false =>
    simp only [Bool.false_eq_true, if_false, Option.some.injEq] at e e'
    subst e e'
    exact ⟨hs, hs', h⟩
  | true =>
    simp only [if_true] at e e'
    exact step_same hC hs hs' h e e'

theorem iterate_same (hC : C.Ok) {af lf : ℤ} {level : ℕ} {l m : Loop d P K ι} {l' m' : Loop d P' K ι}
    (hl : LoopOk C af lf l) (hl' : LoopOk C af lf l') (h : SameLoop C.blk l l') (e : iterate C level l = some m)
    (e' : iterate C level l' = some m') : LoopOk C af lf m ∧ LoopOk C af lf m' ∧ SameLoop C.blk m m' := by
  unfold iterate at e e'
  simp only at e e'
  obtain ⟨s1, h1, e⟩ := Option.bind_eq_some_iff.1 e
  obtain ⟨s2, h2, e⟩ := Option.bind_eq_some_iff.1 e
  obtain ⟨s3, h3, rfl⟩ := Option.map_eq_some_iff.1 e
  obtain ⟨s1', h1', e'⟩ := Option.bind_eq_some_iff.1 e'
  obtain ⟨s2', h2', e'⟩ := Option.bind_eq_some_iff.1 e'
  obtain ⟨s3', h3', rfl⟩ := Option.map_eq_some_iff.1 e'
  have hi := h.iter
  have ta := ((hl.amr.same (hi ▸ hl'.amr)).trigger (l.iter + 1)).1
  have tb := ((hl.lb.same (hi ▸ hl'.lb)).trigger (l.iter + 1)).1
  rw [← hi, ← ta] at h2'
  rw [← hi, ← tb] at h3'
  obtain ⟨a1, b1, c1⟩ := step_same hC hl.state hl'.state h.state (op := .hydro) h1 h1'
  obtain ⟨a2, b2, c2⟩ := optional_same hC a1 b1 c1 (op := .amr) h2 h2'
  obtain ⟨a3, b3, c3⟩ := optional_same hC a2 b2 c2 (op := .loadBalance level) h3 h3'
  have hn := hl.iter
  have hn' := hl'.iter
  exact ⟨⟨a3, by simp only; omega, hl.amr.trigger hn, hl.lb.trigger hn⟩,
    ⟨b3, by simp only; omega, hl'.amr.trigger hn', hl'.lb.trigger hn'⟩, ⟨c3, by simp only; omega⟩⟩

theorem SameLoop.refl {l : Loop d P K ι} (hl : Ok C l.state) : SameLoop C.blk l l := ⟨Same.refl hl, rfl⟩

theorem iterations_same (hC : C.Ok) {af lf : ℤ} {level : ℕ} (n : ℕ) {l m : Loop d P K ι} {l' m' : Loop d P' K ι}
    (hl : LoopOk C af lf l) (hl' : LoopOk C af lf l') (h : SameLoop C.blk l l')
    (e : iterations C level n l = some m) (e' : iterations C level n l' = some m') :
    LoopOk C af lf m ∧ LoopOk C af lf m' ∧ SameLoop C.blk m m' := by
  induction n generalizing l l' with
  | zero =>
    cases e
    cases e'
    exact ⟨hl, hl', h⟩
  | succ n ih =>
    obtain ⟨l1, e1, e⟩ := Option.bind_eq_some_iff.1 e
    obtain ⟨l1', e1', e'⟩ := Option.bind_eq_some_iff.1 e'
    obtain ⟨a, b, c⟩ := iterate_same hC hl hl' h e1 e1'
    exact ih a b c e e'

theorem iterations_ok (hC : C.Ok) {af lf : ℤ} {level n : ℕ} {l m : Loop d P K ι} (hl : LoopOk C af lf l)
    (e : iterations C level n l = some m) : LoopOk C af lf m :=
  (iterations_same hC n hl hl (SameLoop.refl hl.state) e e).1

omit [Field K] [LinearOrder K] [IsStrictOrderedRing K] in
theorem enter_ok {af lf iter : ℤ} (hi : 0 ≤ iter) {s : State d P K ι} (hs : Ok C s) {l : Loop d P K ι}
    (e : enter af lf iter s = some l) : LoopOk C af lf l ∧ l.state = s ∧ l.iter = iter := by
  unfold enter at e
  obtain ⟨a, h1, e⟩ := Option.bind_eq_some_iff.1 e
  obtain ⟨b, h2, rfl⟩ := Option.map_eq_some_iff.1 e
  exact ⟨⟨hs, hi, fresh_new h1, fresh_new h2⟩, rfl, rfl⟩

omit [Field K] [LinearOrder K] [NeZero P] [IsStrictOrderedRing K] in
theorem enter_some {af lf : ℤ} (ha : af ≠ 0) (hb : lf ≠ 0) (iter : ℤ) (s : State d P K ι) :
    ∃ l, enter af lf iter s = some l := by
  unfold enter newIntTrigger
  rw [if_neg ha, if_neg hb]
  exact ⟨_, rfl⟩

theorem iterate_serial (hC : C.Ok) {af lf : ℤ} {level : ℕ} {l m : Loop d P K ι} {l' : Loop d 1 K ι}
    (hl : LoopOk C af lf l) (hl' : LoopOk C af lf l') (h : SameLoop C.blk l l') (e : iterate C level l = some m) :
    ∃ m', iterate C level l' = some m' := by
  unfold iterate at e ⊢
  simp only at e ⊢
  obtain ⟨s1, h1, e⟩ := Option.bind_eq_some_iff.1 e
  obtain ⟨s2, h2, e⟩ := Option.bind_eq_some_iff.1 e
  obtain ⟨s3, h3, rfl⟩ := Option.map_eq_some_iff.1 e
  have hi := h.iter
  have ta := ((hl.amr.same (hi ▸ hl'.amr)).trigger (l.iter + 1)).1
  have tb := ((hl.lb.same (hi ▸ hl'.lb)).trigger (l.iter + 1)).1
  rw [← hi, ← ta, ← tb]
  have key : ∀ {u v : State d P K ι} {u' : State d 1 K ι} {b : Bool} {op : Op}, Ok C u → Ok C u' → Same C.blk u u' →
      (if b = true then step C u op else some u) = some v →
      ∃ v', (if b = true then step C u' op else some u') = some v' := by
    intro u v u' b op hu hu' hsame e
    cases b with
    | false => exact ⟨u', by simp⟩
    | true =>
      simp only [if_true] at e ⊢
      exact step_serial hC hu hu' hsame e
  obtain ⟨s1', h1'⟩ := step_serial hC hl.state hl'.state h.state (op := .hydro) h1
  obtain ⟨a1, b1, c1⟩ := step_same hC hl.state hl'.state h.state (op := .hydro) h1 h1'
  obtain ⟨s2', h2'⟩ := key (op := .amr) a1 b1 c1 h2
  obtain ⟨a2, b2, c2⟩ := optional_same hC a1 b1 c1 (op := .amr) h2 h2'
  obtain ⟨s3', h3'⟩ := key (op := .loadBalance level) a2 b2 c2 h3
  simp only [step] at h1' h2' h3'
  rw [h1', Option.bind_some, h2', Option.bind_some, h3']
  exact ⟨_, rfl⟩

theorem iterations_serial (hC : C.Ok) {af lf : ℤ} {level : ℕ} (n : ℕ) {l m : Loop d P K ι} {l' : Loop d 1 K ι}
    (hl : LoopOk C af lf l) (hl' : LoopOk C af lf l') (h : SameLoop C.blk l l')
    (e : iterations C level n l = some m) : ∃ m', iterations C level n l' = some m' := by
  induction n generalizing l l' with
  | zero => exact ⟨l', rfl⟩
  | succ n ih =>
    obtain ⟨l1, e1, e⟩ := Option.bind_eq_some_iff.1 e
    obtain ⟨l1', e1'⟩ := iterate_serial hC hl hl' h e1
    obtain ⟨a, b, c⟩ := iterate_same hC hl hl' h e1 e1'
    obtain ⟨m', hm'⟩ := ih a b c e
    exact ⟨m', by rw [iterations, e1', Option.bind_some, hm']⟩

omit [IsStrictOrderedRing K] in
theorem stops_same {b : Fin d → ℕ} {l : Loop d P K ι} {l' : Loop d P' K ι} (h : SameLoop b l l') (iterEnd : ℤ)
    (tEnd : Option K) (eps : K) : stops iterEnd tEnd eps l = stops iterEnd tEnd eps l' := by
  unfold stops
  rw [h.iter, h.state.time]

theorem runLoop_same (hC : C.Ok) {af lf : ℤ} {level : ℕ} (iterEnd : ℤ) (tEnd : Option K) (eps : K) (n : ℕ)
    {l m : Loop d P K ι} {l' m' : Loop d P' K ι} (hl : LoopOk C af lf l) (hl' : LoopOk C af lf l')
    (h : SameLoop C.blk l l') (e : runLoop C level (stops iterEnd tEnd eps) n l = some m)
    (e' : runLoop C level (stops iterEnd tEnd eps) n l' = some m') : SameLoop C.blk m m' := by
  induction n generalizing l l' with
  | zero => cases e
  | succ n ih =>
    obtain ⟨l1, e1, e⟩ := Option.bind_eq_some_iff.1 e
    obtain ⟨l1', e1', e'⟩ := Option.bind_eq_some_iff.1 e'
    obtain ⟨a, b, c⟩ := iterate_same hC hl hl' h e1 e1'
    rw [← stops_same c] at e'
    split at e
    · next hs =>
      rw [if_pos hs] at e'
      cases e
      cases e'
      exact c
    · next hs =>
      rw [if_neg hs] at e'
      exact ih a b c e e'

/-! ### Properties -/

/-- **C87.** A checkpoint is written and read back without error, on any number of ranks: the state after the restart
has the same leaves, the same time and the same values in all cells. -/
theorem C87_restart_state (hC : C.Ok) (hP : P ≤ ∏ k, C.grid.coarse k) (hP' : P' ≤ ∏ k, C.grid.coarse k) (time : K)
    (ops : List Op) {s : State d P K ι} (h : simulate C time ops = some s)
    (hn : (List.ofFn s.ranks.octs).flatten.length < 2 ^ 63) {order : List ℕ} (ho : order.Perm (List.range P)) (iter : ℤ) :
    ∃ (file : File d K ι) (t : State d P' K ι), save order s iter = some file ∧ file.iter = iter ∧
      restart C file = some t ∧ Same C.blk s t := by
  obtain ⟨file, t, h1, h2, h3, -, h4⟩ := restart_same (P' := P') hC hP' (simulate_ok hC hP h) hn ho iter
  exact ⟨file, t, h1, h2, h3, h4⟩

/-- **C87.** A run is stopped after `m` iterations and restarted from its checkpoint on `P'` ranks. The restart works,
and after the same number of further iterations the restarted run is at the same point as the one that was not stopped:
same leaves, same values, same time, same iteration; both decide alike whether to stop. -/
theorem C87_restart_continues (hC : C.Ok) (hP : P ≤ ∏ k, C.grid.coarse k) (hP' : P' ≤ ∏ k, C.grid.coarse k) (time : K)
    (ops : List Op) {s : State d P K ι} (h : simulate C time ops = some s) {af lf iter0 : ℤ} (hi : 0 ≤ iter0)
    {l0 l1 : Loop d P K ι} (h0 : enter af lf iter0 s = some l0) {level m : ℕ}
    (h1 : iterations C level m l0 = some l1)
    (hn : (List.ofFn l1.state.ranks.octs).flatten.length < 2 ^ 63) {order : List ℕ} (ho : order.Perm (List.range P)) :
    ∃ (file : File d K ι) (t : State d P' K ι) (l1' : Loop d P' K ι), save order l1.state l1.iter = some file ∧
      restart C file = some t ∧ enter af lf file.iter t = some l1' ∧ SameLoop C.blk l1 l1' ∧
      ∀ (n : ℕ) (l2 : Loop d P K ι) (l2' : Loop d P' K ι), iterations C level n l1 = some l2 →
        iterations C level n l1' = some l2' →
        SameLoop C.blk l2 l2' ∧ ∀ iterEnd tEnd eps, stops iterEnd tEnd eps l2 = stops iterEnd tEnd eps l2' := by
  obtain ⟨hl0, -, -⟩ := enter_ok hi (simulate_ok hC hP h) h0
  have hl1 := iterations_ok hC hl0 h1
  obtain ⟨file, t, e1, e2, e3, ht, hsame⟩ := restart_same (P' := P') hC hP' hl1.state hn ho l1.iter
  obtain ⟨l1', e4⟩ := enter_some hl1.amr.1 hl1.lb.1 file.iter t
  obtain ⟨hl1', f1, f2⟩ := enter_ok (by rw [e2]; exact hl1.iter) ht e4
  have hsl : SameLoop C.blk l1 l1' := ⟨by rw [f1]; exact hsame, by rw [f2, e2]⟩
  refine ⟨file, t, l1', e1, e3, e4, hsl, fun n l2 l2' g g' => ?_⟩
  have := (iterations_same hC n hl1 hl1' hsl g g').2.2
  exact ⟨this, fun _ _ _ => stops_same this _ _ _⟩

/-- **C87.** The same up to the end of the run: the restarted run ends at the same iteration with the same result. -/
theorem C87_same_end (hC : C.Ok) (hP : P ≤ ∏ k, C.grid.coarse k) (hP' : P' ≤ ∏ k, C.grid.coarse k) (time : K)
    (ops : List Op) {s : State d P K ι} (h : simulate C time ops = some s) {af lf iter0 : ℤ} (hi : 0 ≤ iter0)
    {l0 l1 l2 : Loop d P K ι} (h0 : enter af lf iter0 s = some l0) {level m : ℕ}
    (h1 : iterations C level m l0 = some l1) {order : List ℕ} (ho : order.Perm (List.range P))
    (hn : (List.ofFn l1.state.ranks.octs).flatten.length < 2 ^ 63) {file : File d K ι}
    (hs : save order l1.state l1.iter = some file) {t : State d P' K ι} (hr : restart C file = some t)
    {l1' l2' : Loop d P' K ι} (he : enter af lf file.iter t = some l1') (iterEnd : ℤ) (tEnd : Option K) (eps : K)
    {fuel : ℕ} (h2 : runLoop C level (stops iterEnd tEnd eps) fuel l1 = some l2)
    (h2' : runLoop C level (stops iterEnd tEnd eps) fuel l1' = some l2') : SameLoop C.blk l2 l2' := by
  obtain ⟨hl0, -, -⟩ := enter_ok hi (simulate_ok hC hP h) h0
  have hl1 := iterations_ok hC hl0 h1
  obtain ⟨file', t', e1, e2, e3, ht, hsame⟩ := restart_same (P' := P') hC hP' hl1.state hn ho l1.iter
  rw [hs] at e1
  cases e1
  rw [hr] at e3
  cases e3
  obtain ⟨hl1', f1, f2⟩ := enter_ok (by rw [e2]; exact hl1.iter) ht he
  exact runLoop_same hC iterEnd tEnd eps fuel hl1 hl1' ⟨by rw [f1]; exact hsame, by rw [f2, e2]⟩ h2 h2'

/-- **C87.** Restarted on one rank, the run never fails where the run that was not stopped goes on. -/
theorem C87_restart_serial (hC : C.Ok) (hP : P ≤ ∏ k, C.grid.coarse k) (time : K)
    (ops : List Op) {s : State d P K ι} (h : simulate C time ops = some s) {af lf iter0 : ℤ} (hi : 0 ≤ iter0)
    {l0 l1 l2 : Loop d P K ι} (h0 : enter af lf iter0 s = some l0) {level m n : ℕ}
    (h1 : iterations C level m l0 = some l1) (h2 : iterations C level n l1 = some l2)
    (hn : (List.ofFn l1.state.ranks.octs).flatten.length < 2 ^ 63) {order : List ℕ} (ho : order.Perm (List.range P)) :
    ∃ (file : File d K ι) (t : State d 1 K ι) (l1' l2' : Loop d 1 K ι), save order l1.state l1.iter = some file ∧
      restart C file = some t ∧ enter af lf file.iter t = some l1' ∧ iterations C level n l1' = some l2' ∧
      SameLoop C.blk l2 l2' := by
  have hP1 : 1 ≤ ∏ k, C.grid.coarse k := Nat.succ_le_of_lt (Finset.prod_pos fun k _ => hC.wf.toPos.pos k)
  obtain ⟨hl0, -, -⟩ := enter_ok hi (simulate_ok hC hP h) h0
  have hl1 := iterations_ok hC hl0 h1
  obtain ⟨file, t, e1, e2, e3, ht, hsame⟩ := restart_same (P' := 1) hC hP1 hl1.state hn ho l1.iter
  obtain ⟨l1', e4⟩ := enter_some hl1.amr.1 hl1.lb.1 file.iter t
  obtain ⟨hl1', f1, f2⟩ := enter_ok (by rw [e2]; exact hl1.iter) ht e4
  have hsl : SameLoop C.blk l1 l1' := ⟨by rw [f1]; exact hsame, by rw [f2, e2]⟩
  obtain ⟨l2', e5⟩ := iterations_serial hC n hl1 hl1' hsl h2
  exact ⟨file, t, l1', l2', e1, e3, e4, e5, (iterations_same hC n hl1 hl1' hsl h2 e5).2.2⟩

end Verif.Sim
