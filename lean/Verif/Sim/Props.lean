import Verif.Sim.Amr
import Verif.Run.Coherent

/-!
# C85: the result of a simulation
-/

namespace Verif.Sim

open Verif.Octree Verif.Cells Verif.Adapt Verif.Flux Verif.Hydro Verif.Hydro.OneNeighbor Verif.Refine Verif.Remap Verif.Run

variable {d P P' : ℕ} {K ι ν S : Type} [Field K] [LinearOrder K] [NeZero P] [NeZero P'] {C : Config d K ι ν S}

/-! ### Specification -/

/-- Two states on `P` and `P'` ranks have the same leaves, the same time, and the same values in all cells: whichever
ranks store an octant. -/
structure Same (b : Fin d → ℕ) (s : State d P K ι) (s' : State d P' K ι) : Prop where
  leaves : ∀ o, (∃ r, o ∈ s.ranks.octs r) ↔ ∃ r, o ∈ s'.ranks.octs r
  time : s.time = s'.time
  data : ∀ r r' o, o ∈ s.ranks.octs r → o ∈ s'.ranks.octs r' → ∀ x : Fin d → ℕ, (∀ k, x k < b k) → ∀ i,
    s.data r o x i = s'.data r' o x i

/-- The volume of the cells of octant `o`. -/
def vol (C : Config d K ι ν S) (o : Oct d) : ℚ :=
  ∏ k, (hi C.grid o k - lo C.grid o k) / C.blk k * (C.dom.xmax k - C.dom.xmin k)

/-- The integral of variable `i` over the domain. -/
def total (C : Config d K ι ν S) (s : State d P K ι) (i : ι) : K :=
  ∑ r, ∑ o ∈ (s.ranks.octs r).toFinset, ∑ x ∈ Fintype.piFinset fun k => Finset.range (C.blk k),
    (vol C o : K) * s.data r o x i

/-! ### Proofs -/

theorem same_iff {b : Fin d → ℕ} {s : State d P K ι} {s' : State d P' K ι} (hs : Ok C s) (hs' : Ok C s') :
    Same b s s' ↔ s.ranks.mesh = s'.ranks.mesh ∧ s.time = s'.time ∧ AgreeOn b s.ranks.mesh s.field s'.field := by
  constructor
  · intro h
    have hm : s.ranks.mesh = s'.ranks.mesh := by
      ext o
      unfold Ranks.mesh
      rw [mem_leaves, mem_leaves]
      exact h.leaves o
    refine ⟨hm, h.time, fun o ho x hx => ?_⟩
    funext i
    exact h.data _ _ o (owner_mem _ ho) (owner_mem _ (by rw [hm] at ho; exact ho)) x hx i
  · rintro ⟨h1, h2, h3⟩
    refine ⟨fun o => ?_, h2, fun r r' o ho ho' x hx i => ?_⟩
    · rw [← mem_leaves, ← mem_leaves]
      exact iff_of_eq (congrArg (o ∈ ·) h1)
    · have := congrFun (h3 o (mem_mesh ho) x hx) i
      unfold State.field at this
      rwa [owner_eq hs ho, owner_eq hs' ho'] at this

variable [IsStrictOrderedRing K]

theorem Remapped.unique {G : Grid d} (hG : G.Pos) {A : Finset (Oct d)} (hA : Tiling G A) {V V' : Oct d → K}
    (hV : ∀ q ∈ A, V q = V' q) {q : Oct d} {v v' : K} (h : Remapped V A q v) (h' : Remapped V' A q v') : v = v' := by
  have h'' : Remapped V A q v' := by
    rcases h' with ⟨h1, h2⟩ | ⟨p, h1, h2, h3, h4⟩ | ⟨h1, h2⟩
    · exact Or.inl ⟨h1, by rw [h2, hV q h1]⟩
    · exact Or.inr (Or.inl ⟨p, h1, h2, h3, by rw [h4, hV p h1]⟩)
    · refine Or.inr (Or.inr ⟨h1, ?_⟩)
      rw [h2]
      exact Finset.sum_congr rfl fun s _ => (hV _ (h1 s)).symm
  have hL : ∀ p ∈ A, p.level < A.sup Oct.level + 1 := fun p hp => Nat.lt_succ_of_le (Finset.le_sup hp)
  have e := (h.sum hG hA hL).trans (h''.sum hG hA hL).symm
  exact mul_left_cancel₀ (pow_ne_zero _ (pow_ne_zero _ two_ne_zero)) e

theorem init_requested (hC : C.Ok) {R : Ranks d P} (hs : Good C.bits C.lmax C.grid R) :
    Requested C.grid R.mesh
      (fun o => if o.level < C.lmax ∧ (cells C.blk).any (C.need o) = true then (1 : ℤ) else 0) ∧
    ∀ o ∈ R.mesh, (o.level : ℤ) +
      (if o.level < C.lmax ∧ (cells C.blk).any (C.need o) = true then (1 : ℤ) else 0) ≤ C.lmax := by
  refine requested_of hC hs fun o _ => ?_
  split
  · next hc => exact ⟨by omega, by omega, fun h => by omega, fun _ => hc.1⟩
  · exact ⟨by omega, by omega, fun h => by omega, fun h => by omega⟩

/-- One step keeps good states, and keeps states on different numbers of ranks the same. -/
theorem step_same (hC : C.Ok) {s t : State d P K ι} {s' t' : State d P' K ι} (hs : Ok C s) (hs' : Ok C s')
    (h : Same C.blk s s') {op : Op} (e : step C s op = some t) (e' : step C s' op = some t') :
    Ok C t ∧ Ok C t' ∧ Same C.blk t t' := by
  obtain ⟨hm, ht, hd⟩ := (same_iff hs hs').1 h
  cases op with
  | initRefine =>
    unfold step initRefine at e e'
    obtain ⟨R, h1, rfl⟩ := Option.map_eq_some_iff.1 e
    obtain ⟨R', h1', rfl⟩ := Option.map_eq_some_iff.1 e'
    obtain ⟨hr, hx⟩ := init_requested hC hs
    obtain ⟨hr', hx'⟩ := init_requested hC hs'
    obtain ⟨f, hf, -⟩ := adapt_spec hC.wf hC.bits hC.keys hs hr hx
    obtain ⟨a1, -, a3⟩ := adapt_some hC hs hr hx h1 hf
    obtain ⟨b1, -, b3⟩ := adapt_some hC hs' hr' hx' h1' (hm ▸ hf)
    refine ⟨a1, b1, (same_iff (C := C) (s := ⟨R, fun _ => C.init, s.time⟩) (s' := ⟨R', fun _ => C.init, s'.time⟩) a1
      b1).2 ⟨?_, ht, fun _ _ _ _ => rfl⟩⟩
    change R.mesh = R'.mesh
    rw [a3, b3, hm]
  | hydro =>
    obtain ⟨dt, h1, h2, h3, h4⟩ := hydro_spec hC.wf hC.cfl hs e
    obtain ⟨dt', h1', h2', h3', h4'⟩ := hydro_spec hC.wf hC.cfl hs' e'
    have hal : Allowed C s.ranks.mesh s.field = Allowed C s'.ranks.mesh s'.field := by
      unfold Allowed
      ext y
      simp only [Set.mem_ofPred_eq]
      rw [← hm]
      refine or_congr_right (exists_congr fun ρ => and_congr_right fun _ => and_congr_right fun _ => or_congr_right
        (exists_congr fun o => and_congr_right fun ho => exists_congr fun x => and_congr_right fun hx => ?_))
      rw [hd o ho x hx]
    rw [← hal] at h1'
    have hdt : dt = dt' := h1.unique h1'
    subst hdt
    have hot : Ok C t := by unfold Ok; rw [h2]; exact hs
    have hot' : Ok C t' := by unfold Ok; rw [h2']; exact hs'
    refine ⟨hot, hot', (same_iff hot hot').2 ⟨by rw [h2, h2', hm], by rw [h3, h3', ht], fun o ho x hx => ?_⟩⟩
    rw [h2] at ho
    unfold State.field
    rw [h2, h2', h4 _ o (owner_mem _ ho) x hx, h4' _ o (owner_mem _ (show o ∈ s'.ranks.mesh from hm ▸ ho)) x hx, ht, hd o ho x hx]
    congr 1
    funext i
    rw [gFlux_congr hC.wf hs hd ho hx, hm]
  | amr =>
    obtain ⟨hreq, hmax⟩ := marks_req hC hs
    obtain ⟨f, hf, -⟩ := adapt_spec hC.wf hC.bits hC.keys hs hreq hmax
    have hf1 := LeastCorrection.congr hf (mk' := gMark C s.ranks.mesh s.field) fun o ho => by
      rw [rank_marks hC hs ho]; rfl
    have hf2 := LeastCorrection.congr hf1 (mk' := gMark C s.ranks.mesh s'.field) fun o ho => gMark_congr hC hs hd ho
    rw [hm] at hf2
    obtain ⟨h1, h2, h3, -, -, h4⟩ := amr_spec hC hs e hf1
    obtain ⟨h1', h2', h3', -, -, h4'⟩ := amr_spec hC hs' e' hf2
    refine ⟨h1, h1', (same_iff h1 h1').2 ⟨by rw [h3, h3', hm], by rw [h2, h2', ht], fun o ho x hx => ?_⟩⟩
    funext i
    have ho' : o ∈ t'.ranks.mesh := by rw [h3', ← hm, ← h3]; exact ho
    have hA := cellMesh_tiling hC.wf.toPos hC.blk hs.tiling
    have r1 := h4 _ o (owner_mem _ ho) x hx i
    have r2 := h4' _ o (owner_mem _ ho') x hx i
    rw [← hm] at r2
    refine Remapped.unique (cellGrid_pos hC.wf.toPos hC.blk) hA (fun q hq => ?_) r1 r2
    obtain ⟨o', ho', x', hx', rfl⟩ := mem_cellMesh.1 hq
    rw [boxes_cell _ _ _ hx', boxes_cell _ _ _ hx', hd o' ho' x' hx']
  | loadBalance level =>
    unfold step loadBalance at e e'
    obtain ⟨R, h1, rfl⟩ := Option.map_eq_some_iff.1 e
    obtain ⟨R', h1', rfl⟩ := Option.map_eq_some_iff.1 e'
    obtain ⟨R2, h2, h3, h4⟩ := balance_spec hC.wf hC.bits hC.keys hs level
    obtain ⟨R2', h2', h3', h4'⟩ := balance_spec hC.wf hC.bits hC.keys hs' level
    rw [h1] at h2
    rw [h1'] at h2'
    cases h2
    cases h2'
    refine ⟨h3, h3', (same_iff (C := C) (s := ⟨R, fun _ o => s.data (owner s.ranks.octs o) o, s.time⟩)
      (s' := ⟨R', fun _ o => s'.data (owner s'.ranks.octs o) o, s'.time⟩) h3 h3').2
      ⟨show R.mesh = R'.mesh by rw [h4, h4', hm], ht, fun o ho x hx => ?_⟩⟩
    have ho' : o ∈ R.mesh := ho
    rw [h4] at ho'
    exact hd o ho' x hx

theorem foldlM_same (hC : C.Ok) (ops : List Op) : ∀ {s t : State d P K ι} {s' t' : State d P' K ι}, Ok C s → Ok C s' →
    Same C.blk s s' → ops.foldlM (step C) s = some t → ops.foldlM (step C) s' = some t' →
    Ok C t ∧ Ok C t' ∧ Same C.blk t t' := by
  induction ops with
  | nil =>
    intro s t s' t' h1 h2 h3 e e'
    cases e
    cases e'
    exact ⟨h1, h2, h3⟩
  | cons op ops ih =>
    intro s t s' t' h1 h2 h3 e e'
    rw [List.foldlM_cons] at e e'
    cases hs : step C s op with
    | none => rw [hs] at e; cases e
    | some s1 =>
      cases hs' : step C s' op with
      | none => rw [hs'] at e'; cases e'
      | some s1' =>
        rw [hs] at e
        rw [hs'] at e'
        obtain ⟨a, b, c⟩ := step_same hC h1 h2 h3 hs hs'
        exact ih a b c e e'

omit [IsStrictOrderedRing K] in
theorem startSim_spec (hC : C.Ok) (hP : P ≤ ∏ k, C.grid.coarse k) (time : K) :
    ∃ s : State d P K ι, startSim C time = some s ∧ Ok C s ∧ s.time = time ∧ s.data = (fun _ => C.init) ∧
      ∀ o, o ∈ s.ranks.mesh ↔ o.level = C.grid.lmin ∧ ∀ i, o.pos i < C.grid.coarse i := by
  have hd0 : 0 < d := by have := hC.dim; omega
  obtain ⟨R, h1, h2, h3⟩ := start_spec (P := P) (e := C.bits) hC.wf hd0 hC.bits hC.lmax hC.coarse hP
  exact ⟨⟨R, fun _ => C.init, time⟩, by unfold startSim; rw [h1]; rfl, h2, rfl, rfl, h3⟩

omit [IsStrictOrderedRing K] in
theorem start_same {s : State d P K ι} {s' : State d P' K ι} (hs : Ok C s) (hs' : Ok C s') {time : K}
    (h1 : s.time = time) (h1' : s'.time = time) (h2 : s.data = fun _ => C.init) (h2' : s'.data = fun _ => C.init)
    (h3 : ∀ o, o ∈ s.ranks.mesh ↔ o.level = C.grid.lmin ∧ ∀ i, o.pos i < C.grid.coarse i)
    (h3' : ∀ o, o ∈ s'.ranks.mesh ↔ o.level = C.grid.lmin ∧ ∀ i, o.pos i < C.grid.coarse i) : Same C.blk s s' := by
  refine (same_iff hs hs').2 ⟨by ext o; rw [h3, h3'], by rw [h1, h1'], fun o _ x _ => ?_⟩
  unfold State.field
  rw [h2, h2']

/-- **C85.** The result of a simulation does not depend on the number of ranks: two runs with the same configuration
that do the same end with the same mesh, the same time and the same values in all cells, whenever both end. -/
theorem C85_same_result (hC : C.Ok) (hP : P ≤ ∏ k, C.grid.coarse k) (hP' : P' ≤ ∏ k, C.grid.coarse k) (time : K)
    (ops : List Op) {t : State d P K ι} {t' : State d P' K ι} (h : simulate C time ops = some t)
    (h' : simulate C time ops = some t') : Same C.blk t t' := by
  obtain ⟨s, e, hs, a1, a2, a3⟩ := startSim_spec (P := P) hC hP time
  obtain ⟨s', e', hs', b1, b2, b3⟩ := startSim_spec (P := P') hC hP' time
  unfold simulate at h h'
  rw [e, Option.bind_some] at h
  rw [e', Option.bind_some] at h'
  exact (foldlM_same hC ops hs hs' (start_same hs hs' a1 b1 a2 b2 a3 b3) h h').2.2

theorem Same.refl {s : State d P K ι} (hs : Ok C s) : Same C.blk s s :=
  (same_iff hs hs).2 ⟨rfl, rfl, fun _ _ _ _ => rfl⟩

theorem foldlM_ok (hC : C.Ok) {ops : List Op} {s t : State d P K ι} (hs : Ok C s)
    (e : ops.foldlM (step C) s = some t) : Ok C t := (foldlM_same hC ops hs hs (Same.refl hs) e e).1

theorem simulate_ok (hC : C.Ok) (hP : P ≤ ∏ k, C.grid.coarse k) {time : K} {ops : List Op} {t : State d P K ι}
    (h : simulate C time ops = some t) : Ok C t := by
  obtain ⟨s, e, hs, -⟩ := startSim_spec (P := P) hC hP time
  unfold simulate at h
  rw [e, Option.bind_some] at h
  exact foldlM_ok hC hs h

/-- A rank keeps an octant if it has all of them. -/
theorem serial_nonempty {e L : ℕ} {G : Grid d} {R : Ranks d P} {R' : Ranks d 1} (hR : Good e L G R)
    (hm : R.mesh = R'.mesh) {f : Oct d → ℤ} (h : ∀ r, newLeaves f (R.octs r) ≠ []) (r : Fin 1) :
    newLeaves f (R'.octs r) ≠ [] := by
  obtain ⟨o, ho⟩ := List.exists_mem_of_ne_nil _ (h 0)
  unfold newLeaves at ho
  obtain ⟨a, ha, ho⟩ := List.mem_flatMap.1 ho
  have ha' : a ∈ R'.mesh := hm ▸ mem_mesh ha
  have ha'' := owner_mem R'.octs ha'
  rw [Subsingleton.elim (owner R'.octs a) r] at ha''
  exact List.ne_nil_of_mem (List.mem_flatMap.2 ⟨a, ha'', ho⟩)

/-- A step that `P` ranks can do can be done by one rank. -/
theorem step_serial (hC : C.Ok) {s t : State d P K ι} {s' : State d 1 K ι} (hs : Ok C s) (hs' : Ok C s')
    (h : Same C.blk s s') {op : Op} (e : step C s op = some t) : ∃ t', step C s' op = some t' := by
  obtain ⟨hm, ht, hd⟩ := (same_iff hs hs').1 h
  cases op with
  | initRefine =>
    unfold step initRefine at e ⊢
    obtain ⟨R, h1, rfl⟩ := Option.map_eq_some_iff.1 e
    obtain ⟨hr, hx⟩ := init_requested hC hs
    obtain ⟨hr', hx'⟩ := init_requested hC hs'
    obtain ⟨f, hf, -⟩ := adapt_spec hC.wf hC.bits hC.keys hs hr hx
    obtain ⟨a1, a2, -⟩ := adapt_some hC hs hr hx h1 hf
    obtain ⟨g, hg, -, -, h2⟩ := adapt_spec hC.wf hC.bits hC.keys hs' hr' hx'
    obtain ⟨R', h3, -⟩ := h2 fun r => by
      refine serial_nonempty hs hm (fun r => ?_) r
      have : newLeaves g (s.ranks.octs r) = newLeaves f (s.ranks.octs r) := by
        unfold newLeaves
        exact List.flatMap_congr fun a ha => by rw [hg.unique (hm ▸ hf) a (hm ▸ mem_mesh ha)]
      rw [this, ← a2]
      exact a1.nonempty r
    rw [h3]
    exact ⟨_, rfl⟩
  | hydro =>
    have h1 : (hydro C s).isSome := by
      have : hydro C s = some t := e
      rw [this]; rfl
    rw [hydro_isSome hC.wf hs, computeDt_isSome hC.cfl] at h1
    refine Option.isSome_iff_exists.1 ((hydro_isSome hC.wf hs').2 ((computeDt_isSome hC.cfl).2 fun r => ?_))
    refine (h1 0).trans ?_
    obtain ⟨-, h3, h4⟩ := invDt_spec (C := C) (s'.ranks.octs r) (s'.data r)
    rcases (invDt_spec (C := C) (s.ranks.octs 0) (s.data 0)).1 with h5 | ⟨o, ho, x, hx, h5⟩
    · rw [h5]; exact h3
    · rw [h5]
      have ho' : o ∈ s'.ranks.octs r := by
        have := owner_mem s'.ranks.octs (show o ∈ s'.ranks.mesh from hm ▸ mem_mesh ho)
        rwa [Subsingleton.elim (owner s'.ranks.octs o) r] at this
      have h6 := h4 o ho' x hx
      have h7 := hd o (mem_mesh ho) x hx
      unfold State.field at h7
      rw [owner_eq hs ho, owner_eq hs' ho'] at h7
      rw [h7]
      exact h6
  | amr =>
    obtain ⟨hreq, hmax⟩ := marks_req hC hs
    obtain ⟨f, hf, -⟩ := adapt_spec hC.wf hC.bits hC.keys hs hreq hmax
    have hf1 := LeastCorrection.congr hf (mk' := gMark C s.ranks.mesh s.field) fun o ho => by
      rw [rank_marks hC hs ho]; rfl
    have hf2 := LeastCorrection.congr hf1 (mk' := gMark C s.ranks.mesh s'.field) fun o ho => gMark_congr hC hs hd ho
    rw [hm] at hf2
    obtain ⟨-, -, -, h1, -⟩ := amr_spec hC hs e hf1
    exact Option.isSome_iff_exists.1 (amr_isSome hC hs' hf2 (serial_nonempty hs hm h1)
      fun _ _ _ _ _ => Subsingleton.elim _ _)
  | loadBalance level =>
    obtain ⟨R, h2, -⟩ := balance_spec hC.wf hC.bits hC.keys hs' level
    exact ⟨_, show loadBalance C level _ = some _ by unfold loadBalance; rw [h2]; rfl⟩

/-- **C85.** A simulation that ends on some number of ranks ends on one rank, with the same result. -/
theorem C85_serial (hC : C.Ok) (hP : P ≤ ∏ k, C.grid.coarse k) (time : K) (ops : List Op) {t : State d P K ι}
    (h : simulate C time ops = some t) : ∃ t' : State d 1 K ι, simulate C time ops = some t' ∧ Same C.blk t t' := by
  have hP1 : 1 ≤ ∏ k, C.grid.coarse k := Nat.succ_le_of_lt (Finset.prod_pos fun k _ => hC.wf.toPos.pos k)
  obtain ⟨s, e, hs, a1, a2, a3⟩ := startSim_spec (P := P) hC hP time
  obtain ⟨s', e', hs', b1, b2, b3⟩ := startSim_spec (P := 1) hC hP1 time
  have hsame := start_same hs hs' a1 b1 a2 b2 a3 b3
  unfold simulate at h ⊢
  rw [e, Option.bind_some] at h
  rw [e', Option.bind_some]
  clear a1 a2 a3 b1 b2 b3 e e'
  induction ops generalizing s s' with
  | nil =>
    cases h
    exact ⟨s', rfl, hsame⟩
  | cons op ops ih =>
    rw [List.foldlM_cons] at h ⊢
    cases h1 : step C s op with
    | none => rw [h1] at h; cases h
    | some s1 =>
      rw [h1] at h
      obtain ⟨s1', h2⟩ := step_serial hC hs hs' hsame h1
      obtain ⟨a, b, c⟩ := step_same hC hs hs' hsame h1 h2
      rw [h2]
      exact ih s1 h a s1' b c

/-- **C85.** Nothing in a run is undefined behaviour: in every state that a run reaches, a hydro step is defined if rates
of cells are not negative; load balancing is defined; the AMR cycle is defined if and only if, for the least correction
of the markers, no family that is coarsened is spread over several ranks. -/
theorem C85_progress_partial [Nonempty ι] (hC : C.Ok) (hP : P ≤ ∏ k, C.grid.coarse k) (time : K) :
    (∃ s : State d P K ι, simulate C time [] = some s) ∧
    ∀ (ops : List Op) (s : State d P K ι), simulate C time ops = some s →
      ((∀ u z, 0 ≤ C.rate u z) → ∃ t, step C s .hydro = some t) ∧
      (∀ level, ∃ t, step C s (.loadBalance level) = some t) ∧
      ∃ mk f, (∀ o ∈ s.ranks.mesh, marks C s o = some (mk o)) ∧ LeastCorrection C.grid s.ranks.mesh mk f ∧
        ((∃ t, step C s .amr = some t) ↔ Together s.ranks.mesh f (owner s.ranks.octs)) := by
  refine ⟨?_, fun ops s h => ?_⟩
  · obtain ⟨s, e, -⟩ := startSim_spec (P := P) hC hP time
    exact ⟨s, by unfold simulate; rw [e]; rfl⟩
  have hs := simulate_ok hC hP h
  refine ⟨fun hr => ?_, fun level => ?_, ?_⟩
  · exact Option.isSome_iff_exists.1 ((hydro_isSome hC.wf hs).2 (computeDt_isSome_of hC.cfl hs hC.blk hr))
  · obtain ⟨R, h2, -⟩ := balance_spec hC.wf hC.bits hC.keys hs level
    exact ⟨_, show loadBalance C level _ = some _ by unfold loadBalance; rw [h2]; rfl⟩
  · obtain ⟨hreq, hmax⟩ := marks_req hC hs
    obtain ⟨f, hf, hrf, -⟩ := adapt_spec hC.wf hC.bits hC.keys hs hreq hmax
    have hf1 := LeastCorrection.congr hf (mk' := gMark C s.ranks.mesh s.field) fun o ho => by
      rw [rank_marks hC hs ho]; rfl
    refine ⟨_, f, fun o ho => rank_marks hC hs ho, hf1, ?_⟩
    constructor
    · rintro ⟨t, e⟩
      obtain ⟨-, -, -, -, h2, -⟩ := amr_spec hC hs e hf1
      exact h2 inferInstance
    · intro h2
      exact Option.isSome_iff_exists.1 (amr_isSome hC hs hf1 (keeps_octant hs hf.2.1 hrf h2) h2)

/-- A step of a run in which coarse octants are not split. -/
theorem step_whole (hC : C.Ok) {s : State d P K ι} (hs : Ok C s) (hw : Whole C.grid s.ranks) :
    ((∀ u z, 0 ≤ C.rate u z) → ∃ t, step C s .hydro = some t ∧ Whole C.grid t.ranks) ∧
    (∃ t, step C s .initRefine = some t ∧ Whole C.grid t.ranks) ∧
    (∃ t, step C s .amr = some t ∧ Whole C.grid t.ranks) ∧
    ∀ level ≤ C.lmax, C.lmax ≤ C.grid.lmin + level → Small P s.ranks.mesh (C.lmax - level) →
      ∃ t, step C s (.loadBalance level) = some t ∧ Whole C.grid t.ranks := by
  have hco : ∀ {mk f : Oct d → ℤ}, Requested C.grid s.ranks.mesh mk → LeastCorrection C.grid s.ranks.mesh mk f →
      ∀ a ∈ s.ranks.mesh, f a = -1 → C.grid.lmin < a.level := fun hr hf a ha hfa => by
    have := hf.1 a ha
    have := hr.lower a ha
    exact hr.coarsest a ha (by omega)
  have hto : ∀ {mk f : Oct d → ℤ}, Requested C.grid s.ranks.mesh mk → LeastCorrection C.grid s.ranks.mesh mk f →
      Together s.ranks.mesh f (owner s.ranks.octs) := fun hr hf a ha hfa b hb =>
    hw.siblings ha (hf.2.1.sib a ha hfa b hb).1 (hco hr hf a ha hfa) hb
  refine ⟨fun hr => ?_, ?_, ?_, fun level h1 h2 h3 => ?_⟩
  · obtain ⟨t, ht⟩ := Option.isSome_iff_exists.1 ((hydro_isSome hC.wf hs).2 (computeDt_isSome_of hC.cfl hs hC.blk hr))
    obtain ⟨dt, -, h2, -⟩ := hydro_spec hC.wf hC.cfl hs ht
    exact ⟨t, ht, by rw [h2]; exact hw⟩
  · obtain ⟨hr, hx⟩ := init_requested hC hs
    obtain ⟨f, hf, hrf, -, h2⟩ := adapt_spec hC.wf hC.bits hC.keys hs hr hx
    obtain ⟨R, h3, -, h4, -⟩ := h2 (keeps_octant hs hf.2.1 hrf (hto hr hf))
    exact ⟨⟨R, fun _ => C.init, s.time⟩, show initRefine C s = _ by unfold initRefine; rw [h3]; rfl,
      whole_newLeaves hs hw (hco hr hf) h4⟩
  · obtain ⟨hr, hx⟩ := marks_req hC hs
    obtain ⟨f, hf, hrf, -⟩ := adapt_spec hC.wf hC.bits hC.keys hs hr hx
    have hf1 := LeastCorrection.congr hf (mk' := gMark C s.ranks.mesh s.field) fun o ho => by
      rw [rank_marks hC hs ho]; rfl
    obtain ⟨t, ht⟩ := Option.isSome_iff_exists.1
      (amr_isSome hC hs hf1 (keeps_octant hs hf.2.1 hrf (hto hr hf)) (hto hr hf))
    refine ⟨t, ht, whole_newLeaves hs hw (hco hr hf) ?_⟩
    have h5 := ht
    unfold amr at h5
    split at h5
    swap
    · cases h5
    simp only at h5
    obtain ⟨g, -, h5⟩ := Option.bind_eq_some_iff.1 h5
    obtain ⟨R, h6, h5⟩ := Option.bind_eq_some_iff.1 h5
    split at h5
    swap
    · cases h5
    rw [Option.some.injEq] at h5
    subst h5
    exact (adapt_some hC hs hr hx h6 hf).2.1
  · obtain ⟨R, h4, -⟩ := balance_spec hC.wf hC.bits hC.keys hs level
    exact ⟨_, show loadBalance C level s = some _ by unfold loadBalance; rw [h4]; rfl,
      whole_balance hC.wf hC.bits hC.keys hs h1 h2 h3 h4⟩

/-- **C85.** A simulation fails only because of load balancing that splits coarse octants. As long as every coarse
octant is on one rank, every step succeeds (rates of cells are not negative), and this stays so; load balancing keeps
it so if its compact levels reach up to the coarsest level and no block of this size has more leaves than the share of
a rank. -/
theorem C85_whole_never_fails (hC : C.Ok) (hP : P ≤ ∏ k, C.grid.coarse k) (hr : ∀ u z, 0 ≤ C.rate u z) (time : K)
    (ops : List Op) {s : State d P K ι} (h : simulate C time ops = some s) (hw : Whole C.grid s.ranks) :
    (∀ op, (∀ level, op ≠ .loadBalance level) → ∃ t, step C s op = some t ∧ Whole C.grid t.ranks) ∧
    ∀ level ≤ C.lmax, C.lmax ≤ C.grid.lmin + level → Small P s.ranks.mesh (C.lmax - level) →
      ∃ t, step C s (.loadBalance level) = some t ∧ Whole C.grid t.ranks := by
  obtain ⟨h1, h2, h3, h4⟩ := step_whole hC (simulate_ok hC hP h) hw
  refine ⟨fun op hop => ?_, h4⟩
  cases op with
  | initRefine => exact h2
  | hydro => exact h1 hr
  | amr => exact h3
  | loadBalance level => exact absurd rfl (hop level)

/-- **C85.** A simulation without load balancing never fails, on any number of ranks up to the number of coarse
octants. -/
theorem C85_without_balancing (hC : C.Ok) (hP : P ≤ ∏ k, C.grid.coarse k) (hr : ∀ u z, 0 ≤ C.rate u z) (time : K)
    (ops : List Op) (hops : ∀ level, Op.loadBalance level ∉ ops) :
    ∃ t : State d P K ι, simulate C time ops = some t := by
  obtain ⟨s, e, hs, -, -, a3⟩ := startSim_spec (P := P) hC hP time
  have hw : Whole C.grid s.ranks := whole_start hs fun o ho => ((a3 o).1 ho).1
  unfold simulate
  rw [e, Option.bind_some]
  clear a3 e
  induction ops generalizing s with
  | nil => exact ⟨s, rfl⟩
  | cons op ops ih =>
    have hne : ∀ level, op ≠ .loadBalance level := fun level he => hops level (by rw [he]; simp)
    obtain ⟨h1, h2, h3, -⟩ := step_whole hC hs hw
    have key : ∃ t, step C s op = some t ∧ Whole C.grid t.ranks := by
      cases op with
      | initRefine => exact h2
      | hydro => exact h1 hr
      | amr => exact h3
      | loadBalance level => exact absurd rfl (hne level)
    obtain ⟨t, ht, hwt⟩ := key
    rw [List.foldlM_cons, ht]
    exact ih (fun level hm => hops level (List.mem_cons_of_mem _ hm)) t
      (foldlM_ok hC (ops := [op]) hs (by rw [List.foldlM_cons, ht]; rfl)) hwt

/-- **C85.** On one rank a simulation never fails. -/
theorem C85_serial_never_fails (hC : C.Ok) (hr : ∀ u z, 0 ≤ C.rate u z) (time : K) (ops : List Op) :
    ∃ t : State d 1 K ι, simulate C time ops = some t := by
  have hP1 : 1 ≤ ∏ k, C.grid.coarse k := Nat.succ_le_of_lt (Finset.prod_pos fun k _ => hC.wf.toPos.pos k)
  obtain ⟨s, e, hs, -⟩ := startSim_spec (P := 1) hC hP1 time
  unfold simulate
  rw [e, Option.bind_some]
  clear e
  induction ops generalizing s with
  | nil => exact ⟨s, rfl⟩
  | cons op ops ih =>
    have hw : Whole C.grid s.ranks := fun _ _ r r' _ _ _ _ _ _ => Subsingleton.elim r r'
    obtain ⟨h1, h2, h3, -⟩ := step_whole hC hs hw
    have key : ∃ t, step C s op = some t := by
      cases op with
      | initRefine => exact ⟨_, h2.choose_spec.1⟩
      | hydro => exact ⟨_, (h1 hr).choose_spec.1⟩
      | amr => exact ⟨_, h3.choose_spec.1⟩
      | loadBalance level =>
        obtain ⟨R, h4, -⟩ := balance_spec hC.wf hC.bits hC.keys hs level
        exact ⟨_, show loadBalance C level s = some _ by unfold loadBalance; rw [h4]; rfl⟩
    obtain ⟨t, ht⟩ := key
    rw [List.foldlM_cons, ht]
    exact ih t (foldlM_ok hC (ops := [op]) hs (by rw [List.foldlM_cons, ht]; rfl))

/-! ### Conservation -/

omit [LinearOrder K] [IsStrictOrderedRing K] in
theorem total_eq {s : State d P K ι} (hs : Ok C s) (i : ι) :
    total C s i = cellSum C.blk s.ranks.mesh fun o x => (vol C o : K) * s.field o x i := by
  have hm : s.ranks.mesh = Finset.univ.biUnion fun r => (s.ranks.octs r).toFinset := by
    ext o
    unfold Ranks.mesh
    rw [mem_leaves]
    simp
  unfold total cellSum
  rw [hm, Finset.sum_biUnion]
  · refine Finset.sum_congr rfl fun r _ => Finset.sum_congr rfl fun o ho => Finset.sum_congr rfl fun x _ => ?_
    simp only [State.field]
    rw [owner_eq hs (List.mem_toFinset.1 ho)]
  · intro r _ r' _ hne
    rw [Function.onFun, Finset.disjoint_left]
    intro o h h'
    exact hne (hs.rank_unique (List.mem_toFinset.1 h) (List.mem_toFinset.1 h'))

omit [Field K] [LinearOrder K] [IsStrictOrderedRing K] in
theorem vol_eq_volume (C : Config d K ι ν S) (o : Oct d) (x : Fin d → ℕ) :
    vol C o = volume C.dom (cellGrid C.grid C.blk) (cellOct C.blk o x) := by
  unfold vol volume cellSize
  refine Finset.prod_congr rfl fun k _ => ?_
  congr 1
  unfold hi lo Grid.count cellGrid cellOct
  push_cast
  ring

omit [Field K] [LinearOrder K] [IsStrictOrderedRing K] in
theorem vol_eq_cellVolume (C : Config d K ι ν S) (o : Oct d) :
    vol C o = (∏ k, (C.dom.xmax k - C.dom.xmin k)) * cellVolume C.grid C.blk o := by
  unfold vol cellVolume
  rw [Finset.prod_mul_distrib, mul_comm]

theorem step_conserved (hC : C.Ok) (hD : Domain.Ok C.dom) (hper : ∀ k, C.grid.periodic k = true) {i : ι}
    (hpost : ∀ dt u v, C.post dt u v i = v i) {s t : State d P K ι} (hs : Ok C s) {op : Op} (hop : op ≠ .initRefine)
    (e : step C s op = some t) : total C t i = total C s i := by
  have ht : Ok C t := foldlM_ok hC (ops := [op]) hs (by rw [List.foldlM_cons, e]; rfl)
  cases op with
  | initRefine => exact absurd rfl hop
  | hydro =>
    obtain ⟨dt, -, h2, -, h4⟩ := hydro_spec hC.wf hC.cfl hs e
    obtain ⟨U', h5, h6⟩ := C45_conservation hC.wf.toPos hs.tiling hs.balanced hC.dim hper hD
      (scheme C (correctDt C s.time dt) s.field (fun o x => C.toPrim (s.field o x))
        (gSlope C s.ranks.mesh s.field) i) (correctDt C s.time dt) (b := C.blk) (fun o x => s.field o x i)
    rw [total_eq ht, total_eq hs, h2]
    simp only [← vol_eq_volume] at h6
    rw [← h6]
    unfold cellSum
    refine Finset.sum_congr rfl fun o ho => Finset.sum_congr rfl fun x hx => ?_
    have hx' : ∀ k, x k < C.blk k := by simpa using hx
    have h7 : t.field o x i = U' o x := by
      unfold State.field
      rw [h2, h4 _ o (owner_mem _ ho) x hx', hpost]
      have : gFlux C s.ranks.mesh s.field (correctDt C s.time dt) o x i = some (U' o x) := h5 o ho x hx'
      rw [this]
      rfl
    simp only [h7]
  | amr =>
    obtain ⟨hreq, hmax⟩ := marks_req hC hs
    obtain ⟨f, hf, -⟩ := adapt_spec hC.wf hC.bits hC.keys hs hreq hmax
    have hf1 := LeastCorrection.congr hf (mk' := gMark C s.ranks.mesh s.field) fun o ho => by
      rw [rank_marks hC hs ho]; rfl
    obtain ⟨-, -, -, -, -, h4⟩ := amr_spec hC hs e hf1
    have hfac : ∀ u : State d P K ι, total C u i = ((∏ k, (C.dom.xmax k - C.dom.xmin k) : ℚ) : K) *
        ∑ r, ∑ o ∈ (u.ranks.octs r).toFinset, ∑ x ∈ block C.blk, (cellVolume C.grid C.blk o : K) * u.data r o x i := by
      intro u
      unfold total
      simp only [vol_eq_cellVolume, Finset.mul_sum]
      refine Finset.sum_congr rfl fun r _ => Finset.sum_congr rfl fun o _ => Finset.sum_congr rfl fun x _ => ?_
      push_cast
      ring
    have hmem : ∀ (u : State d P K ι) o, o ∈ u.ranks.mesh ↔ ∃ r, o ∈ (u.ranks.octs r).toFinset := by
      intro u o
      unfold Ranks.mesh
      rw [mem_leaves]
      simp
    have hLt : ∀ o ∈ t.ranks.mesh, o.level ≤ C.lmax + 1 := fun o ho => by have := ht.levels o ho; omega
    have hLs : ∀ o ∈ s.ranks.mesh, o.level < C.lmax + 1 := fun o ho => by have := hs.levels o ho; omega
    have hL0 : C.grid.lmin ≤ C.lmax + 1 := by have := hC.lmax; omega
    rw [hfac, hfac]
    congr 1
    rw [integral_eq hC.wf.toPos hs.tiling hC.blk ht.tiling (boxes C.blk s.field i) hL0 hLs hLt
      (fun r => (t.ranks.octs r).toFinset) (hmem t)
      (fun r r' o h h' => ht.rank_unique (List.mem_toFinset.1 h) (List.mem_toFinset.1 h')) (fun r o x => t.data r o x i)
      (fun r o ho x hx => h4 r o (List.mem_toFinset.1 ho) x hx i),
      integral_eq hC.wf.toPos hs.tiling hC.blk hs.tiling (boxes C.blk s.field i) hL0 hLs (fun o ho => (hLs o ho).le)
      (fun r => (s.ranks.octs r).toFinset) (hmem s)
      (fun r r' o h h' => hs.rank_unique (List.mem_toFinset.1 h) (List.mem_toFinset.1 h')) (fun r o x => s.data r o x i)
      (fun r o ho x hx => ?_)]
    have ho' := List.mem_toFinset.1 ho
    refine Or.inl ⟨mem_cellMesh.2 ⟨o, mem_mesh ho', x, hx, rfl⟩, ?_⟩
    rw [boxes_cell _ _ _ hx]
    unfold State.field
    rw [owner_eq hs ho']
  | loadBalance level =>
    rw [total_eq ht, total_eq hs]
    unfold step loadBalance at e
    obtain ⟨R, h1, rfl⟩ := Option.map_eq_some_iff.1 e
    obtain ⟨R2, h2, h3, h4⟩ := balance_spec hC.wf hC.bits hC.keys hs level
    rw [h1] at h2
    cases h2
    change cellSum C.blk R.mesh _ = _
    rw [h4]
    rfl

/-- **C85.** In a periodic domain the integral of a variable that is only changed by fluxes does not change during a run,
whatever hydro steps, AMR cycles and load balancing are done in which order. -/
theorem C85_conserved (hC : C.Ok) (hD : Domain.Ok C.dom) (hper : ∀ k, C.grid.periodic k = true)
    (hP : P ≤ ∏ k, C.grid.coarse k) {i : ι} (hpost : ∀ dt u v, C.post dt u v i = v i) (time : K)
    (ops ops' : List Op) (hops : Op.initRefine ∉ ops') {s t : State d P K ι} (h : simulate C time ops = some s)
    (h' : simulate C time (ops ++ ops') = some t) : total C t i = total C s i := by
  have hs := simulate_ok hC hP h
  unfold simulate at h h'
  cases h0 : startSim (P := P) C time with
  | none => rw [h0] at h; cases h
  | some s0 =>
    rw [h0, Option.bind_some] at h h'
    rw [List.foldlM_append, h] at h'
    replace h' : ops'.foldlM (step C) s = some t := h'
    clear h0 h
    induction ops' generalizing s with
    | nil => cases h'; rfl
    | cons op ops' ih =>
      rw [List.foldlM_cons] at h'
      cases h1 : step C s op with
      | none => rw [h1] at h'; cases h'
      | some s1 =>
        rw [h1] at h'
        have hs1 : Ok C s1 := foldlM_ok hC (ops := [op]) hs (by rw [List.foldlM_cons, h1]; rfl)
        rw [ih (fun hm => hops (List.mem_cons_of_mem _ hm)) hs1 h',
          step_conserved hC hD hper hpost hs (fun hm => hops (by rw [hm]; simp)) h1]

end Verif.Sim
