import Verif.Sim.Conditions

/-!
# The AMR cycle of the simulation, seen without ranks
-/

namespace Verif.Sim

open Verif.Octree Verif.Cells Verif.Adapt Verif.Flux Verif.Hydro Verif.Hydro.OneNeighbor Verif.Refine Verif.Remap Verif.Run

variable {d P : ℕ} {K ι ν S : Type} [Field K] [LinearOrder K] [NeZero P] {C : Config d K ι ν S}
  {s : State d P K ι}

/-- What the configuration must satisfy. -/
structure Config.Ok (C : Config d K ι ν S) : Prop where
  dim : d = 2 ∨ d = 3
  bits : d ≤ C.bits
  wf : C.grid.WF
  lmin : 1 ≤ C.grid.lmin
  lmax : C.grid.lmin ≤ C.lmax
  keys : C.bits * C.lmax < 64
  coarse : ∏ k, C.grid.coarse k < 2 ^ 32
  blk : ∀ k, 0 < C.blk k
  cfl : 0 < C.cfl
  depth : 0 < C.depth
  condition : C.condition.Fits := by trivial

/-- Markers on the whole mesh. -/
def gMark (C : Config d K ι ν S) (M : Finset (Oct d)) (U : Oct d → (Fin d → ℕ) → ι → K) (o : Oct d) : ℤ :=
  (marker C M U o).getD 0

theorem two_le_loopGhosts {b : Fin d → ℕ} (hb : ∀ k, 4 ≤ b k) : 2 ≤ loopGhosts b := by
  unfold loopGhosts
  generalize (List.finRange d).filter (fun k : Fin d => decide (k.val < 2)) = l
  suffices h : ∀ n, 2 ≤ n → 2 ≤ (l.map b).foldl min n from h 2 le_rfl
  induction l with
  | nil => intro n hn; simpa using hn
  | cons k l ih => exact fun n hn => ih _ (le_min hn (by have := hb k; omega))

theorem rank_marks (hC : C.Ok) (hs : Ok C s) {o : Oct d} (ho : o ∈ s.ranks.mesh) :
    marks C s o = some (gMark C s.ranks.mesh s.field o) := by
  have hr := owner_mem s.ranks.octs ho
  have ha := around hC.wf hs hr
  obtain ⟨m, h1, h2⟩ := marker_congr (C := C) ha hC.condition
    (U := exchangeLayers s.ranks C.blk (loopGhosts C.blk) s.data (owner s.ranks.octs o)) (U' := s.field)
    (exchangeLayers_near hC.wf hs _ hr loopGhosts_pos) fun hb => ⟨fun x hx =>
      (exchangeLayers_near hC.wf hs s.data hr loopGhosts_pos).1 x hx, fun o' ho' x hx hw =>
      exchangeLayers_within hC.wf hs s.data hr (two_le_loopGhosts hb) (ha.complete o' ho' (Within.touch hw)) hx hw⟩
  unfold marks gMark
  rw [h1, h2]
  rfl

theorem gMark_congr (hC : C.Ok) (hs : Ok C s) {U : Oct d → (Fin d → ℕ) → ι → K}
    (hU : AgreeOn C.blk s.ranks.mesh s.field U) {o : Oct d} (ho : o ∈ s.ranks.mesh) :
    gMark C s.ranks.mesh s.field o = gMark C s.ranks.mesh U o := by
  obtain ⟨m, h1, h2⟩ := marker_congr (C := C) (around_self hC.wf hs ho) hC.condition (U := s.field) (U' := U)
    (AgreeOn.near hU ho) fun _ => ⟨fun x hx => hU o ho x hx, fun o' ho' x hx _ => hU o' ho' x hx⟩
  unfold gMark
  rw [h1, h2]

theorem foldl_max_range (l : List ℤ) (h : ∀ m ∈ l, m ≤ 1) {a : ℤ} (ha : a = -1 ∨ a = 0) :
    a ≤ l.foldl max a ∧ l.foldl max a ≤ 1 := by
  obtain ⟨h1, h2, -⟩ := foldl_max_spec l a
  refine ⟨h2, ?_⟩
  rcases h1 with h1 | h1
  · omega
  · exact h _ h1

theorem first_eq {blk : Fin d → ℕ} (c : Condition d K ι blk) : c.first = -1 ∨ c.first = 0 := by
  cases c <;> simp [Condition.first, coarsen, noChange]

/-- What the markers satisfy. -/
theorem gMark_range (C : Config d K ι ν S) (M : Finset (Oct d)) (U : Oct d → (Fin d → ℕ) → ι → K) (o : Oct d) :
    -1 ≤ gMark C M U o ∧ gMark C M U o ≤ 1 ∧ (gMark C M U o = -1 → C.grid.lmin < o.level) ∧
      (gMark C M U o = 1 → o.level < C.lmax) := by
  unfold gMark marker
  cases hm : (cells C.blk).mapM (cellMark C M U o) with
  | none => simp
  | some l =>
    rw [mapM_eq_some] at hm
    have hl : ∀ m ∈ l, m ≤ 1 := by
      intro m hml
      have h1 : some m ∈ l.map some := List.mem_map.2 ⟨m, hml, rfl⟩
      rw [← hm] at h1
      obtain ⟨x, -, hx⟩ := List.mem_map.1 h1
      have := cellMark_three hx
      omega
    have h0 := first_eq C.condition
    obtain ⟨h1, h2⟩ := foldl_max_range l hl h0
    simp only [Option.map_some, Option.getD_some]
    generalize l.foldl max C.condition.first = m at h1 h2
    unfold adjust refine coarsen noChange
    simp only
    split
    · split <;> omega
    · split <;> omega

theorem Config.Ok.level_lt (hC : C.Ok) : C.lmax < 64 := by
  have h1 := hC.keys
  have h2 : 1 ≤ C.bits := by have := hC.bits; have := hC.dim; omega
  calc C.lmax = 1 * C.lmax := (one_mul _).symm
    _ ≤ C.bits * C.lmax := Nat.mul_le_mul_right _ h2
    _ < 64 := h1

theorem requested_of (hC : C.Ok) {R : Ranks d P} (hs : Good C.bits C.lmax C.grid R) {mk : Oct d → ℤ}
    (h : ∀ o ∈ R.mesh, -1 ≤ mk o ∧ mk o ≤ 1 ∧ (mk o = -1 → C.grid.lmin < o.level) ∧ (mk o = 1 → o.level < C.lmax)) :
    Requested C.grid R.mesh mk ∧ ∀ o ∈ R.mesh, (o.level : ℤ) + mk o ≤ C.lmax := by
  have hl := hs.levels
  have h1 := hC.lmin
  have h2 := hC.level_lt
  refine ⟨⟨fun o ho => (h o ho).1, fun o ho => (h o ho).2.1, fun o ho => (h o ho).2.2.1, fun o ho => ?_, fun o ho => ?_⟩,
    fun o ho => ?_⟩
  · obtain ⟨a1, a2, a3, a4⟩ := h o ho
    have := hl o ho
    by_cases hm : mk o = -1
    · have := a3 hm; omega
    · omega
  · have := hl o ho; omega
  · obtain ⟨a1, a2, a3, a4⟩ := h o ho
    have := hl o ho
    by_cases hm : mk o = 1
    · have := a4 hm; omega
    · omega

theorem LeastCorrection.congr {G : Grid d} {M : Finset (Oct d)} {mk mk' f : Oct d → ℤ} (h : LeastCorrection G M mk f)
    (he : ∀ o ∈ M, mk o = mk' o) : LeastCorrection G M mk' f := by
  refine ⟨fun a ha => by rw [← he a ha]; exact h.1 a ha, h.2.1, fun g hg hle => h.2.2 g hg fun a ha => ?_⟩
  rw [he a ha]; exact hle a ha

/-- `adapt` on a state of a run. -/
theorem adapt_some (hC : C.Ok) {R R' : Ranks d P} (hs : Good C.bits C.lmax C.grid R) {mk : Oct d → ℤ}
    (hr : Requested C.grid R.mesh mk) (hmax : ∀ o ∈ R.mesh, (o.level : ℤ) + mk o ≤ C.lmax)
    (h : adapt C.bits C.lmax C.grid mk R = some R') {f : Oct d → ℤ} (hf : LeastCorrection C.grid R.mesh mk f) :
    Good C.bits C.lmax C.grid R' ∧ (∀ r, R'.octs r = newLeaves f (R.octs r)) ∧ R'.mesh = newMesh f R.mesh := by
  obtain ⟨g, hg, -, h1, h2⟩ := adapt_spec hC.wf hC.bits hC.keys hs hr hmax
  have hne : ∀ r, newLeaves g (R.octs r) ≠ [] := fun r hn => by rw [h1 ⟨r, hn⟩] at h; cases h
  obtain ⟨R'', e, h3, h4, h5⟩ := h2 hne
  rw [h] at e
  cases e
  have heq : ∀ o ∈ R.mesh, g o = f o := fun o ho => hg.unique hf o ho
  refine ⟨h3, fun r => ?_, ?_⟩
  · rw [h4]
    unfold newLeaves
    exact List.flatMap_congr fun a ha => by rw [heq a (mem_mesh ha)]
  · rw [h5]
    unfold newMesh
    exact Finset.biUnion_congr rfl fun a ha => by rw [heq a ha]

/-- The field as a function of cell boxes. -/
def boxes (b : Fin d → ℕ) (U : Oct d → (Fin d → ℕ) → ι → K) (i : ι) (q : Oct d) : K :=
  U ⟨q.level, fun k => q.pos k / b k⟩ (fun k => q.pos k % b k) i

omit [LinearOrder K] [Field K] in
theorem boxes_cell {b : Fin d → ℕ} (U : Oct d → (Fin d → ℕ) → ι → K) (i : ι) (o : Oct d) {x : Fin d → ℕ}
    (hx : ∀ k, x k < b k) : boxes b U i (cellOct b o x) = U o x i := by
  have hb : ∀ k, 0 < b k := fun k => by have := hx k; omega
  have e1 : (⟨(cellOct b o x).level, fun k => (cellOct b o x).pos k / b k⟩ : Oct d) = o :=
    Oct.ext' rfl fun k => by
      simp only [cellOct]
      rw [Nat.mul_comm, Nat.mul_add_div (hb k), Nat.div_eq_of_lt (hx k), Nat.add_zero]
  have e2 : (fun k => (cellOct b o x).pos k % b k) = x := by
    funext k
    simp only [cellOct]
    rw [Nat.mul_comm, Nat.mul_add_mod, Nat.mod_eq_of_lt (hx k)]
  unfold boxes
  rw [e1, e2]

theorem mem_rankNew_of {e L : ℕ} {G : Grid d} {R : Ranks d P} (hs : Good e L G R) {f : Oct d → ℤ} {r : Fin P} {o : Oct d}
    (h : o ∈ newLeaves f (R.octs r)) : o ∈ rankNew R.dist R.mesh f r := by
  unfold newLeaves at h
  obtain ⟨a, ha, h⟩ := List.mem_flatMap.1 h
  exact (mem_rankNew _ _ _ _).2 ⟨a, mem_mesh ha, owner_eq hs ha, h⟩

variable [IsStrictOrderedRing K]

theorem marks_req (hC : C.Ok) (hs : Ok C s) :
    Requested C.grid s.ranks.mesh (fun o => (marks C s o).getD 0) ∧
      ∀ o ∈ s.ranks.mesh, (o.level : ℤ) + (marks C s o).getD 0 ≤ C.lmax := by
  refine requested_of hC hs fun o ho => ?_
  rw [rank_marks hC hs ho, Option.getD_some]
  exact gMark_range C _ _ o

/-- What the AMR cycle does, without ranks. -/
theorem amr_spec (hC : C.Ok) (hs : Ok C s) {t : State d P K ι} (h : amr C s = some t) {f : Oct d → ℤ}
    (hf : LeastCorrection C.grid s.ranks.mesh (gMark C s.ranks.mesh s.field) f) :
    Ok C t ∧ t.time = s.time ∧ t.ranks.mesh = newMesh f s.ranks.mesh ∧
      (∀ r, newLeaves f (s.ranks.octs r) ≠ []) ∧ (Nonempty ι → Together s.ranks.mesh f (owner s.ranks.octs)) ∧
      ∀ r, ∀ o ∈ t.ranks.octs r, ∀ x : Fin d → ℕ, (∀ k, x k < C.blk k) → ∀ i,
        Remapped (boxes C.blk s.field i) (cellMesh C.blk s.ranks.mesh) (cellOct C.blk o x) (t.data r o x i) := by
  unfold amr at h
  split at h
  swap
  · cases h
  simp only at h
  obtain ⟨hreq, hmax⟩ := marks_req hC hs
  have hmk : ∀ o ∈ s.ranks.mesh, gMark C s.ranks.mesh s.field o = (marks C s o).getD 0 := fun o ho => by
    rw [rank_marks hC hs ho]; rfl
  have hn : 2 * s.ranks.mesh.card < 2 * s.ranks.mesh.card + 1 := Nat.lt_succ_self _
  obtain ⟨g, e1, hg⟩ := C10_result_is_least_correction hC.wf hs.tiling hs.balanced s.ranks.dist hs.ghostComplete _ hreq
    _ _ hn hn
  have hf' := LeastCorrection.congr hf hmk
  have heq : ∀ o ∈ s.ranks.mesh, g o = f o := fun o ho => hg.unique hf' o ho
  rw [e1, Option.bind_some] at h
  cases ha : adapt C.bits C.lmax C.grid (fun o => (marks C s o).getD 0) s.ranks with
  | none => rw [ha] at h; cases h
  | some R =>
    rw [ha, Option.bind_some] at h
    split at h
    swap
    · cases h
    next hsome =>
    rw [Option.some.injEq] at h
    obtain ⟨h1, h2, h3⟩ := adapt_some hC hs hreq hmax ha hf'
    have hR := hg
    obtain ⟨g', e', hRq, -, hA, -⟩ := outerLoop_spec hC.wf hs.tiling hs.balanced s.ranks.dist hs.ghostComplete _ hn _ _
      hreq (lt_of_le_of_lt (room_le hreq) hn)
    rw [e1, Option.some.injEq] at e'
    subst e'
    have htog : ∀ i : ι, Together s.ranks.mesh g (owner s.ranks.octs) := by
      intro i
      obtain ⟨W, hW⟩ := Option.isSome_iff_exists.1 (hsome i)
      exact remapAux_together hC.wf hs.tiling hs.balanced hC.dim hs.ghostComplete hA hRq.coarsest hs.levels hC.blk hW
    subst h
    refine ⟨h1, rfl, h3, fun r => ?_, fun ⟨i⟩ => ?_, fun r o ho x hx i => ?_⟩
    · rw [← h2]; exact h1.nonempty r
    · intro a ha' hfa b hb
      exact htog i a ha' (by rw [heq a ha']; exact hfa) b hb
    · obtain ⟨W, hW⟩ := Option.isSome_iff_exists.1 (hsome i)
      have hdep : C.depth = (C.depth - 1) + 1 := by have := hC.depth; omega
      obtain ⟨W', e2, -, h4, -⟩ := C30_remap_partial hC.wf hs.tiling hs.balanced hC.dim s.ranks.dist hs.ghostComplete _ g
        hreq _ _ hn hn e1 (htog i) C.grid.lmin C.lmax hs.levels C.blk hC.blk (boxes C.blk s.field i)
        (fun r o x => s.data r o x i) (fun r o ho hr x hx => by
          rw [boxes_cell _ _ _ hx]
          unfold State.field
          rw [show owner s.ranks.octs o = r from hr]) (exchange s.ranks) (C.depth - 1)
      rw [← hdep] at e2
      have hWW : W = W' := by
        have : remapVar C s g i = some W' := e2
        rw [hW] at this
        exact Option.some.inj this
      have ho' : o ∈ newLeaves g (s.ranks.octs r) := by
        have h5 := h2 r
        have h6 : newLeaves f (s.ranks.octs r) = newLeaves g (s.ranks.octs r) := by
          unfold newLeaves
          exact List.flatMap_congr fun a ha => by rw [heq a (mem_mesh ha)]
        rw [← h6, ← h5]
        exact ho
      have := h4 r o (mem_rankNew_of hs ho') x hx
      simp only [hW, Option.getD_some, hWW]
      exact this

/-- When the AMR cycle ends. -/
theorem amr_isSome (hC : C.Ok) (hs : Ok C s) {f : Oct d → ℤ}
    (hf : LeastCorrection C.grid s.ranks.mesh (gMark C s.ranks.mesh s.field) f)
    (hne : ∀ r, newLeaves f (s.ranks.octs r) ≠ []) (hT : Together s.ranks.mesh f (owner s.ranks.octs)) :
    (amr C s).isSome := by
  obtain ⟨hreq, hmax⟩ := marks_req hC hs
  have hmk : ∀ o ∈ s.ranks.mesh, gMark C s.ranks.mesh s.field o = (marks C s o).getD 0 := fun o ho => by
    rw [rank_marks hC hs ho]; rfl
  have hn : 2 * s.ranks.mesh.card < 2 * s.ranks.mesh.card + 1 := Nat.lt_succ_self _
  obtain ⟨g, e1, hg⟩ := C10_result_is_least_correction hC.wf hs.tiling hs.balanced s.ranks.dist hs.ghostComplete _ hreq
    _ _ hn hn
  have hf' := LeastCorrection.congr hf hmk
  have heq : ∀ o ∈ s.ranks.mesh, g o = f o := fun o ho => hg.unique hf' o ho
  have hTg : Together s.ranks.mesh g s.ranks.dist.owner := fun a ha hga b hb =>
    hT a ha (by rw [← heq a ha]; exact hga) b hb
  obtain ⟨g2, hg2, -, -, h2⟩ := adapt_spec hC.wf hC.bits hC.keys hs hreq hmax
  obtain ⟨R, ha, -⟩ := h2 fun r => by
    have : newLeaves g2 (s.ranks.octs r) = newLeaves f (s.ranks.octs r) := by
      unfold newLeaves
      exact List.flatMap_congr fun a ha => by rw [hg2.unique hf' a (mem_mesh ha)]
    rw [this]
    exact hne r
  have hsome : ∀ i, (remapVar C s g i).isSome := by
    intro i
    have hdep : C.depth = (C.depth - 1) + 1 := by have := hC.depth; omega
    obtain ⟨W', e2, -⟩ := C30_remap_partial hC.wf hs.tiling hs.balanced hC.dim s.ranks.dist hs.ghostComplete _ g
      hreq _ _ hn hn e1 hTg C.grid.lmin C.lmax hs.levels C.blk hC.blk (boxes C.blk s.field i)
      (fun r o x => s.data r o x i) (fun r o ho hr x hx => by
        rw [boxes_cell _ _ _ hx]
        unfold State.field
        rw [show owner s.ranks.octs o = r from hr]) (exchange s.ranks) (C.depth - 1)
    rw [← hdep] at e2
    have : remapVar C s g i = some W' := e2
    rw [this]; rfl
  unfold amr
  rw [if_pos fun o ho => by rw [rank_marks hC hs ho]; rfl]
  simp only
  rw [e1, Option.bind_some, ha, Option.bind_some, if_pos hsome]
  rfl

end Verif.Sim
