import Verif.Sim.Props

/-!
# The AMR cycle with markers from anywhere

`amr` of C85 has its markers from the fields of the cells. Here they are any, so that a condition may use the particles
(`RefineCondition_mass`, C110).
-/

namespace Verif.Sim

open Verif.Octree Verif.Cells Verif.Adapt Verif.Flux Verif.Hydro Verif.Hydro.OneNeighbor Verif.Refine Verif.Remap Verif.Run

variable {d P P' : ℕ} {K ι ν S : Type} [Field K] [LinearOrder K] [NeZero P] [NeZero P'] {C : Config d K ι ν S}
  {s : State d P K ι}

open Classical in
/-- `DyabloTimeLoop.h` L757-794 after the markers are set. -/
noncomputable def amrWith (C : Config d K ι ν S) (mk : Oct d → ℤ) (s : State d P K ι) : Option (State d P K ι) :=
  let n := 2 * s.ranks.mesh.card + 1
  (outerLoop C.grid s.ranks.dist s.ranks.mesh n n mk).bind fun f =>
    (adapt C.bits C.lmax C.grid mk s.ranks).bind fun R =>
      if ∀ i, (remapVar C s f i).isSome then
        some ⟨R, fun r o x i => ((remapVar C s f i).getD fun _ _ _ => 0) r o x, s.time⟩
      else none

open Classical in
/-- It is what `amr` does with its markers. -/
theorem amr_eq_with (C : Config d K ι ν S) (s : State d P K ι) :
    amr C s = if ∀ o ∈ s.ranks.mesh, (marks C s o).isSome then amrWith C (fun o => (marks C s o).getD 0) s else none := rfl

/-- Markers that conditions set. -/
def Asked (C : Config d K ι ν S) (M : Finset (Oct d)) (mk : Oct d → ℤ) : Prop :=
  ∀ o ∈ M, -1 ≤ mk o ∧ mk o ≤ 1 ∧ (mk o = -1 → C.grid.lmin < o.level) ∧ (mk o = 1 → o.level < C.lmax)

variable [IsStrictOrderedRing K]

/-- What the AMR cycle does, without ranks. -/
theorem amrWith_spec (hC : C.Ok) (hs : Ok C s) {mk : Oct d → ℤ} (hmk : Asked C s.ranks.mesh mk) {t : State d P K ι} (h : amrWith C mk s = some t) {f : Oct d → ℤ}
    (hf : LeastCorrection C.grid s.ranks.mesh mk f) :
    Ok C t ∧ t.time = s.time ∧ t.ranks.mesh = newMesh f s.ranks.mesh ∧
      (∀ r, newLeaves f (s.ranks.octs r) ≠ []) ∧ (Nonempty ι → Together s.ranks.mesh f (owner s.ranks.octs)) ∧
      ∀ r, ∀ o ∈ t.ranks.octs r, ∀ x : Fin d → ℕ, (∀ k, x k < C.blk k) → ∀ i,
        Remapped (boxes C.blk s.field i) (cellMesh C.blk s.ranks.mesh) (cellOct C.blk o x) (t.data r o x i) := by
  unfold amrWith at h
  simp only at h
  obtain ⟨hreq, hmax⟩ := requested_of hC hs hmk
  have hn : 2 * s.ranks.mesh.card < 2 * s.ranks.mesh.card + 1 := Nat.lt_succ_self _
  obtain ⟨g, e1, hg⟩ := C10_result_is_least_correction hC.wf hs.tiling hs.balanced s.ranks.dist hs.ghostComplete _ hreq
    _ _ hn hn
  have hf' := hf
  have heq : ∀ o ∈ s.ranks.mesh, g o = f o := fun o ho => hg.unique hf' o ho
  rw [e1, Option.bind_some] at h
  cases ha : adapt C.bits C.lmax C.grid mk s.ranks with
  | none => rw [ha] at h; cases h
  | some R =>
    rw [ha, Option.bind_some] at h
    split at h
    swap
    · cases h
    next hsome =>
    rw [Option.some.injEq] at h
    obtain ⟨h1, h2, h3⟩ := adapt_some hC hs hreq hmax ha hf'
    have hR := hg
    obtain ⟨g', e', hRq, -, hA, -⟩ := outerLoop_spec hC.wf hs.tiling hs.balanced s.ranks.dist hs.ghostComplete _ hn _ _
      hreq (lt_of_le_of_lt (room_le hreq) hn)
    rw [e1, Option.some.injEq] at e'
    subst e'
    have htog : ∀ i : ι, Together s.ranks.mesh g (owner s.ranks.octs) := by
      intro i
      obtain ⟨W, hW⟩ := Option.isSome_iff_exists.1 (hsome i)
      exact remapAux_together hC.wf hs.tiling hs.balanced hC.dim hs.ghostComplete hA hRq.coarsest hs.levels hC.blk hW
    subst h
    refine ⟨h1, rfl, h3, fun r => ?_, fun ⟨i⟩ => ?_, fun r o ho x hx i => ?_⟩
    · rw [← h2]; exact h1.nonempty r
    · intro a ha' hfa b hb
      exact htog i a ha' (by rw [heq a ha']; exact hfa) b hb
    · obtain ⟨W, hW⟩ := Option.isSome_iff_exists.1 (hsome i)
      have hdep : C.depth = (C.depth - 1) + 1 := by have := hC.depth; omega
      obtain ⟨W', e2, -, h4, -⟩ := C30_remap_partial hC.wf hs.tiling hs.balanced hC.dim s.ranks.dist hs.ghostComplete _ g
        hreq _ _ hn hn e1 (htog i) C.grid.lmin C.lmax hs.levels C.blk hC.blk (boxes C.blk s.field i)
        (fun r o x => s.data r o x i) (fun r o ho hr x hx => by
          rw [boxes_cell _ _ _ hx]
          unfold State.field
          rw [show owner s.ranks.octs o = r from hr]) (exchange s.ranks) (C.depth - 1)
      rw [← hdep] at e2
      have hWW : W = W' := by
        have : remapVar C s g i = some W' := e2
        rw [hW] at this
        exact Option.some.inj this
      have ho' : o ∈ newLeaves g (s.ranks.octs r) := by
        have h5 := h2 r
        have h6 : newLeaves f (s.ranks.octs r) = newLeaves g (s.ranks.octs r) := by
          unfold newLeaves
          exact List.flatMap_congr fun a ha => by rw [heq a (mem_mesh ha)]
        rw [← h6, ← h5]
        exact ho
      have := h4 r o (mem_rankNew_of hs ho') x hx
      simp only [hW, Option.getD_some, hWW]
      exact this

/-- When the AMR cycle ends. -/
theorem amrWith_isSome (hC : C.Ok) (hs : Ok C s) {mk : Oct d → ℤ} (hmk : Asked C s.ranks.mesh mk) {f : Oct d → ℤ}
    (hf : LeastCorrection C.grid s.ranks.mesh mk f)
    (hne : ∀ r, newLeaves f (s.ranks.octs r) ≠ []) (hT : Together s.ranks.mesh f (owner s.ranks.octs)) :
    (amrWith C mk s).isSome := by
  obtain ⟨hreq, hmax⟩ := requested_of hC hs hmk
  have hn : 2 * s.ranks.mesh.card < 2 * s.ranks.mesh.card + 1 := Nat.lt_succ_self _
  obtain ⟨g, e1, hg⟩ := C10_result_is_least_correction hC.wf hs.tiling hs.balanced s.ranks.dist hs.ghostComplete _ hreq
    _ _ hn hn
  have hf' := hf
  have heq : ∀ o ∈ s.ranks.mesh, g o = f o := fun o ho => hg.unique hf' o ho
  have hTg : Together s.ranks.mesh g s.ranks.dist.owner := fun a ha hga b hb =>
    hT a ha (by rw [← heq a ha]; exact hga) b hb
  obtain ⟨g2, hg2, -, -, h2⟩ := adapt_spec hC.wf hC.bits hC.keys hs hreq hmax
  obtain ⟨R, ha, -⟩ := h2 fun r => by
    have : newLeaves g2 (s.ranks.octs r) = newLeaves f (s.ranks.octs r) := by
      unfold newLeaves
      exact List.flatMap_congr fun a ha => by rw [hg2.unique hf' a (mem_mesh ha)]
    rw [this]
    exact hne r
  have hsome : ∀ i, (remapVar C s g i).isSome := by
    intro i
    have hdep : C.depth = (C.depth - 1) + 1 := by have := hC.depth; omega
    obtain ⟨W', e2, -⟩ := C30_remap_partial hC.wf hs.tiling hs.balanced hC.dim s.ranks.dist hs.ghostComplete _ g
      hreq _ _ hn hn e1 hTg C.grid.lmin C.lmax hs.levels C.blk hC.blk (boxes C.blk s.field i)
      (fun r o x => s.data r o x i) (fun r o ho hr x hx => by
        rw [boxes_cell _ _ _ hx]
        unfold State.field
        rw [show owner s.ranks.octs o = r from hr]) (exchange s.ranks) (C.depth - 1)
    rw [← hdep] at e2
    have : remapVar C s g i = some W' := e2
    rw [this]; rfl
  unfold amrWith
  simp only
  rw [e1, Option.bind_some, ha, Option.bind_some, if_pos hsome]
  rfl

/-- The cycle on two numbers of ranks. -/
theorem amrWith_same (hC : C.Ok) {s t : State d P K ι} {s' t' : State d P' K ι} (hs : Ok C s) (hs' : Ok C s')
    (h : Same C.blk s s') {mk mk' : Oct d → ℤ} (hmk : Asked C s.ranks.mesh mk) (heq : ∀ o ∈ s.ranks.mesh, mk o = mk' o)
    (e : amrWith C mk s = some t) (e' : amrWith C mk' s' = some t') : Ok C t ∧ Ok C t' ∧ Same C.blk t t' := by
  obtain ⟨hm, ht, hd⟩ := (same_iff hs hs').1 h
  have hmk' : Asked C s'.ranks.mesh mk' := fun o ho => by
    rw [← hm] at ho; rw [← heq o ho]; exact hmk o ho
  obtain ⟨hreq, hmax⟩ := requested_of hC hs hmk
  obtain ⟨f, hf, -⟩ := adapt_spec hC.wf hC.bits hC.keys hs hreq hmax
  have hf2 := LeastCorrection.congr hf heq
  rw [hm] at hf2
  obtain ⟨h1, h2, h3, -, -, h4⟩ := amrWith_spec hC hs hmk e hf
  obtain ⟨h1', h2', h3', -, -, h4'⟩ := amrWith_spec hC hs' hmk' e' hf2
  refine ⟨h1, h1', (same_iff h1 h1').2 ⟨by rw [h3, h3', hm], by rw [h2, h2', ht], fun o ho x hx => ?_⟩⟩
  funext i
  have ho' : o ∈ t'.ranks.mesh := by rw [h3', ← hm, ← h3]; exact ho
  have hA := cellMesh_tiling hC.wf.toPos hC.blk hs.tiling
  have r1 := h4 _ o (owner_mem _ ho) x hx i
  have r2 := h4' _ o (owner_mem _ ho') x hx i
  rw [← hm] at r2
  refine Remapped.unique (cellGrid_pos hC.wf.toPos hC.blk) hA (fun q hq => ?_) r1 r2
  obtain ⟨o', ho', x', hx', rfl⟩ := mem_cellMesh.1 hq
  rw [boxes_cell _ _ _ hx', boxes_cell _ _ _ hx', hd o' ho' x' hx']

/-- What `P` ranks can do can be done by one rank. -/
theorem amrWith_serial (hC : C.Ok) {s t : State d P K ι} {s' : State d 1 K ι} (hs : Ok C s) (hs' : Ok C s')
    (h : Same C.blk s s') {mk mk' : Oct d → ℤ} (hmk : Asked C s.ranks.mesh mk) (heq : ∀ o ∈ s.ranks.mesh, mk o = mk' o)
    (e : amrWith C mk s = some t) : ∃ t', amrWith C mk' s' = some t' := by
  obtain ⟨hm, ht, hd⟩ := (same_iff hs hs').1 h
  have hmk' : Asked C s'.ranks.mesh mk' := fun o ho => by
    rw [← hm] at ho; rw [← heq o ho]; exact hmk o ho
  obtain ⟨hreq, hmax⟩ := requested_of hC hs hmk
  obtain ⟨f, hf, -⟩ := adapt_spec hC.wf hC.bits hC.keys hs hreq hmax
  have hf2 := LeastCorrection.congr hf heq
  rw [hm] at hf2
  obtain ⟨-, -, -, h1, -⟩ := amrWith_spec hC hs hmk e hf
  exact Option.isSome_iff_exists.1 (amrWith_isSome hC hs' hmk' hf2 (serial_nonempty hs hm h1)
    fun _ _ _ _ _ => Subsingleton.elim _ _)

/-- The cycle keeps the integrals of all fields. -/
theorem amrWith_conserved (hC : C.Ok) {s t : State d P K ι} (hs : Ok C s) {mk : Oct d → ℤ}
    (hmk : Asked C s.ranks.mesh mk) (e : amrWith C mk s = some t) (i : ι) : total C t i = total C s i := by
  obtain ⟨hreq, hmax⟩ := requested_of hC hs hmk
  obtain ⟨f, hf, -⟩ := adapt_spec hC.wf hC.bits hC.keys hs hreq hmax
  obtain ⟨ht, -, -, -, -, h4⟩ := amrWith_spec hC hs hmk e hf
  have hfac : ∀ u : State d P K ι, total C u i = ((∏ k, (C.dom.xmax k - C.dom.xmin k) : ℚ) : K) *
      ∑ r, ∑ o ∈ (u.ranks.octs r).toFinset, ∑ x ∈ block C.blk, (cellVolume C.grid C.blk o : K) * u.data r o x i := by
    intro u
    unfold total
    simp only [vol_eq_cellVolume, Finset.mul_sum]
    refine Finset.sum_congr rfl fun r _ => Finset.sum_congr rfl fun o _ => Finset.sum_congr rfl fun x _ => ?_
    push_cast
    ring
  have hmem : ∀ (u : State d P K ι) o, o ∈ u.ranks.mesh ↔ ∃ r, o ∈ (u.ranks.octs r).toFinset := by
    intro u o
    unfold Ranks.mesh
    rw [mem_leaves]
    simp
  have hLt : ∀ o ∈ t.ranks.mesh, o.level ≤ C.lmax + 1 := fun o ho => by have := ht.levels o ho; omega
  have hLs : ∀ o ∈ s.ranks.mesh, o.level < C.lmax + 1 := fun o ho => by have := hs.levels o ho; omega
  have hL0 : C.grid.lmin ≤ C.lmax + 1 := by have := hC.lmax; omega
  rw [hfac, hfac]
  congr 1
  rw [integral_eq hC.wf.toPos hs.tiling hC.blk ht.tiling (boxes C.blk s.field i) hL0 hLs hLt
    (fun r => (t.ranks.octs r).toFinset) (hmem t)
    (fun r r' o h h' => ht.rank_unique (List.mem_toFinset.1 h) (List.mem_toFinset.1 h')) (fun r o x => t.data r o x i)
    (fun r o ho x hx => h4 r o (List.mem_toFinset.1 ho) x hx i),
    integral_eq hC.wf.toPos hs.tiling hC.blk hs.tiling (boxes C.blk s.field i) hL0 hLs (fun o ho => (hLs o ho).le)
    (fun r => (s.ranks.octs r).toFinset) (hmem s)
    (fun r r' o h h' => hs.rank_unique (List.mem_toFinset.1 h) (List.mem_toFinset.1 h')) (fun r o x => s.data r o x i)
    (fun r o ho x hx => ?_)]
  have ho' := List.mem_toFinset.1 ho
  refine Or.inl ⟨mem_cellMesh.2 ⟨o, mem_mesh ho', x, hx, rfl⟩, ?_⟩
  rw [boxes_cell _ _ _ hx]
  unfold State.field
  rw [owner_eq hs ho']

/-- Octants that are marked for refinement are cut. -/
theorem amrWith_cuts (hC : C.Ok) {s t : State d P K ι} (hs : Ok C s) {mk : Oct d → ℤ}
    (hmk : Asked C s.ranks.mesh mk) (e : amrWith C mk s = some t) {o c : Oct d} (ho : o ∈ s.ranks.mesh) (h1 : mk o = 1)
    (hl : c.level = o.level + 1) (hp : ∀ k, c.pos k / 2 = o.pos k) : c ∈ t.ranks.mesh := by
  obtain ⟨hreq, hmax⟩ := requested_of hC hs hmk
  obtain ⟨f, hf, hf1, -⟩ := adapt_spec hC.wf hC.bits hC.keys hs hreq hmax
  obtain ⟨-, -, h3, -⟩ := amrWith_spec hC hs hmk e hf
  rw [h3]
  refine (mem_newMesh hf.2.1 c).2 ⟨o, ho, Or.inl ⟨?_, hl, hp⟩⟩
  have h2 := hf.1 o ho
  have := hf1 o ho
  omega

end Verif.Sim
