import Verif.Sim.World

/-!
# C93: a simulation with gas, gravity and particles does not depend on the ranks
-/

namespace Verif.Sim

open Verif.Octree Verif.Cells Verif.Adapt Verif.Flux Verif.Hydro Verif.Run Verif.Gravity Verif.Particles

variable {P Q : ℕ} {κ ν S : Type} [NeZero P] [NeZero Q] {F : Setup κ ν S}

/-! ### One iteration without ranks -/

/-- The hydro update on the whole mesh. -/
noncomputable def globalHydro (F : Setup κ ν S) (M : Finset (Oct 3)) (dt : ℚ) (U : Oct 3 → (Fin 3 → ℕ) → Var κ → ℚ) :
    Option (Oct 3 → (Fin 3 → ℕ) → Var κ → ℚ) :=
  match F.gas with
  | .off => some U
  | .oneNeighbor => some fun o x => F.cfg.post dt (U o x) fun i => (gFlux F.cfg M U dt o x i).getD 0
  | .block k => globalBlock F.blocks k M dt U
  | .rk2 E => globalRK2 F.blocks E M dt U

open Classical in
/-- The hydro update and the terms on the whole mesh. -/
noncomputable def globalGas (F : Setup κ ν S) (M : Finset (Oct 3)) (dt : ℚ) (U : Oct 3 → (Fin 3 → ℕ) → Var κ → ℚ) :
    Option (Oct 3 → (Fin 3 → ℕ) → Var κ → ℚ) :=
  (globalHydro F M dt U).bind fun V => match F.terms with
    | none => some V
    | some T => globalTerms F.blocks T M dt U V

open Classical in
/-- One iteration on the whole mesh. -/
noncomputable def globalAdvance (F : Setup κ ν S) (M : Finset (Oct 3)) (time dt : ℚ) (U : Oct 3 → (Fin 3 → ℕ) → Var κ → ℚ)
    (ps : List (Part 3)) : Option ((Oct 3 → (Fin 3 → ℕ) → Var κ → ℚ) × List (Part 3)) :=
  (globalDeposit F.project F.poisson F.cfg.lmax M (fun o x => U o x (.inl F.density)) ps).bind fun rhoG =>
    (globalGravity F.poisson M F.eps F.iters (F.source time) rhoG fun o x => U o x (.inr none)).bind fun v =>
      (globalMove F.move F.poisson F.cfg.lmax M (fun o x j => (v.2 o x j).getD 0) dt ps).bind fun ps' =>
        if ∀ p ∈ ps', InBox F.cfg.dom p.pos then
          let U' := withField U v.1 fun o x j => (v.2 o x j).getD 0
          (globalGas F M dt U').map fun V => (onlyGas V U', ps')
        else none

theorem hydro_same (hF : F.Ok) {s : State 3 P ℚ (Var κ)} (hs : Good F.cfg.bits F.cfg.lmax F.cfg.grid s.ranks) (dt : ℚ)
    (stage : Fin P → Oct 3 → (Fin 3 → ℕ) → Var κ → ℚ) {V : Oct 3 → (Fin 3 → ℕ) → Var κ → ℚ}
    (hV : Own s.ranks F.cfg.blk s.data V) :
    Both (Own s.ranks F.cfg.blk) (hydroStep F s dt stage) (globalHydro F s.ranks.mesh dt V) := by
  have hl := hF.layers
  unfold hydroStep globalHydro
  cases hg : F.gas with
  | off => exact Or.inl ⟨_, _, rfl, rfl, hV⟩
  | oneNeighbor =>
    have hfld : AgreeOn F.cfg.blk s.ranks.mesh s.field V := fun o ho x hx => hV _ o (owner_mem _ ho) x hx
    simp only [if_pos (hydroDefined hF.cfg.wf hs dt)]
    refine Or.inl ⟨_, _, rfl, rfl, fun r o ho x hx => ?_⟩
    simp only [hV r o ho x hx]
    congr 1
    funext i
    obtain ⟨a, h1, h2⟩ := rank_flux hF.cfg.wf hs ho hx dt i
    rw [h1, ← gFlux_congr hF.cfg.wf hs hfld (mem_mesh ho) hx, h2]
  | block k =>
    rw [hg] at hl
    exact blockStep_same (C := F.blocks) hF.cfg.wf hs (fun j => ⟨hl j, hF.even j⟩) k dt hV
  | rk2 E =>
    rw [hg] at hl
    exact rk2Step_same (C := F.blocks) hF.cfg.wf hs (fun j => ⟨hl j, hF.even j⟩) E dt stage hV

theorem gas_layers (g : Gas κ ν) : 2 ≤ g.layers ∧ g.layers ≤ 4 := by
  cases g with
  | block k => exact layers_le k
  | _ => exact ⟨le_refl 2, by show 2 ≤ 4; norm_num⟩

open Classical in
theorem gas_same (hF : F.Ok) {s : State 3 P ℚ (Var κ)} (hs : Good F.cfg.bits F.cfg.lmax F.cfg.grid s.ranks) (dt : ℚ)
    (stage : Fin P → Oct 3 → (Fin 3 → ℕ) → Var κ → ℚ) {V : Oct 3 → (Fin 3 → ℕ) → Var κ → ℚ}
    (hV : Own s.ranks F.cfg.blk s.data V) :
    Both (Own s.ranks F.cfg.blk) (gasStep F s dt stage) (globalGas F s.ranks.mesh dt V) := by
  refine (hydro_same hF hs dt stage hV).bind fun A B hAB => ?_
  have ht := hF.terms
  cases hT : F.terms with
  | none => exact Or.inl ⟨_, _, rfl, rfl, hAB⟩
  | some T =>
    rw [hT] at ht
    exact termsStep_same (C := F.blocks) hF.cfg.wf hs (fun j => ⟨(ht rfl).2 j, hF.even j⟩) T (gas_layers F.gas).1
      (gas_layers F.gas).2 dt hV hAB

theorem ghosts_pos (hF : F.Ok) : 1 ≤ F.ghosts := by
  have key : ∀ n, 1 ≤ n → 1 ≤ ghostCount F.cfg.blk n := by
    intro n hn
    unfold ghostCount
    generalize (List.finRange 3).filter (fun k : Fin 3 => decide (k.val < 2)) = l
    induction l generalizing n with
    | nil => exact hn
    | cons k l ih =>
      rw [List.map_cons, List.foldl_cons]
      exact ih _ (le_min hn (hF.cfg.blk k))
  unfold Setup.ghosts
  exact key _ (by have := (gas_layers F.gas).1; omega)

theorem place_spec (hF : F.Ok) {s : Ranks 3 P} (hs : Good F.cfg.bits F.cfg.lmax F.cfg.grid s)
    {ps : Fin P → List (Part 3)} :
    (∀ p ∈ allParts ps, InBox F.cfg.dom p.pos) ∧ (∃ ps', place F s ps = some ps' ∧ (allParts ps').Perm (allParts ps) ∧
      Placed F.cfg.dom F.cfg.grid s ps') ∨
    (¬ ∀ p ∈ allParts ps, InBox F.cfg.dom p.pos) ∧ place F s ps = none := by
  unfold place
  have hiff : (∀ r, ∀ p ∈ ps r, InBox F.cfg.dom p.pos) ↔ ∀ p ∈ allParts ps, InBox F.cfg.dom p.pos :=
    ⟨fun h p hp => by obtain ⟨r, hr⟩ := mem_allParts.1 hp; exact h r p hr,
      fun h r p hp => h p (mem_allParts.2 ⟨r, hp⟩)⟩
  by_cases h : ∀ p ∈ allParts ps, InBox F.cfg.dom p.pos
  · rw [if_pos (hiff.2 h)]
    exact Or.inl ⟨h, distribute_ranks hF.cfg.wf hs hF.full hF.cfg.bits hF.cfg.keys hF.dom h⟩
  · rw [if_neg fun h' => h (hiff.1 h')]
    exact Or.inr ⟨h, rfl⟩

/-- The result of an iteration on ranks and on the whole mesh. -/
def SameStep (F : Setup κ ν S) (w : World P κ) (time : ℚ) (u : World P κ)
    (v : (Oct 3 → (Fin 3 → ℕ) → Var κ → ℚ) × List (Part 3)) : Prop :=
  u.sim.ranks = w.sim.ranks ∧ u.sim.time = time ∧ Own w.sim.ranks F.cfg.blk u.sim.data v.1 ∧
    (allParts u.parts).Perm v.2 ∧ Placed F.cfg.dom F.cfg.grid w.sim.ranks u.parts

theorem advance_same (hF : F.Ok) {nz : Noise P κ} (hnz : nz.Ok) {w : World P κ}
    (hs : Good F.cfg.bits F.cfg.lmax F.cfg.grid w.sim.ranks) (hp : Placed F.cfg.dom F.cfg.grid w.sim.ranks w.parts) (dt : ℚ)
    {V : Oct 3 → (Fin 3 → ℕ) → Var κ → ℚ} (hV : Own w.sim.ranks F.cfg.blk w.sim.data V) :
    Both (SameStep F w (w.sim.time + dt)) (advanceWorld F nz w dt)
      (globalAdvance F w.sim.ranks.mesh w.sim.time dt V (allParts w.parts)) := by
  unfold advanceWorld globalAdvance
  simp only
  have hG : F.poisson.grid.WF := hF.cfg.wf
  have hb0 : ∀ k, 0 < F.poisson.blk k := hF.cfg.blk
  have hb : ∀ k, 2 ∣ F.poisson.blk k := hF.even
  have hD : Domain.Ok F.poisson.dom := hF.dom
  have hs' : Good F.cfg.bits F.cfg.lmax F.poisson.grid w.sim.ranks := hs
  rcases deposit_ranks hG hs' hD hb0 hb F.project (order := nz.order) hnz
    (rho := fun r o x => w.sim.data r o x (.inl F.density)) (grho := fun o x => V o x (.inl F.density))
    (fun r o ho x hx => congrFun (hV r o ho x hx) _) hp with ⟨a, c, e1, e2, h1⟩ | ⟨e1, e2⟩
  swap
  · rw [e1, e2]; exact Or.inr ⟨rfl, rfl⟩
  rw [e1, e2, Option.bind_some, Option.bind_some]
  rcases gravity_same hG hs' (ghosts_pos hF) F.eps F.iters (hF.source w.sim.time) h1
    (gphi := fun r o x => w.sim.data r o x (.inr none)) (phi0 := fun o x => V o x (.inr none))
    (fun r o ho x hx => congrFun (hV r o ho x hx) _) (fun r o x j => w.sim.data r o x (.inr (some j))) nz.cg with
    ⟨u, v, f1, f2, h2⟩ | ⟨f1, f2⟩
  swap
  · rw [f1, f2]; exact Or.inr ⟨rfl, rfl⟩
  rw [f1, f2, Option.bind_some, Option.bind_some]
  have hown : Own w.sim.ranks F.poisson.blk u.2 fun o x j => (v.2 o x j).getD 0 := fun r o ho x hx => by
    have := h2.2 r o ho x hx
    funext j
    show u.2 r o x j = (v.2 o x j).getD 0
    rw [← congrFun this j]
    rfl
  rcases move_ranks hG hs' hD hb0 hb F.move (ghosts_pos hF) dt hown hp with ⟨ps', l, g1, g2, rfl⟩ | ⟨g1, g2⟩
  swap
  · rw [g1, g2]; exact Or.inr ⟨rfl, rfl⟩
  rw [g1, g2, Option.bind_some, Option.bind_some]
  rcases place_spec hF hs (ps := ps') with ⟨hin, ps'', k1, k2, k3⟩ | ⟨hin, k1⟩
  swap
  · rw [k1, if_neg hin]; exact Or.inr ⟨rfl, rfl⟩
  rw [k1, if_pos hin, Option.bind_some]
  have hU' : Own w.sim.ranks F.cfg.blk (fun r => withField (w.sim.data r) (u.1 r) (u.2 r))
      (withField V v.1 fun o x j => (v.2 o x j).getD 0) := by
    intro r o ho x hx
    funext i
    unfold withField
    rcases i with c | _ | j
    · exact congrFun (hV r o ho x hx) _
    · exact h2.1 r o ho x hx
    · exact congrFun (hown r o ho x hx) j
  rcases gas_same hF (s := ⟨w.sim.ranks, fun r => withField (w.sim.data r) (u.1 r) (u.2 r), w.sim.time⟩) hs dt nz.stage hU'
    with ⟨A, B, m1, m2, m3⟩ | ⟨m1, m2⟩
  swap
  · have m2' : globalGas F w.sim.ranks.mesh dt (withField V v.1 fun o x j => (v.2 o x j).getD 0) = none := m2
    rw [m1, m2']; exact Or.inr ⟨rfl, rfl⟩
  have m2' : globalGas F w.sim.ranks.mesh dt (withField V v.1 fun o x j => (v.2 o x j).getD 0) = some B := m2
  rw [m1, m2', Option.map_some, Option.map_some]
  refine Or.inl ⟨_, _, rfl, rfl, rfl, rfl, ?_, k2, k3⟩
  intro r o ho x hx
  funext i
  show onlyGas (A r) _ o x i = onlyGas B _ o x i
  unfold onlyGas
  rcases i with c | f
  · exact congrFun (m3 r o ho x hx) _
  · exact congrFun (hU' r o ho x hx) _

theorem globalAdvance_perm (F : Setup κ ν S) (M : Finset (Oct 3)) (time dt : ℚ) (U : Oct 3 → (Fin 3 → ℕ) → Var κ → ℚ)
    {ps ps' : List (Part 3)} (h : ps.Perm ps') :
    Both (fun v v' => v.1 = v'.1 ∧ v.2.Perm v'.2) (globalAdvance F M time dt U ps) (globalAdvance F M time dt U ps') := by
  unfold globalAdvance
  rw [globalDeposit_perm _ _ _ _ _ h]
  cases globalDeposit F.project F.poisson F.cfg.lmax M (fun o x => U o x (.inl F.density)) ps' with
  | none => exact Or.inr ⟨rfl, rfl⟩
  | some rhoG =>
    rw [Option.bind_some, Option.bind_some]
    cases globalGravity F.poisson M F.eps F.iters (F.source time) rhoG fun o x => U o x (.inr none) with
    | none => exact Or.inr ⟨rfl, rfl⟩
    | some v =>
      rw [Option.bind_some, Option.bind_some]
      unfold globalMove
      rcases mapM_perm (advance F.move F.poisson F.cfg.lmax M (fun o x j => (v.2 o x j).getD 0) dt) h with
        ⟨u, u', h1, h2, h3⟩ | ⟨h1, h2⟩ <;> rw [h1, h2]
      swap
      · exact Or.inr ⟨rfl, rfl⟩
      rw [Option.bind_some, Option.bind_some]
      have hiff : (∀ p ∈ u, InBox F.cfg.dom p.pos) ↔ ∀ p ∈ u', InBox F.cfg.dom p.pos :=
        forall_congr' fun p => by rw [h3.mem_iff]
      by_cases hin : ∀ p ∈ u, InBox F.cfg.dom p.pos
      · rw [if_pos hin, if_pos (hiff.1 hin)]
        simp only
        cases globalGas F M dt (withField U v.1 fun o x j => (v.2 o x j).getD 0) with
        | none => exact Or.inr ⟨rfl, rfl⟩
        | some V => exact Or.inl ⟨_, _, rfl, rfl, rfl, h3⟩
      · rw [if_neg hin, if_neg fun h => hin (hiff.2 h)]
        exact Or.inr ⟨rfl, rfl⟩

/-! ### Steps of the time loop -/

/-- What holds in all states of a run. -/
def WorldOk (F : Setup κ ν S) (w : World P κ) : Prop :=
  Ok F.cfg w.sim ∧ Placed F.cfg.dom F.cfg.grid w.sim.ranks w.parts

theorem own_of_same {w : World P κ} {w' : World Q κ} (hs : Ok F.cfg w.sim) (hs' : Ok F.cfg w'.sim)
    (h : Same F.cfg.blk w.sim w'.sim) : Own w'.sim.ranks F.cfg.blk w'.sim.data w.sim.field := by
  obtain ⟨hm, -, hd⟩ := (same_iff hs hs').1 h
  intro r o ho x hx
  have ho' : o ∈ w.sim.ranks.mesh := by rw [hm]; exact mem_mesh ho
  rw [hd o ho' x hx]
  unfold State.field
  rw [owner_eq hs' ho]

theorem own_self {w : World P κ} (hs : Ok F.cfg w.sim) : Own w.sim.ranks F.cfg.blk w.sim.data w.sim.field := by
  intro r o ho x _
  unfold State.field
  rw [owner_eq hs ho]

/-- The time step does not depend on the ranks. -/
theorem dt_same (hF : F.Ok) {s : State 3 P ℚ (Var κ)} {s' : State 3 Q ℚ (Var κ)} (hs : Ok F.cfg s) (hs' : Ok F.cfg s')
    (h : Same F.cfg.blk s s') {dt dt' : ℚ} (e : computeDt F.cfg s = some dt) (e' : computeDt F.cfg s' = some dt') :
    correctDt F.cfg s.time dt = correctDt F.cfg s'.time dt' := by
  have k1 : (hydro F.cfg s).isSome := (hydro_isSome hF.cfg.wf hs).2 (by rw [e]; rfl)
  have k2 : (hydro F.cfg s').isSome := (hydro_isSome hF.cfg.wf hs').2 (by rw [e']; rfl)
  obtain ⟨t, ht⟩ := Option.isSome_iff_exists.1 k1
  obtain ⟨t', ht'⟩ := Option.isSome_iff_exists.1 k2
  have key := (step_same hF.cfg hs hs' h (op := .hydro) ht ht').2.2.time
  have h0 := h.time
  have ta : t.time = s.time + correctDt F.cfg s.time dt := by
    unfold hydro at ht
    rw [e, Option.bind_some] at ht
    simp only at ht
    split at ht
    · cases ht; rfl
    · cases ht
  have tb : t'.time = s'.time + correctDt F.cfg s'.time dt' := by
    unfold hydro at ht'
    rw [e', Option.bind_some] at ht'
    simp only at ht'
    split at ht'
    · cases ht'; rfl
    · cases ht'
  rw [ta, tb, h0] at key
  rw [h0]
  exact add_left_cancel key

/-- Two iterations. -/
theorem advance_meet (hF : F.Ok) {nz : Noise P κ} (hnz : nz.Ok) {nz' : Noise Q κ} (hnz' : nz'.Ok) {w : World P κ}
    {w' : World Q κ} (hw : WorldOk F w) (hw' : WorldOk F w') (h : SameWorld F.cfg.blk w w') (dt : ℚ) :
    Both (fun u u' => WorldOk F u ∧ WorldOk F u' ∧ SameWorld F.cfg.blk u u') (advanceWorld F nz w dt)
      (advanceWorld F nz' w' dt) := by
  obtain ⟨hm, ht, -⟩ := (same_iff hw.1 hw'.1).1 h.1
  have h1 := advance_same hF hnz hw.1 hw.2 dt (own_self hw.1)
  have h2 := advance_same hF hnz' hw'.1 hw'.2 dt (own_of_same hw.1 hw'.1 h.1)
  rw [← hm, ← ht] at h2
  have h3 := globalAdvance_perm F w.sim.ranks.mesh w.sim.time dt w.sim.field h.2
  rcases h1 with ⟨u, v, e1, e2, a1, a2, a3, a4, a5⟩ | ⟨e1, e2⟩ <;>
    rcases h2 with ⟨u', v', k1, k2, b1, b2, b3, b4, b5⟩ | ⟨k1, k2⟩ <;>
    rcases h3 with ⟨y, y', p1, p2, p3, p4⟩ | ⟨p1, p2⟩ <;> rw [e2] at p1 <;> rw [k2] at p2 <;>
    first | (cases p1; done) | (cases p2; done) | skip
  · cases p1
    cases p2
    have ok : Ok F.cfg u.sim := by unfold Ok; rw [a1]; exact hw.1
    have ok' : Ok F.cfg u'.sim := by unfold Ok; rw [b1]; exact hw'.1
    refine Or.inl ⟨u, u', e1, k1, ⟨ok, by rw [a1]; exact a5⟩, ⟨ok', by rw [b1]; exact b5⟩,
      (same_iff ok ok').2 ⟨by rw [a1, b1, hm], by rw [a2, b2], fun o ho x hx => ?_⟩, a4.trans (p4.trans b4.symm)⟩
    rw [a1] at ho
    unfold State.field
    rw [a1, b1, a3 _ o (owner_mem _ ho) x hx, b3 _ o (owner_mem _ (show o ∈ w'.sim.ranks.mesh from hm ▸ ho)) x hx, p3]
  · exact Or.inr ⟨e1, k1⟩

omit [NeZero P] in
theorem placed_in_box {D : Domain 3} {G : Grid 3} {s : Ranks 3 P} {ps : Fin P → List (Part 3)} (h : Placed D G s ps) :
    ∀ p ∈ allParts ps, InBox D p.pos := fun p hp => by
  obtain ⟨r, hr⟩ := mem_allParts.1 hp
  exact (h r p hr).1

/-- Particles that are in the domain can be placed on a new mesh. -/
theorem place_some (hF : F.Ok) {s : Ranks 3 P} (hs : Good F.cfg.bits F.cfg.lmax F.cfg.grid s) {ps : Fin P → List (Part 3)}
    (hp : ∀ p ∈ allParts ps, InBox F.cfg.dom p.pos) : ∃ ps', place F s ps = some ps' ∧ (allParts ps').Perm (allParts ps) ∧
      Placed F.cfg.dom F.cfg.grid s ps' := by
  rcases place_spec hF hs (ps := ps) with ⟨-, h⟩ | ⟨h, -⟩
  · exact h
  · exact absurd hp h

/-- One step of the loop on two numbers of ranks. -/
theorem act_same (hF : F.Ok) {nz : Noise P κ} (hnz : nz.Ok) {nz' : Noise Q κ} (hnz' : nz'.Ok) {w t : World P κ}
    {w' t' : World Q κ} (hw : WorldOk F w) (hw' : WorldOk F w') (h : SameWorld F.cfg.blk w w') {a : Act}
    (e : act F w (a, nz) = some t) (e' : act F w' (a, nz') = some t') :
    WorldOk F t ∧ WorldOk F t' ∧ SameWorld F.cfg.blk t t' := by
  have hamr : ∀ {op : Op} {s : State 3 P ℚ (Var κ)} {s' : State 3 Q ℚ (Var κ)}, step F.cfg w.sim op = some s →
      step F.cfg w'.sim op = some s' → ((place F s.ranks w.parts).map fun ps => (⟨s, ps⟩ : World P κ)) = some t →
      ((place F s'.ranks w'.parts).map fun ps => (⟨s', ps⟩ : World Q κ)) = some t' →
      WorldOk F t ∧ WorldOk F t' ∧ SameWorld F.cfg.blk t t' := by
    intro op s s' h1 h2 h3 h4
    obtain ⟨a1, a2, a3⟩ := step_same hF.cfg hw.1 hw'.1 h.1 h1 h2
    obtain ⟨ps, k1, k2, k3⟩ := place_some hF a1 (placed_in_box hw.2)
    obtain ⟨ps', l1, l2, l3⟩ := place_some hF a2 (placed_in_box hw'.2)
    rw [k1, Option.map_some, Option.some.injEq] at h3
    rw [l1, Option.map_some, Option.some.injEq] at h4
    subst h3
    subst h4
    exact ⟨⟨a1, k3⟩, ⟨a2, l3⟩, a3, k2.trans (h.2.trans l2.symm)⟩
  cases a with
  | iterate =>
    obtain ⟨dt, d1, e⟩ := Option.bind_eq_some_iff.1 (show timeStep F nz w = some t from e)
    obtain ⟨dt', d2, e'⟩ := Option.bind_eq_some_iff.1 (show timeStep F nz' w' = some t' from e')
    rw [← dt_same hF hw.1 hw'.1 h.1 d1 d2] at e'
    rcases advance_meet hF hnz hnz' hw hw' h (correctDt F.cfg w.sim.time dt) with ⟨u, u', k1, k2, k3⟩ | ⟨k1, -⟩
    · rw [e] at k1
      rw [e'] at k2
      cases k1
      cases k2
      exact k3
    · rw [e] at k1; cases k1
  | amr =>
    obtain ⟨s, d1, e⟩ := Option.bind_eq_some_iff.1 e
    obtain ⟨s', d2, e'⟩ := Option.bind_eq_some_iff.1 e'
    exact hamr (op := .amr) d1 d2 e e'
  | loadBalance level =>
    obtain ⟨s, d1, e⟩ := Option.bind_eq_some_iff.1 e
    obtain ⟨s', d2, e'⟩ := Option.bind_eq_some_iff.1 e'
    exact hamr (op := .loadBalance level) d1 d2 e e'

/-- What `P` ranks can do can be done by one rank. -/
theorem act_serial (hF : F.Ok) {nz : Noise P κ} (hnz : nz.Ok) {nz' : Noise 1 κ} (hnz' : nz'.Ok) {w t : World P κ}
    {w' : World 1 κ} (hw : WorldOk F w) (hw' : WorldOk F w') (h : SameWorld F.cfg.blk w w') {a : Act}
    (e : act F w (a, nz) = some t) : ∃ t', act F w' (a, nz') = some t' := by
  have hamr : ∀ {op : Op} {s : State 3 P ℚ (Var κ)}, step F.cfg w.sim op = some s →
      ∃ s' ps', step F.cfg w'.sim op = some s' ∧ place F s'.ranks w'.parts = some ps' := by
    intro op s h1
    obtain ⟨s', h2⟩ := step_serial hF.cfg hw.1 hw'.1 h.1 h1
    obtain ⟨-, a2, -⟩ := step_same hF.cfg hw.1 hw'.1 h.1 h1 h2
    obtain ⟨ps', l1, -⟩ := place_some hF a2 (placed_in_box hw'.2)
    exact ⟨s', ps', h2, l1⟩
  cases a with
  | iterate =>
    obtain ⟨dt, d1, e⟩ := Option.bind_eq_some_iff.1 (show timeStep F nz w = some t from e)
    have k1 : (hydro F.cfg w.sim).isSome := (hydro_isSome hF.cfg.wf hw.1).2 (by rw [d1]; rfl)
    obtain ⟨s, hs⟩ := Option.isSome_iff_exists.1 k1
    obtain ⟨s', hs'⟩ := step_serial hF.cfg hw.1 hw'.1 h.1 (op := .hydro) hs
    have k2 := (hydro_isSome hF.cfg.wf hw'.1).1 (show (hydro F.cfg w'.sim).isSome by
      rw [show hydro F.cfg w'.sim = some s' from hs']; rfl)
    obtain ⟨dt', d2⟩ := Option.isSome_iff_exists.1 k2
    show ∃ t', timeStep F nz' w' = some t'
    unfold timeStep
    rw [d2, Option.bind_some, ← dt_same hF hw.1 hw'.1 h.1 d1 d2]
    rcases advance_meet hF hnz hnz' hw hw' h (correctDt F.cfg w.sim.time dt) with ⟨u, u', k1, k2, -⟩ | ⟨k1, -⟩
    · exact ⟨u', k2⟩
    · rw [e] at k1; cases k1
  | amr =>
    obtain ⟨s, d1, e⟩ := Option.bind_eq_some_iff.1 e
    obtain ⟨s', ps', h2, h3⟩ := hamr (op := .amr) d1
    refine ⟨⟨s', ps'⟩, ?_⟩
    show ((amr F.cfg w'.sim).bind fun s => (place F s.ranks w'.parts).map fun ps => (⟨s, ps⟩ : World 1 κ)) = _
    rw [show amr F.cfg w'.sim = some s' from h2, Option.bind_some, h3]
    rfl
  | loadBalance level =>
    obtain ⟨s, d1, e⟩ := Option.bind_eq_some_iff.1 e
    obtain ⟨s', ps', h2, h3⟩ := hamr (op := .loadBalance level) d1
    refine ⟨⟨s', ps'⟩, ?_⟩
    show ((loadBalance F.cfg level w'.sim).bind fun s => (place F s.ranks w'.parts).map fun ps => (⟨s, ps⟩ : World 1 κ)) = _
    rw [show loadBalance F.cfg level w'.sim = some s' from h2, Option.bind_some, h3]
    rfl

theorem acts_same (hF : F.Ok) {as : List (Act × Noise P κ)} {as' : List (Act × Noise Q κ)}
    (heq : as.map Prod.fst = as'.map Prod.fst) (hn : ∀ a ∈ as, a.2.Ok) (hn' : ∀ a ∈ as', a.2.Ok) :
    ∀ {w t : World P κ} {w' t' : World Q κ}, WorldOk F w → WorldOk F w' → SameWorld F.cfg.blk w w' →
      as.foldlM (act F) w = some t → as'.foldlM (act F) w' = some t' →
      WorldOk F t ∧ WorldOk F t' ∧ SameWorld F.cfg.blk t t' := by
  induction as generalizing as' with
  | nil =>
    cases as' with
    | cons a l => cases heq
    | nil =>
      intro w t w' t' h1 h2 h3 e e'
      cases e
      cases e'
      exact ⟨h1, h2, h3⟩
  | cons a as ih =>
    cases as' with
    | nil => cases heq
    | cons a' as' =>
      obtain ⟨a, nz⟩ := a
      obtain ⟨a', nz'⟩ := a'
      simp only [List.map_cons, List.cons.injEq] at heq
      obtain ⟨rfl, heq⟩ := heq
      intro w t w' t' h1 h2 h3 e e'
      rw [List.foldlM_cons] at e e'
      obtain ⟨u, k1, e⟩ := Option.bind_eq_some_iff.1 e
      obtain ⟨u', k2, e'⟩ := Option.bind_eq_some_iff.1 e'
      obtain ⟨c1, c2, c3⟩ := act_same hF (hn _ List.mem_cons_self) (hn' _ List.mem_cons_self) h1 h2 h3 k1 k2
      exact ih heq (fun b hb => hn b (List.mem_cons_of_mem _ hb)) (fun b hb => hn' b (List.mem_cons_of_mem _ hb)) c1 c2 c3 e e'

theorem start_world (hF : F.Ok) (hP : P ≤ ∏ k, F.cfg.grid.coarse k) {time : ℚ} {inits : List Op} {s : State 3 P ℚ (Var κ)}
    (h : simulate F.cfg time inits = some s) {ps ps' : Fin P → List (Part 3)} (e : place F s.ranks ps = some ps') :
    WorldOk F ⟨s, ps'⟩ ∧ (allParts ps').Perm (allParts ps) := by
  have hs := simulate_ok hF.cfg hP h
  rcases place_spec hF hs (ps := ps) with ⟨-, ps'', h1, h2, h3⟩ | ⟨-, h1⟩ <;> rw [e] at h1 <;> cases h1
  exact ⟨⟨hs, h3⟩, h2⟩

/-- **C93.** A simulation with gas, self-gravity and particles does not depend on the number of ranks: two runs of the
same configuration, with the same initial particles on whatever ranks, that do the same steps, end with the same mesh,
time, values in all cells and particles, whenever both end; whatever the order of atomic additions and the contents of
new arrays are. Partial: coarse grids that are not full cubes are left out, there it fails (`C92_distribution_fails`). -/
theorem C93_same_result_partial (hF : F.Ok) (hP : P ≤ ∏ k, F.cfg.grid.coarse k) (hQ : Q ≤ ∏ k, F.cfg.grid.coarse k)
    (time : ℚ) (inits : List Op) {ps : Fin P → List (Part 3)} {ps' : Fin Q → List (Part 3)}
    (hps : (allParts ps).Perm (allParts ps')) {as : List (Act × Noise P κ)} {as' : List (Act × Noise Q κ)}
    (heq : as.map Prod.fst = as'.map Prod.fst) (hn : ∀ a ∈ as, a.2.Ok) (hn' : ∀ a ∈ as', a.2.Ok)
    {t : World P κ} {t' : World Q κ} (h : runWorld F time inits ps as = some t)
    (h' : runWorld F time inits ps' as' = some t') : SameWorld F.cfg.blk t t' := by
  obtain ⟨s, e1, h⟩ := Option.bind_eq_some_iff.1 h
  obtain ⟨q, e2, h⟩ := Option.bind_eq_some_iff.1 h
  obtain ⟨s', k1, h'⟩ := Option.bind_eq_some_iff.1 h'
  obtain ⟨q', k2, h'⟩ := Option.bind_eq_some_iff.1 h'
  obtain ⟨a1, a2⟩ := start_world hF hP e1 e2
  obtain ⟨b1, b2⟩ := start_world hF hQ k1 k2
  exact (acts_same hF heq hn hn' a1 b1 ⟨C85_same_result hF.cfg hP hQ time inits e1 k1, a2.trans (hps.trans b2.symm)⟩ h
    h').2.2

/-- **C93.** A simulation that ends on some number of ranks ends on one rank, with the same result. -/
theorem C93_serial_partial (hF : F.Ok) (hP : P ≤ ∏ k, F.cfg.grid.coarse k) (time : ℚ) (inits : List Op)
    {ps : Fin P → List (Part 3)} {as : List (Act × Noise P κ)} {as' : List (Act × Noise 1 κ)}
    (heq : as.map Prod.fst = as'.map Prod.fst) (hn : ∀ a ∈ as, a.2.Ok) (hn' : ∀ a ∈ as', a.2.Ok)
    {t : World P κ} (h : runWorld F time inits ps as = some t) :
    ∃ t' : World 1 κ, runWorld F time inits (fun _ => allParts ps) as' = some t' ∧ SameWorld F.cfg.blk t t' := by
  have hP1 : 1 ≤ ∏ k, F.cfg.grid.coarse k := Nat.succ_le_of_lt (Finset.prod_pos fun k _ => hF.cfg.wf.toPos.pos k)
  have hall : allParts (fun _ : Fin 1 => allParts ps) = allParts ps := by
    unfold allParts; simp
  obtain ⟨s, e1, h0⟩ := Option.bind_eq_some_iff.1 h
  clear h
  obtain ⟨q, e2, h⟩ := Option.bind_eq_some_iff.1 h0
  clear h0
  obtain ⟨a1, a2⟩ := start_world hF hP e1 e2
  obtain ⟨s', k1, k2⟩ := C85_serial hF.cfg hP time inits e1
  have hs' := simulate_ok hF.cfg hP1 k1
  obtain ⟨q', l1, l2, l3⟩ := place_some hF hs' (ps := fun _ => allParts ps) (by
    rw [hall]
    intro p hp
    exact placed_in_box a1.2 p (a2.mem_iff.2 hp))
  rw [hall] at l2
  unfold runWorld
  rw [k1, Option.bind_some, l1, Option.bind_some]
  have hsame : SameWorld F.cfg.blk (⟨s, q⟩ : World P κ) (⟨s', q'⟩ : World 1 κ) := ⟨k2, a2.trans l2.symm⟩
  have hw' : WorldOk F (⟨s', q'⟩ : World 1 κ) := ⟨hs', l3⟩
  generalize (⟨s, q⟩ : World P κ) = w at a1 hsame h
  generalize (⟨s', q'⟩ : World 1 κ) = w' at hsame hw'
  clear a2 e1 e2 k1 k2 l1 l2 l3 hs'
  induction as generalizing as' w w' with
  | nil =>
    cases as' with
    | cons a l => cases heq
    | nil =>
      cases h
      exact ⟨w', rfl, hsame⟩
  | cons a as ih =>
    cases as' with
    | nil => cases heq
    | cons a' as' =>
      obtain ⟨a, nz⟩ := a
      obtain ⟨a', nz'⟩ := a'
      simp only [List.map_cons, List.cons.injEq] at heq
      obtain ⟨rfl, heq⟩ := heq
      rw [List.foldlM_cons] at h ⊢
      obtain ⟨u, u1, h⟩ := Option.bind_eq_some_iff.1 h
      obtain ⟨u', u2⟩ := act_serial hF (hn _ List.mem_cons_self) (hn' _ List.mem_cons_self) a1 hw' hsame u1
      obtain ⟨c1, c2, c3⟩ := act_same hF (hn _ List.mem_cons_self) (hn' _ List.mem_cons_self) a1 hw' hsame u1 u2
      rw [u2]
      exact ih heq (fun b hb => hn b (List.mem_cons_of_mem _ hb)) (fun b hb => hn' b (List.mem_cons_of_mem _ hb)) u c1 h u' c3 c2

end Verif.Sim
