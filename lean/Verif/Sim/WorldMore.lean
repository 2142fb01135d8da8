import Verif.Sim.WorldProps
import Verif.Sim.TermsCheck

/-!
# C93: mass, and iterations that are defined
-/

namespace Verif.Sim

open Verif.Octree Verif.Cells Verif.Adapt Verif.Flux Verif.Hydro Verif.Run Verif.Gravity Verif.Particles

variable {P Q : ℕ} {κ ν S : Type} [NeZero P] [NeZero Q] {F : Setup κ ν S}

/-! ### States of a run -/

theorem SameWorld.refl {w : World P κ} (hw : WorldOk F w) : SameWorld F.cfg.blk w w :=
  ⟨Same.refl hw.1, List.Perm.refl _⟩

theorem acts_ok (hF : F.Ok) {as : List (Act × Noise P κ)} (hn : ∀ a ∈ as, a.2.Ok) {w t : World P κ} (hw : WorldOk F w)
    (e : as.foldlM (act F) w = some t) : WorldOk F t :=
  (acts_same hF rfl hn hn hw hw (SameWorld.refl hw) e e).1

theorem run_ok (hF : F.Ok) (hP : P ≤ ∏ k, F.cfg.grid.coarse k) {time : ℚ} {inits : List Op} {ps : Fin P → List (Part 3)}
    {as : List (Act × Noise P κ)} (hn : ∀ a ∈ as, a.2.Ok) {t : World P κ} (h : runWorld F time inits ps as = some t) :
    WorldOk F t := by
  obtain ⟨s, e1, h⟩ := Option.bind_eq_some_iff.1 h
  obtain ⟨q, e2, h⟩ := Option.bind_eq_some_iff.1 h
  exact acts_ok hF hn (start_world hF hP e1 e2).1 h

/-! ### One iteration -/

/-- After any run, an iteration on all ranks makes the step of `globalAdvance`, which knows no ranks: the time step is the
least that a cell allows, cut at the end of the run. -/
theorem C93_iteration_partial (hF : F.Ok) (hP : P ≤ ∏ k, F.cfg.grid.coarse k) (time : ℚ) (inits : List Op)
    {ps : Fin P → List (Part 3)} {as : List (Act × Noise P κ)} (hn : ∀ a ∈ as, a.2.Ok) {w : World P κ}
    (h : runWorld F time inits ps as = some w) {nz : Noise P κ} (hnz : nz.Ok) {u : World P κ}
    (hu : act F w (.iterate, nz) = some u) :
    ∃ t dt v, IsLeast (Allowed F.cfg w.sim.ranks.mesh w.sim.field) t ∧ (F.cfg.tEnd = none → dt = t) ∧
      (∀ T, F.cfg.tEnd = some T → dt = min t (T - w.sim.time)) ∧
      globalAdvance F w.sim.ranks.mesh w.sim.time dt w.sim.field (allParts w.parts) = some v ∧
      u.sim.ranks = w.sim.ranks ∧ u.sim.time = w.sim.time + dt ∧ AgreeOn F.cfg.blk w.sim.ranks.mesh u.sim.field v.1 ∧
      (allParts u.parts).Perm v.2 := by
  have hw := run_ok hF hP hn h
  obtain ⟨t, ht, hu1⟩ := Option.bind_eq_some_iff.1 (show ((computeDt F.cfg w.sim).bind fun dt =>
    advanceWorld F nz w (correctDt F.cfg w.sim.time dt)) = some u from hu)
  rcases advance_same hF hnz hw.1 hw.2 (correctDt F.cfg w.sim.time t) (own_self hw.1) with
    ⟨u', v, e1, e2, a1, a2, a3, a4, -⟩ | ⟨e1, -⟩
  swap
  · rw [hu1] at e1; cases e1
  rw [hu1] at e1
  cases e1
  refine ⟨t, correctDt F.cfg w.sim.time t, v, dt_isLeast hF.cfg.cfl hw.1 ht, fun hT => ?_, fun T hT => ?_, e2, a1, a2,
    fun o ho x hx => ?_, a4⟩
  · unfold correctDt; rw [hT]
  · unfold correctDt; rw [hT]
    simp only
    split_ifs with hlt
    · rw [min_eq_right]; linarith
    · rw [min_eq_left]; linarith
  · unfold State.field
    rw [a1]
    exact a3 _ o (owner_mem _ ho) x hx

/-! ### Particles -/

theorem advance_mass {k : Cloud} {C : Poisson 3} {L : ℕ} {M : Finset (Oct 3)} {g : Oct 3 → (Fin 3 → ℕ) → Fin 3 → ℚ}
    {dt : ℚ} {p p' : Part 3} (h : advance k C L M g dt p = some p') : p'.mass = p.mass := by
  unfold advance at h
  obtain ⟨q, -, rfl⟩ := Option.map_eq_some_iff.1 h
  rfl

theorem move_masses {k : Cloud} {C : Poisson 3} {L : ℕ} {M : Finset (Oct 3)} {g : Oct 3 → (Fin 3 → ℕ) → Fin 3 → ℚ}
    {dt : ℚ} {l l' : List (Part 3)} (h : globalMove k C L M g dt l = some l') : l'.map Part.mass = l.map Part.mass := by
  unfold globalMove at h
  induction l generalizing l' with
  | nil => cases h; rfl
  | cons a l ih =>
    rw [List.mapM_cons] at h
    cases ha : advance k C L M g dt a with
    | none => rw [ha] at h; cases h
    | some a' =>
      rw [ha] at h
      cases hl : l.mapM (advance k C L M g dt) with
      | none => rw [hl] at h; cases h
      | some r =>
        rw [hl] at h
        cases h
        rw [List.map_cons, List.map_cons, ih hl, advance_mass ha]

theorem act_masses (hF : F.Ok) {nz : Noise P κ} (hnz : nz.Ok) {w t : World P κ} (hw : WorldOk F w) {a : Act}
    (e : act F w (a, nz) = some t) : ((allParts t.parts).map Part.mass).Perm ((allParts w.parts).map Part.mass) := by
  have hpl : ∀ {op : Op} {s : State 3 P ℚ (Var κ)}, step F.cfg w.sim op = some s →
      ((place F s.ranks w.parts).map fun ps => (⟨s, ps⟩ : World P κ)) = some t → (allParts t.parts).Perm (allParts w.parts) := by
    intro op s h1 h2
    obtain ⟨a1, -⟩ := step_same hF.cfg hw.1 hw.1 (Same.refl hw.1) h1 h1
    obtain ⟨ps, k1, k2, -⟩ := place_some hF a1 (placed_in_box hw.2)
    rw [k1, Option.map_some, Option.some.injEq] at h2
    subst h2
    exact k2
  cases a with
  | iterate =>
    obtain ⟨dt, d1, e⟩ := Option.bind_eq_some_iff.1 (show timeStep F nz w = some t from e)
    rcases advance_same hF hnz hw.1 hw.2 (correctDt F.cfg w.sim.time dt) (own_self hw.1) with
      ⟨u, v, e1, e2, -, -, -, h4, -⟩ | ⟨e1, -⟩
    swap
    · rw [e] at e1; cases e1
    rw [e] at e1
    cases e1
    unfold globalAdvance at e2
    obtain ⟨_, -, e2⟩ := Option.bind_eq_some_iff.1 e2
    obtain ⟨_, -, e2⟩ := Option.bind_eq_some_iff.1 e2
    obtain ⟨l, e3, e2⟩ := Option.bind_eq_some_iff.1 e2
    split at e2
    swap
    · cases e2
    obtain ⟨V, -, rfl⟩ := Option.map_eq_some_iff.1 e2
    rw [← move_masses e3]
    exact h4.map _
  | amr =>
    obtain ⟨s, d1, e⟩ := Option.bind_eq_some_iff.1 e
    exact (hpl (op := .amr) d1 e).map _
  | loadBalance level =>
    obtain ⟨s, d1, e⟩ := Option.bind_eq_some_iff.1 e
    exact (hpl (op := .loadBalance level) d1 e).map _

/-- **C93** (particles). During a run no particle is lost or doubled and no mass changes, and every particle is in the
domain, on the rank that holds the octant it is in. -/
theorem C93_particles_partial (hF : F.Ok) (hP : P ≤ ∏ k, F.cfg.grid.coarse k) (time : ℚ) (inits : List Op)
    {ps : Fin P → List (Part 3)} {as : List (Act × Noise P κ)} (hn : ∀ a ∈ as, a.2.Ok) {t : World P κ}
    (h : runWorld F time inits ps as = some t) :
    ((allParts t.parts).map Part.mass).Perm ((allParts ps).map Part.mass) ∧
      Placed F.cfg.dom F.cfg.grid t.sim.ranks t.parts := by
  refine ⟨?_, (run_ok hF hP hn h).2⟩
  obtain ⟨s, e1, h0⟩ := Option.bind_eq_some_iff.1 h
  clear h
  obtain ⟨q, e2, h⟩ := Option.bind_eq_some_iff.1 h0
  clear h0
  obtain ⟨a1, a2⟩ := start_world hF hP e1 e2
  refine List.Perm.trans ?_ (a2.map Part.mass)
  have hq : q = (⟨s, q⟩ : World P κ).parts := rfl
  rw [hq]
  generalize (⟨s, q⟩ : World P κ) = w at a1 h
  clear a2 e1 e2 hq
  induction as generalizing w with
  | nil => cases h; exact List.Perm.refl _
  | cons a as ih =>
    obtain ⟨a, nz⟩ := a
    rw [List.foldlM_cons] at h
    obtain ⟨u, u1, h⟩ := Option.bind_eq_some_iff.1 h
    have hu := acts_ok hF (as := [(a, nz)]) (fun b hb => hn b (by rw [List.mem_singleton] at hb; subst hb; simp)) a1
      (by rw [List.foldlM_cons, u1]; rfl)
    exact (ih (fun b hb => hn b (List.mem_cons_of_mem _ hb)) u hu h).trans (act_masses hF (hn _ List.mem_cons_self) a1 u1)

/-! ### Gas -/

/-- Gas that is not moved, or moved by `HydroUpdate_hancock_oneneighbor`, or by `HydroUpdate_euler` or `HydroUpdate_RK2`
without `well_balanced`. -/
def Gas.Conservative : Gas κ ν → Prop
  | .off => True
  | .oneNeighbor => True
  | .block (.hancock _) => False
  | .block (.euler E) => ∀ i, (E i).shift = none
  | .rk2 E => ∀ i, (E i).shift = none

theorem euler_total {M : Finset (Oct 3)} (hG : F.cfg.grid.WF) (hM : Tiling F.cfg.grid M) (hB : Balanced F.cfg.grid M)
    (hper : ∀ k, F.cfg.grid.periodic k = true) (hD : Domain.Ok F.cfg.dom) (hb : ∀ k, 4 ≤ F.cfg.blk k ∧ 2 ∣ F.cfg.blk k)
    {E : Var κ → Euler.Scheme 3 ℚ ν (Var κ → ℚ)} (hE : ∀ i, (E i).shift = none) {i : Var κ}
    (hpost : ∀ dt u v, F.cfg.post dt u v i = v i) {dt : ℚ} {U V : Oct 3 → (Fin 3 → ℕ) → Var κ → ℚ}
    (h : globalBlock F.blocks (.euler E) M dt U = some V) :
    cellSum F.cfg.blk M (fun o x => vol F.cfg o * V o x i) = cellSum F.cfg.blk M (fun o x => vol F.cfg o * U o x i) := by
  obtain ⟨U', h1, h2⟩ := Verif.Hydro.Euler.C45_euler_conservation_partial hG.toPos hM hB (Or.inr rfl) hper hD hb (E i) (hE i)
    (F.blocks.source U) dt fun o x => U o x i
  simp only [← vol_eq_volume, Rat.cast_id] at h2
  rw [← h2]
  unfold cellSum
  refine Finset.sum_congr rfl fun o ho => Finset.sum_congr rfl fun x hx => ?_
  have hx' : ∀ k, x k < F.cfg.blk k := by simpa using hx
  have h3 : V o x i = U' o x := by
    unfold globalBlock at h
    split_ifs at h with hd
    rw [← Option.some.inj h]
    show F.cfg.post dt (U o x) (fun j => (Kernel.run (.euler E) F.blocks M dt U o x j).getD 0) i = U' o x
    rw [hpost]
    have : Kernel.run (.euler E) F.blocks M dt U o x i = some (U' o x) := h1 o ho x hx'
    rw [this]; rfl
  simp only [h3]

/-- A term leaves the other variables as they are. -/
theorem cell_other {C : Blocks 3 ℚ (Var κ)} [DecidableEq (Var κ)] {T : Terms 3 ℚ (Var κ)} {i : Var κ} (hi : i ≠ T.energy)
    (hm : ∀ a, i ≠ T.mom a) {M : Finset (Oct 3)} {dt : ℚ} {U : Oct 3 → (Fin 3 → ℕ) → Var κ → ℚ} {o : Oct 3} {x : Fin 3 → ℕ}
    {v w : Var κ → ℚ} (h : T.cell C M dt U o x v = some w) : w i = v i := by
  have hE : ∀ dt e (u : Var κ → ℚ), T.addEnergy dt e u i = u i := fun dt e u => by
    unfold Terms.addEnergy; rw [if_neg hi]; ring
  have hFl : ∀ dt f (u : Var κ → ℚ), T.addFlow dt f u i = u i := fun dt f u => by
    unfold Terms.addFlow; rw [if_neg hi, if_neg (hm 0), if_neg (hm 1), if_neg (hm 2)]; ring
  obtain ⟨a, h1, h⟩ := Option.bind_eq_some_iff.1 h
  obtain ⟨b, h2, rfl⟩ := Option.map_eq_some_iff.1 h
  have e1 : a i = v i := by
    unfold viscousCell at h1
    split at h1
    · cases h1; rfl
    · obtain ⟨_, -, h1⟩ := Option.bind_eq_some_iff.1 h1
      obtain ⟨f, -, rfl⟩ := Option.map_eq_some_iff.1 h1
      exact hFl _ _ _
  have e2 : b i = a i := by
    unfold conductCell at h2
    split at h2
    · cases h2; rfl
    · obtain ⟨_, -, h2⟩ := Option.bind_eq_some_iff.1 h2
      obtain ⟨f, -, rfl⟩ := Option.map_eq_some_iff.1 h2
      exact hE _ _ _
  rw [← e1, ← e2]
  rcases hc : T.cooling with _ | ⟨mode, flux, j⟩
  · simp only [coolCell, hc]
  · simp only [coolCell, hc]
    exact hE _ _ _

/-- The terms are not added to a variable. -/
def Setup.Spares (F : Setup κ ν S) (i : Var κ) : Prop := ∀ T, F.terms = some T → i ≠ T.energy ∧ ∀ a, i ≠ T.mom a

open Classical in
theorem gas_spares {i : Var κ} (hi : F.Spares i) {s : State 3 P ℚ (Var κ)} {dt : ℚ}
    {stage V : Fin P → Oct 3 → (Fin 3 → ℕ) → Var κ → ℚ} (h : gasStep F s dt stage = some V) :
    ∃ W, hydroStep F s dt stage = some W ∧ ∀ r, ∀ o ∈ s.ranks.octs r, ∀ x ∈ cells F.cfg.blk, V r o x i = W r o x i := by
  obtain ⟨W, h1, h2⟩ := Option.bind_eq_some_iff.1 h
  refine ⟨W, h1, fun r o ho x hx => ?_⟩
  cases hT : F.terms with
  | none => rw [hT] at h2; cases h2; rfl
  | some T =>
    simp only [hT] at h2
    unfold termsStep at h2
    simp only at h2
    split_ifs at h2 with hd
    rw [← Option.some.inj h2]
    obtain ⟨w, hw⟩ := Option.isSome_iff_exists.1 (hd r o ho x hx)
    simp only [hw, Option.getD_some]
    exact cell_other (hi T hT).1 (hi T hT).2 hw

theorem hydro_total (hF : F.Ok) (hg : F.gas.Conservative) (hper : ∀ k, F.cfg.grid.periodic k = true) {i : κ}
    (hpost : ∀ dt u v, F.cfg.post dt u v (.inl i) = v (.inl i)) {nz : Noise P κ} {w : World P κ} (hw : WorldOk F w)
    {dt : ℚ} {U V : Fin P → Oct 3 → (Fin 3 → ℕ) → Var κ → ℚ} (e1 : hydroStep F ⟨w.sim.ranks, U, w.sim.time⟩ dt nz.stage = some V) :
    total F.cfg (⟨w.sim.ranks, V, w.sim.time + dt⟩ : State 3 P ℚ (Var κ)) (.inl i) =
      total F.cfg (⟨w.sim.ranks, U, w.sim.time⟩ : State 3 P ℚ (Var κ)) (.inl i) := by
  have e0 := e1
  have hl := hF.layers
  have hsame := hydro_same hF (s := (⟨w.sim.ranks, U, w.sim.time⟩ : State 3 P ℚ (Var κ))) hw.1 dt nz.stage
    (V := State.field (⟨w.sim.ranks, U, w.sim.time⟩ : State 3 P ℚ (Var κ)))
    (own_self (w := (⟨⟨w.sim.ranks, U, w.sim.time⟩, w.parts⟩ : World P κ)) hw.1)
  have hsum : ∀ V2, Own w.sim.ranks F.cfg.blk V V2 →
      total F.cfg (⟨w.sim.ranks, V, w.sim.time + dt⟩ : State 3 P ℚ (Var κ)) (.inl i) =
        cellSum F.cfg.blk w.sim.ranks.mesh fun o x => vol F.cfg o * V2 o x (.inl i) := fun V2 hV2 => by
    rw [total_eq (s := (⟨w.sim.ranks, V, w.sim.time + dt⟩ : State 3 P ℚ (Var κ))) hw.1]
    simp only [Rat.cast_id]
    unfold cellSum
    refine Finset.sum_congr rfl fun o ho => Finset.sum_congr rfl fun x hx => ?_
    have hx' : ∀ k, x k < F.cfg.blk k := by simpa using hx
    have : State.field (⟨w.sim.ranks, V, w.sim.time + dt⟩ : State 3 P ℚ (Var κ)) o x = V2 o x :=
      hV2 _ o (owner_mem _ ho) x hx'
    simp only [this]
  have hstart : total F.cfg (⟨w.sim.ranks, U, w.sim.time⟩ : State 3 P ℚ (Var κ)) (.inl i) = cellSum F.cfg.blk w.sim.ranks.mesh
      fun o x => vol F.cfg o * State.field (⟨w.sim.ranks, U, w.sim.time⟩ : State 3 P ℚ (Var κ)) o x (.inl i) := by
    rw [total_eq (s := (⟨w.sim.ranks, U, w.sim.time⟩ : State 3 P ℚ (Var κ))) hw.1]
    simp only [Rat.cast_id]
  unfold hydroStep at e1
  cases hgas : F.gas with
  | off => rw [hgas] at e1; cases e1; rfl
  | oneNeighbor =>
    rw [hgas] at e1
    have hs : Ok F.cfg (⟨w.sim.ranks, U, w.sim.time⟩ : State 3 P ℚ (Var κ)) := hw.1
    have ht : Ok F.cfg (⟨w.sim.ranks, V, w.sim.time + dt⟩ : State 3 P ℚ (Var κ)) := hw.1
    simp only [if_pos (hydroDefined hF.cfg.wf hs dt), Option.some.injEq] at e1
    obtain ⟨U', h5, h6⟩ := Verif.Hydro.OneNeighbor.C45_conservation hF.cfg.wf.toPos hs.tiling hs.balanced hF.cfg.dim hper hF.dom
      (scheme F.cfg dt (State.field (⟨w.sim.ranks, U, w.sim.time⟩ : State 3 P ℚ (Var κ)))
        (fun o x => F.cfg.toPrim (State.field (⟨w.sim.ranks, U, w.sim.time⟩ : State 3 P ℚ (Var κ)) o x))
        (gSlope F.cfg w.sim.ranks.mesh (State.field (⟨w.sim.ranks, U, w.sim.time⟩ : State 3 P ℚ (Var κ)))) (.inl i)) dt
      (b := F.cfg.blk) (fun o x => State.field (⟨w.sim.ranks, U, w.sim.time⟩ : State 3 P ℚ (Var κ)) o x (.inl i))
    rw [total_eq ht, total_eq hs]
    simp only [← vol_eq_volume] at h6
    rw [← h6]
    unfold Verif.Flux.cellSum
    refine Finset.sum_congr rfl fun o ho => Finset.sum_congr rfl fun x hx => ?_
    have hx' : ∀ k, x k < F.cfg.blk k := by simpa using hx
    obtain ⟨a, f1, f2⟩ := rank_flux hF.cfg.wf hs (owner_mem _ ho) hx' dt (.inl i)
    have h7 : State.field (⟨w.sim.ranks, V, w.sim.time + dt⟩ : State 3 P ℚ (Var κ)) o x (.inl i) = U' o x := by
      unfold State.field
      simp only
      rw [← e1]
      simp only
      rw [hpost, f1]
      have : gFlux F.cfg w.sim.ranks.mesh (State.field (⟨w.sim.ranks, U, w.sim.time⟩ : State 3 P ℚ (Var κ))) dt o x (.inl i) =
        some (U' o x) := h5 o ho x hx'
      rw [f2] at this
      cases this
      rfl
    simp only [h7]
  | block k =>
    rw [hgas] at hg hl e1
    cases k with
    | hancock E => exact hg.elim
    | euler E =>
      rcases hsame with ⟨V1, V2, k1, k2, k3⟩ | ⟨k1, -⟩
      swap
      · rw [k1] at e0; cases e0
      rw [e0] at k1
      cases k1
      unfold globalHydro at k2
      rw [hgas] at k2
      rw [hstart]
      exact (hsum V2 k3).trans (euler_total hF.cfg.wf hw.1.tiling hw.1.balanced hper hF.dom (fun j => ⟨hl j, hF.even j⟩) hg hpost
        k2)
  | rk2 E =>
    rw [hgas] at hg hl e1
    rcases hsame with ⟨V1, V2, k1, k2, k3⟩ | ⟨k1, -⟩
    swap
    · rw [k1] at e0; cases e0
    rw [e0] at k1
    cases k1
    unfold globalHydro at k2
    rw [hgas] at k2
    obtain ⟨A, k4, k5⟩ := Option.bind_eq_some_iff.1 (show globalRK2 F.blocks E w.sim.ranks.mesh dt _ = some V2 from k2)
    obtain ⟨B, k6, rfl⟩ := Option.map_eq_some_iff.1 k5
    have j1 := euler_total hF.cfg.wf hw.1.tiling hw.1.balanced hper hF.dom (fun j => ⟨hl j, hF.even j⟩) hg hpost k4
    have j2 := euler_total hF.cfg.wf hw.1.tiling hw.1.balanced hper hF.dom (fun j => ⟨hl j, hF.even j⟩) hg hpost k6
    rw [hstart]
    refine (hsum _ k3).trans ?_
    rw [j1] at j2
    refine Eq.trans ?_ (show (1 / 2 : ℚ) * (cellSum F.cfg.blk w.sim.ranks.mesh (fun o x => vol F.cfg o *
      State.field (⟨w.sim.ranks, U, w.sim.time⟩ : State 3 P ℚ (Var κ)) o x (.inl i)) +
      cellSum F.cfg.blk w.sim.ranks.mesh fun o x => vol F.cfg o * B o x (.inl i)) = _ by rw [j2]; ring)
    unfold cellSum
    rw [mul_add, Finset.mul_sum, Finset.mul_sum, ← Finset.sum_add_distrib]
    refine Finset.sum_congr rfl fun o _ => ?_
    rw [Finset.mul_sum, Finset.mul_sum, ← Finset.sum_add_distrib]
    refine Finset.sum_congr rfl fun x _ => ?_
    ring

theorem advance_total (hF : F.Ok) (hg : F.gas.Conservative) (hper : ∀ k, F.cfg.grid.periodic k = true) {i : κ}
    (hpost : ∀ dt u v, F.cfg.post dt u v (.inl i) = v (.inl i)) (hi : F.Spares (.inl i)) {nz : Noise P κ} {w t : World P κ}
    (hw : WorldOk F w) {dt : ℚ} (e : advanceWorld F nz w dt = some t) :
    total F.cfg t.sim (.inl i) = total F.cfg w.sim (.inl i) := by
  unfold advanceWorld at e
  simp only at e
  obtain ⟨rhoG, -, e⟩ := Option.bind_eq_some_iff.1 e
  obtain ⟨u, -, e⟩ := Option.bind_eq_some_iff.1 e
  obtain ⟨ps, -, e⟩ := Option.bind_eq_some_iff.1 e
  obtain ⟨ps', -, e⟩ := Option.bind_eq_some_iff.1 e
  obtain ⟨V, e1, rfl⟩ := Option.map_eq_some_iff.1 e
  set U' := fun r => withField (w.sim.data r) (u.1 r) (u.2 r) with hU'
  have h0 : total F.cfg w.sim (.inl i) = total F.cfg (⟨w.sim.ranks, U', w.sim.time⟩ : State 3 P ℚ (Var κ)) (.inl i) := rfl
  have h1 : total F.cfg (⟨w.sim.ranks, fun r => onlyGas (V r) (U' r), w.sim.time + dt⟩ : State 3 P ℚ (Var κ)) (.inl i) =
      total F.cfg (⟨w.sim.ranks, V, w.sim.time + dt⟩ : State 3 P ℚ (Var κ)) (.inl i) := rfl
  rw [h0]
  refine Eq.trans h1 ?_
  obtain ⟨W, e2, e3⟩ := gas_spares hi e1
  refine Eq.trans ?_ (hydro_total hF hg hper hpost hw e2)
  rw [total_eq (s := (⟨w.sim.ranks, V, w.sim.time + dt⟩ : State 3 P ℚ (Var κ))) hw.1,
    total_eq (s := (⟨w.sim.ranks, W, w.sim.time + dt⟩ : State 3 P ℚ (Var κ))) hw.1]
  unfold cellSum
  refine Finset.sum_congr rfl fun o ho => Finset.sum_congr rfl fun x hx => ?_
  have hx' : ∀ k, x k < F.cfg.blk k := by simpa using hx
  have : State.field (⟨w.sim.ranks, V, w.sim.time + dt⟩ : State 3 P ℚ (Var κ)) o x (.inl i) =
      State.field (⟨w.sim.ranks, W, w.sim.time + dt⟩ : State 3 P ℚ (Var κ)) o x (.inl i) :=
    e3 _ o (owner_mem _ ho) x (mem_cells.2 hx')
  simp only [this]

/-- The mass of gas and particles. -/
def worldMass (F : Setup κ ν S) (w : World P κ) : ℚ :=
  total F.cfg w.sim (.inl F.density) + ((allParts w.parts).map Part.mass).sum

theorem act_mass (hF : F.Ok) (hg : F.gas.Conservative) (hper : ∀ k, F.cfg.grid.periodic k = true)
    (hpost : ∀ dt u v, F.cfg.post dt u v (.inl F.density) = v (.inl F.density)) (hi : F.Spares (.inl F.density))
    {nz : Noise P κ} (hnz : nz.Ok)
    {w t : World P κ} (hw : WorldOk F w) {a : Act} (e : act F w (a, nz) = some t) : worldMass F t = worldMass F w := by
  unfold worldMass
  rw [(act_masses hF hnz hw e).sum_eq]
  congr 1
  cases a with
  | iterate =>
    obtain ⟨dt, -, e⟩ := Option.bind_eq_some_iff.1 (show timeStep F nz w = some t from e)
    exact advance_total hF hg hper hpost hi hw e
  | amr =>
    obtain ⟨s, d1, e⟩ := Option.bind_eq_some_iff.1 e
    obtain ⟨ps, -, rfl⟩ := Option.map_eq_some_iff.1 e
    exact step_conserved hF.cfg hF.dom hper hpost hw.1 (op := .amr) (by simp) d1
  | loadBalance level =>
    obtain ⟨s, d1, e⟩ := Option.bind_eq_some_iff.1 e
    obtain ⟨ps, -, rfl⟩ := Option.map_eq_some_iff.1 e
    exact step_conserved hF.cfg hF.dom hper hpost hw.1 (op := .loadBalance level) (by simp) d1

/-- **C93** (mass). In a periodic domain the mass of gas and particles does not change during a run, whatever iterations,
AMR cycles and load balancing are done in which order, also with viscosity, conduction and cooling. Partial: not for
`HydroUpdate_hancock`, which does not conserve where the level changes (C75). -/
theorem C93_mass_partial (hF : F.Ok) (hg : F.gas.Conservative) (hper : ∀ k, F.cfg.grid.periodic k = true)
    (hpost : ∀ dt u v, F.cfg.post dt u v (.inl F.density) = v (.inl F.density)) (hi : F.Spares (.inl F.density))
    (hP : P ≤ ∏ k, F.cfg.grid.coarse k)
    (time : ℚ) (inits : List Op) {ps : Fin P → List (Part 3)} {as as' : List (Act × Noise P κ)}
    (hn : ∀ a ∈ as ++ as', a.2.Ok) {s t : World P κ} (h : runWorld F time inits ps as = some s)
    (h' : runWorld F time inits ps (as ++ as') = some t) : worldMass F t = worldMass F s := by
  have hs := run_ok hF hP (fun a ha => hn a (List.mem_append_left _ ha)) h
  obtain ⟨s0, e1, h1⟩ := Option.bind_eq_some_iff.1 h
  obtain ⟨q, e2, h2⟩ := Option.bind_eq_some_iff.1 h1
  unfold runWorld at h'
  rw [e1, Option.bind_some, e2, Option.bind_some, List.foldlM_append, h2] at h'
  replace h' : as'.foldlM (act F) s = some t := h'
  replace hn : ∀ a ∈ as', a.2.Ok := fun a ha => hn a (List.mem_append_right _ ha)
  clear h h1 h2 e1 e2
  induction as' generalizing s with
  | nil => cases h'; rfl
  | cons a as' ih =>
    obtain ⟨a, nz⟩ := a
    rw [List.foldlM_cons] at h'
    obtain ⟨u, u1, h'⟩ := Option.bind_eq_some_iff.1 h'
    have hu := acts_ok hF (as := [(a, nz)]) (fun b hb => hn b (by rw [List.mem_singleton] at hb; subst hb; simp)) hs
      (by rw [List.foldlM_cons, u1]; rfl)
    rw [ih hu h' (fun b hb => hn b (List.mem_cons_of_mem _ hb)), act_mass hF hg hper hpost hi (hn _ List.mem_cons_self) hs u1]

/-! ### Definedness -/

/-- No correction of the states at faces for constant gravity (`well_balanced`). -/
def Gas.Plain : Gas κ ν → Prop
  | .off => True
  | .oneNeighbor => True
  | .block k => k.Plain
  | .rk2 E => ∀ i, (E i).shift = none

theorem loop_mono {F : Type} [Field F] [LinearOrder F] {d : ℕ} {absorbing : Fin d → Bool} {D : Domain d} {G : Grid d}
    {M : Finset (Oct d)} {b : Fin d → ℕ} {eps B : F} {n m : ℕ} (hnm : n ≤ m) {st st' : CG d F}
    (h : CG.loop absorbing D G M b eps B n st = some st') : CG.loop absorbing D G M b eps B m st = some st' := by
  induction n generalizing m st with
  | zero => cases h
  | succ n ih =>
    obtain ⟨m, rfl⟩ := Nat.exists_eq_succ_of_ne_zero (show m ≠ 0 by omega)
    unfold CG.loop at h ⊢
    split at h
    · next hc =>
      rw [if_pos hc]
      obtain ⟨s1, h1, h2⟩ := Option.bind_eq_some_iff.1 h
      rw [h1, Option.bind_some]
      exact ih (by omega) h2
    · next hc => rw [if_neg hc]; exact h

theorem solve_mono {F : Type} [Field F] [LinearOrder F] {d : ℕ} {absorbing : Fin d → Bool} {D : Domain d} {G : Grid d}
    {M : Finset (Oct d)} {b : Fin d → ℕ} {eps : F} {n m : ℕ} (hnm : n ≤ m) {f phi0 phi : Fld d F}
    (h : solve absorbing D G M b eps n f phi0 = some phi) : solve absorbing D G M b eps m f phi0 = some phi := by
  unfold solve at h ⊢
  obtain ⟨s1, h1, h2⟩ := Option.bind_eq_some_iff.1 h
  obtain ⟨s2, h3, h4⟩ := Option.map_eq_some_iff.1 h2
  rw [h1, Option.bind_some, loop_mono hnm h3, Option.map_some, h4]

theorem globalHydro_defined (hF : F.Ok) (hg : F.gas.Plain) {M : Finset (Oct 3)} (hM : Tiling F.cfg.grid M)
    (hB : Balanced F.cfg.grid M) (dt : ℚ) (U : Oct 3 → (Fin 3 → ℕ) → Var κ → ℚ) : ∃ V, globalHydro F M dt U = some V := by
  have hl := hF.layers
  unfold globalHydro
  cases hgas : F.gas with
  | off => exact ⟨_, rfl⟩
  | oneNeighbor => exact ⟨_, rfl⟩
  | block k =>
    rw [hgas] at hg hl
    exact global_defined (C := F.blocks) hF.cfg.wf.toPos hM hB (Or.inr rfl) hF.dom (fun j => ⟨hl j, hF.even j⟩) hg dt U
  | rk2 E =>
    rw [hgas] at hg hl
    have hk : (Kernel.euler E).Plain := hg
    obtain ⟨V, hV⟩ := global_defined (C := F.blocks) hF.cfg.wf.toPos hM hB (Or.inr rfl) hF.dom
      (fun j => ⟨hl j, hF.even j⟩) hk dt U
    obtain ⟨W, hW⟩ := global_defined (C := F.blocks) hF.cfg.wf.toPos hM hB (Or.inr rfl) hF.dom
      (fun j => ⟨hl j, hF.even j⟩) hk dt V
    simp only
    unfold globalRK2
    rw [hV, Option.bind_some, hW]
    exact ⟨_, rfl⟩

open Classical in
theorem globalGas_defined (hF : F.Ok) (hg : F.gas.Plain) {M : Finset (Oct 3)} (hM : Tiling F.cfg.grid M)
    (hB : Balanced F.cfg.grid M) (dt : ℚ) (U : Oct 3 → (Fin 3 → ℕ) → Var κ → ℚ) : ∃ V, globalGas F M dt U = some V := by
  obtain ⟨V, hV⟩ := globalHydro_defined hF hg hM hB dt U
  unfold globalGas
  rw [hV, Option.bind_some]
  have ht := hF.terms
  cases hT : F.terms with
  | none => exact ⟨_, rfl⟩
  | some T =>
    rw [hT] at ht
    exact globalTerms_defined (C := F.blocks) hF.cfg.wf hM hB (fun j => ⟨(ht rfl).2 j, hF.even j⟩) T dt U V

theorem advance_world_defined (hF : F.Ok) (hg : F.gas.Plain) (hper : ∀ k, F.cfg.grid.periodic k = true) {w : World P κ}
    (hw : WorldOk F w) (hit : w.sim.ranks.mesh.card * (∏ k, F.cfg.blk k) < F.iters)
    (hsrc : ∃ a, F.source w.sim.time = rhs F.cfg.dom F.cfg.grid F.cfg.blk a) :
    ∃ t > 0, ∀ dt, 0 ≤ dt → dt ≤ t → ∀ nz : Noise P κ, nz.Ok → ∃ u, advanceWorld F nz w dt = some u := by
  obtain ⟨a, ha⟩ := hsrc
  have hG : F.poisson.grid.WF := hF.cfg.wf
  have hb0 : ∀ k, 0 < F.poisson.blk k := hF.cfg.blk
  have hb : ∀ k, 2 ∣ F.poisson.blk k := hF.even
  have hD : Domain.Ok F.poisson.dom := hF.dom
  have hM : Tiling F.poisson.grid w.sim.ranks.mesh := hw.1.tiling
  have hB : Balanced F.poisson.grid w.sim.ranks.mesh := hw.1.balanced
  have hper' : ∀ k, F.poisson.grid.periodic k = true := hper
  have hlev : ∀ o ∈ w.sim.ranks.mesh, F.poisson.grid.lmin ≤ o.level ∧ o.level ≤ F.cfg.lmax := hw.1.levels
  have hp := placed_in_box hw.2
  obtain ⟨rhoG, h1⟩ : ∃ rhoG, globalDeposit F.project F.poisson F.cfg.lmax w.sim.ranks.mesh
      (fun o x => w.sim.field o x (.inl F.density)) (allParts w.parts) = some rhoG :=
    ⟨_, if_pos fun p hm => deposit_defined hG hM hB hper' hD hlev hb0 hb F.project (hp p hm)⟩
  have hsol : Solvable F.poisson.absorbing F.poisson.grid w.sim.ranks.mesh F.poisson.blk
      (F.source w.sim.time (rhoMean F.poisson.dom F.poisson.grid w.sim.ranks.mesh F.poisson.blk rhoG) rhoG) := by
    left
    rw [ha]
    exact (C49_compatible hG.toPos hM hb0 hD a a rhoG).1
  obtain ⟨phi, hphi⟩ := C49_terminates hG.toPos hM hB (by norm_num) hD hb0 F.poisson.absorbing hsol
    (fun o x => w.sim.field o x (.inr none)) F.eps
  obtain ⟨v, h2⟩ : ∃ v, globalGravity F.poisson w.sim.ranks.mesh F.eps F.iters (F.source w.sim.time) rhoG
      (fun o x => w.sim.field o x (.inr none)) = some v := by
    unfold globalGravity
    rw [solve_mono (m := F.iters) hit hphi]
    exact ⟨_, rfl⟩
  obtain ⟨t, ht, h3⟩ := move_defined hG hM hB hper' hD hlev hb0 hb F.move (fun o x j => (v.2 o x j).getD 0)
    (allParts w.parts) hp
  refine ⟨t, ht, fun dt h0 hdt nz hnz => ?_⟩
  obtain ⟨ps', h4, h5⟩ := h3 dt h0 hdt
  obtain ⟨V, hV⟩ := globalGas_defined hF hg hw.1.tiling hw.1.balanced dt
    (withField w.sim.field v.1 fun o x j => (v.2 o x j).getD 0)
  rcases advance_same hF hnz hw.1 hw.2 dt (own_self hw.1) with ⟨u, v', e1, -⟩ | ⟨-, e2⟩
  · exact ⟨u, e1⟩
  · unfold globalAdvance at e2
    rw [h1, Option.bind_some, h2, Option.bind_some, h4, Option.bind_some, if_pos (show ∀ p ∈ ps', InBox F.cfg.dom p.pos from h5)] at e2
    simp only at e2
    rw [hV] at e2
    cases e2

/-- **C93** (definedness). In every state that a run in a periodic domain reaches: an iteration is defined if its time step
is small enough; load balancing is defined; the AMR cycle is defined if and only if it is without particles
(`C85_progress_partial`). Partial: time steps that let particles move by more than the size of the domain are left out
(`Compute_dt_hydro` does not limit the velocity of particles). -/
theorem C93_progress_partial (hF : F.Ok) (hg : F.gas.Plain) (hper : ∀ k, F.cfg.grid.periodic k = true)
    (hP : P ≤ ∏ k, F.cfg.grid.coarse k) (hsrc : ∀ time, ∃ a, F.source time = rhs F.cfg.dom F.cfg.grid F.cfg.blk a)
    (time : ℚ) (inits : List Op) {ps : Fin P → List (Part 3)} {as : List (Act × Noise P κ)} (hn : ∀ a ∈ as, a.2.Ok)
    {w : World P κ} (h : runWorld F time inits ps as = some w)
    (hit : w.sim.ranks.mesh.card * (∏ k, F.cfg.blk k) < F.iters) :
    (∃ t > 0, ∀ dt, 0 ≤ dt → dt ≤ t → ∀ nz : Noise P κ, nz.Ok → ∃ u, advanceWorld F nz w dt = some u) ∧
    (∀ level nz, ∃ u, act F w (.loadBalance level, nz) = some u) ∧
    ∀ nz, (∃ u, act F w (.amr, nz) = some u) ↔ ∃ s, amr F.cfg w.sim = some s := by
  have hw := run_ok hF hP hn h
  refine ⟨advance_world_defined hF hg hper hw hit (hsrc _), fun level nz => ?_, fun nz => ⟨?_, ?_⟩⟩
  · obtain ⟨R, h2, h3, -⟩ := balance_spec hF.cfg.wf hF.cfg.bits hF.cfg.keys hw.1 level
    obtain ⟨q, k1, -⟩ := place_some hF h3 (placed_in_box hw.2)
    refine ⟨⟨⟨R, fun _ o => w.sim.data (owner w.sim.ranks.octs o) o, w.sim.time⟩, q⟩, ?_⟩
    show ((loadBalance F.cfg level w.sim).bind fun s => (place F s.ranks w.parts).map fun ps => (⟨s, ps⟩ : World P κ)) = _
    unfold loadBalance
    rw [h2, Option.map_some, Option.bind_some]
    simp only
    rw [k1]
    rfl
  · rintro ⟨u, e⟩
    obtain ⟨s, d1, -⟩ := Option.bind_eq_some_iff.1 e
    exact ⟨s, d1⟩
  · rintro ⟨s, d1⟩
    obtain ⟨a1, -⟩ := step_same hF.cfg hw.1 hw.1 (Same.refl hw.1) (op := .amr) d1 d1
    obtain ⟨q, k1, -⟩ := place_some hF a1 (placed_in_box hw.2)
    refine ⟨⟨s, q⟩, ?_⟩
    show ((amr F.cfg w.sim).bind fun s => (place F s.ranks w.parts).map fun ps => (⟨s, ps⟩ : World P κ)) = _
    rw [d1, Option.bind_some, k1]
    rfl

end Verif.Sim
