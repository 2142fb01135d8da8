import Verif.Sim.MassCheck
import Verif.Particles.Reach

/-!
# C110: refinement by mass with cloud in cell
-/

namespace Verif.Sim

open Verif.Octree Verif.Cells Verif.Adapt Verif.Flux Verif.Hydro Verif.Run Verif.Gravity Verif.Particles Verif.Remap

variable {P : ℕ} {κ ν S : Type} [NeZero P] {F : Setup κ ν S} {m₁ m₂ : ℚ}

/-! ### Specification -/

/-- The mass in a cell: that of the gas, and that of the parts of the clouds of the particles that are in the cell. The
cloud of a particle `p` has the sides `h p`. -/
noncomputable def cloudMassIn (F : Setup κ ν S) (h : Part 3 → Fin 3 → ℚ) (r : Fin P) (w : World P κ) (o : Oct 3)
    (x : Fin 3 → ℕ) : ℚ :=
  w.sim.data r o x (.inl F.density) * volume F.cfg.dom (cellGrid F.cfg.grid F.cfg.blk) (cellOct F.cfg.blk o x) +
    ((allParts w.parts).map fun p => p.mass * inCloud F.cfg.dom F.cfg.grid F.cfg.blk (h p) p.pos o x).sum

/-! ### Markers -/

theorem gained_cic (hF : F.Ok) (hper : ∀ k, F.cfg.grid.periodic k = true) {w : World P κ} (hw : WorldOk F w) {p : Part 3}
    (hp : InBox F.cfg.dom p.pos) {h : Fin 3 → ℚ} (hh : SizeAt F.cfg.dom F.cfg.grid w.sim.ranks.mesh F.cfg.blk p.pos h)
    (hs : ReachesNoSmaller F.cfg.dom F.cfg.grid w.sim.ranks.mesh F.cfg.blk h p.pos) :
    (deposit .cic F.poisson F.cfg.lmax w.sim.ranks.mesh p).isSome ∧
    ∀ o ∈ w.sim.ranks.mesh, ∀ x : Fin 3 → ℕ, (∀ k, x k < F.cfg.blk k) →
      gained .cic F.poisson F.cfg.lmax w.sim.ranks.mesh p o x *
        volume F.cfg.dom (cellGrid F.cfg.grid F.cfg.blk) (cellOct F.cfg.blk o x) =
        p.mass * inCloud F.cfg.dom F.cfg.grid F.cfg.blk h p.pos o x := by
  obtain ⟨ws, h1, h2⟩ := cic_at_reach hF.cfg.wf hw.1.tiling hw.1.balanced hper hF.dom F.cfg.grid.lmin F.cfg.lmax
    hw.1.levels hF.cfg.blk (Or.inl hF.even) ⟨p.pos, p.mass⟩ hp hh hs
  have e : deposit .cic F.poisson F.cfg.lmax w.sim.ranks.mesh p = some ws := h1
  refine ⟨by rw [e]; rfl, fun o ho x hx => ?_⟩
  have hv : volume F.cfg.dom (cellGrid F.cfg.grid F.cfg.blk) (cellOct F.cfg.blk o x) ≠ 0 :=
    (Finset.prod_pos fun k _ => cellSize_pos (cellGrid_pos hF.cfg.wf.toPos hF.cfg.blk) hF.dom _ k).ne'
  unfold gained
  rw [e, Option.getD_some, h2 o ho x hx, div_mul_cancel₀ _ hv]

/-- The markers of a state of a run. -/
theorem massMarks_cic (hF : F.Ok) (hper : ∀ k, F.cfg.grid.periodic k = true) (hk : F.project = .cic) {w : World P κ}
    (hw : WorldOk F w) {h : Part 3 → Fin 3 → ℚ}
    (hs : ∀ p ∈ allParts w.parts, SizeAt F.cfg.dom F.cfg.grid w.sim.ranks.mesh F.cfg.blk p.pos (h p) ∧
      ReachesNoSmaller F.cfg.dom F.cfg.grid w.sim.ranks.mesh F.cfg.blk (h p) p.pos)
    {order : Fin P → List (CellIndex 3 × ℚ) → List (CellIndex 3 × ℚ)} (hord : ∀ r l, (order r l).Perm l) (t t' : ℚ) :
    ∃ mk, massMarks F t t' order w = some mk ∧ ∀ r, ∀ o ∈ w.sim.ranks.octs r,
      (mk o = 1 ↔ o.level < F.cfg.lmax ∧ ∃ x, (∀ k, x k < F.cfg.blk k) ∧ t < cloudMassIn F h r w o x) ∧
      (mk o = -1 ↔ F.cfg.grid.lmin < o.level ∧ ∀ x, (∀ k, x k < F.cfg.blk k) →
        cloudMassIn F h r w o x ≤ t ∧ cloudMassIn F h r w o x ≤ t') := by
  have hg := fun p hp => gained_cic hF hper hw (placed_in_box hw.2 p hp) (hs p hp).1 (hs p hp).2
  have hdef : ∀ p ∈ allParts w.parts, (deposit F.project F.poisson F.cfg.lmax w.sim.ranks.mesh p).isSome := by
    intro p hp
    rw [hk]
    exact (hg p hp).1
  rcases massMarks_global hF hw hord (own_self hw.1) t t' with ⟨mk, rho, e1, e2, hm⟩ | ⟨e1, e2⟩
  swap
  · unfold globalDeposit at e2
    rw [if_pos hdef] at e2
    cases e2
  refine ⟨mk, e1, fun r o ho => ?_⟩
  unfold globalDeposit at e2
  rw [if_pos hdef, Option.some.injEq] at e2
  have key : ∀ x, (∀ k, x k < F.cfg.blk k) →
      rho o x * volume F.cfg.dom (cellGrid F.cfg.grid F.cfg.blk) (cellOct F.cfg.blk o x) = cloudMassIn F h r w o x := by
    intro x hx
    rw [← e2]
    unfold cloudMassIn
    simp only
    rw [add_mul, own_self hw.1 r o ho x hx, sum_map_mul, hk]
    congr 2
    exact List.map_congr_left fun p hp => (hg p hp).2 o (mem_mesh ho) x hx
  obtain ⟨a1, a2⟩ := massMarker_iff hF t t' rho o
  rw [hm o (mem_mesh ho), a1, a2]
  refine ⟨and_congr_right fun _ => exists_congr fun x => and_congr_right fun hx => by rw [key x hx],
    and_congr_right fun _ => forall_congr' fun x => forall_congr' fun hx => by rw [key x hx]⟩

/-- **C110.** The same with cloud in cell, in states in which no cloud reaches into a cell that is smaller than that of its
particle: the mass in a cell is that of the gas and that of the parts of the clouds in the cell. Partial: with clouds in
smaller cells the masses are others (C112); coarse grids that are not full cubes are left out. -/
theorem C110_marks_cloud_partial (hF : F.Ok) (hP : P ≤ ∏ k, F.cfg.grid.coarse k)
    (hper : ∀ k, F.cfg.grid.periodic k = true) (hk : F.project = .cic) (time : ℚ)
    (inits : List Op) {ps : Fin P → List (Part 3)} {as : List (Act × Noise P κ)} (hn : ∀ a ∈ as, a.2.Ok) {w : World P κ}
    (hw : massRun F m₁ m₂ time inits ps as = some w) {h : Part 3 → Fin 3 → ℚ}
    (hs : ∀ p ∈ allParts w.parts, SizeAt F.cfg.dom F.cfg.grid w.sim.ranks.mesh F.cfg.blk p.pos (h p) ∧
      ReachesNoSmaller F.cfg.dom F.cfg.grid w.sim.ranks.mesh F.cfg.blk (h p) p.pos)
    {order : Fin P → List (CellIndex 3 × ℚ) → List (CellIndex 3 × ℚ)} (hord : ∀ r l, (order r l).Perm l) :
    ∃ mk, massMarks F m₁ m₂ order w = some mk ∧ ∀ r, ∀ o ∈ w.sim.ranks.octs r,
      (mk o = 1 ↔ o.level < F.cfg.lmax ∧ ∃ x, (∀ k, x k < F.cfg.blk k) ∧ m₁ < cloudMassIn F h r w o x) ∧
      (mk o = -1 ↔ F.cfg.grid.lmin < o.level ∧ ∀ x, (∀ k, x k < F.cfg.blk k) →
        cloudMassIn F h r w o x ≤ m₁ ∧ cloudMassIn F h r w o x ≤ m₂) :=
  massMarks_cic hF hper hk (massRun_ok hF hP hn hw) hs hord m₁ m₂

/-- **C110.** From such a state, the next AMR cycle cuts every octant below the finest level that has a cell with more mass
of gas and clouds than `mass_refine`. -/
theorem C110_refines_cloud_partial (hF : F.Ok) (hP : P ≤ ∏ k, F.cfg.grid.coarse k)
    (hper : ∀ k, F.cfg.grid.periodic k = true) (hk : F.project = .cic) (time : ℚ)
    (inits : List Op) {ps : Fin P → List (Part 3)} {as : List (Act × Noise P κ)} (hn : ∀ a ∈ as, a.2.Ok) {w u : World P κ}
    (hw : massRun F m₁ m₂ time inits ps as = some w) {h : Part 3 → Fin 3 → ℚ}
    (hs : ∀ p ∈ allParts w.parts, SizeAt F.cfg.dom F.cfg.grid w.sim.ranks.mesh F.cfg.blk p.pos (h p) ∧
      ReachesNoSmaller F.cfg.dom F.cfg.grid w.sim.ranks.mesh F.cfg.blk (h p) p.pos) {nz : Noise P κ} (hnz : nz.Ok)
    (hu : massAct F m₁ m₂ w (.amr, nz) = some u) {r : Fin P} {o : Oct 3} (ho : o ∈ w.sim.ranks.octs r)
    (hl : o.level < F.cfg.lmax) {x : Fin 3 → ℕ} (hx : ∀ k, x k < F.cfg.blk k) (hm : m₁ < cloudMassIn F h r w o x)
    {c : Oct 3} (hc : PartOf o c) : ∃ r', c ∈ u.sim.ranks.octs r' := by
  have hok := massRun_ok hF hP hn hw
  obtain ⟨mk, c1, e⟩ := Option.bind_eq_some_iff.1 hu
  obtain ⟨s, d1, e⟩ := Option.bind_eq_some_iff.1 e
  obtain ⟨ps', -, rfl⟩ := Option.map_eq_some_iff.1 e
  obtain ⟨mk', k1, k2⟩ := massMarks_cic hF hper hk hok hs hnz m₁ m₂
  rw [c1] at k1
  cases k1
  rcases massMarks_same hF hok hok (SameWorld.refl hok) hnz hnz m₁ m₂ with ⟨f, f', f1, -, f3, -⟩ | ⟨f1, -⟩
  swap
  · rw [c1] at f1; cases f1
  rw [c1] at f1
  cases f1
  exact (mem_leaves _ _).1 (amrWith_cuts hF.cfg hok.1 f3 d1 (mem_mesh ho) ((k2 r o ho).1.2 ⟨hl, x, hx, hm⟩) hc.1 hc.2)

/-! ### Example -/

/-- The world of C93 projects with cloud in cell. -/
def cloudCase : Setup Bool Unit ℚ := { worldCase .oneNeighbor none 1 0 with project := .cic }

theorem cloudCase_ok : cloudCase.Ok :=
  have h := worldCase_ok .oneNeighbor (terms := none) (fun h => by cases h) 1 0
  ⟨h.cfg, h.dom, h.full, h.even, h.layers, h.terms, h.source⟩

/-- An octant without particle, at the corner at which the second particle is. -/
def beside : Oct 3 := ⟨2, fun _ => 1⟩

/-- The size of all cells. -/
def cellSide : Fin 3 → ℚ := fun _ => 1 / 16

theorem cloudCase_size (o : Oct 3) (ho : o.level = 2) (x : Fin 3 → ℕ) :
    cellSize cloudCase.cfg.dom (cellGrid cloudCase.cfg.grid cloudCase.cfg.blk) (cellOct cloudCase.cfg.blk o x) = cellSide := by
  funext k
  unfold cellSize hi lo Grid.count cellGrid cellOct cellSide
  rw [ho]
  simp only [cloudCase, worldCase, worldCfg]
  norm_num
  ring_nf

/-- Eight ranks, the two particles on rank 5 at first, `mass_refine = 3 / 10`: the octant without particle that has an
eighth of the cloud of the particle of mass 3 is marked. -/
example : ∃ (w : World 8 Bool) (mk : Oct 3 → ℤ), cloudCase.Ok ∧ cloudCase.project = .cic ∧
    massRun cloudCase (3 / 10) 0 0 [] (fun r => if r = 5 then twoParts else []) [] = some w ∧
    massMarks cloudCase (3 / 10) 0 (noise 8).order w = some mk ∧ mk beside = 1 := by
  have h8 : 8 ≤ ∏ k, cloudCase.cfg.grid.coarse k := show 8 ≤ ∏ k : Fin 3, 4 by decide
  have hF := cloudCase_ok
  obtain ⟨s, es, hs, -, s2, s3⟩ := startSim_spec (P := 8) hF.cfg h8 0
  have all8 : allParts (fun r : Fin 8 => if r = 5 then twoParts else []) = twoParts := rfl
  obtain ⟨ps, p1, p2, p3⟩ := place_some hF hs (ps := fun r => if r = 5 then twoParts else [])
    (by rw [all8]; exact twoParts_in_box)
  rw [all8] at p2
  have hw : WorldOk cloudCase (⟨s, ps⟩ : World 8 Bool) := ⟨hs, p3⟩
  have r0 : massRun cloudCase (3 / 10) 0 0 [] (fun r : Fin 8 => if r = 5 then twoParts else []) [] = some ⟨s, ps⟩ := by
    unfold massRun simulate
    rw [es]
    show ((place cloudCase s.ranks (fun r : Fin 8 => if r = 5 then twoParts else [])).bind _) = _
    rw [p1, Option.bind_some]
    rfl
  have hlev : ∀ o ∈ s.ranks.mesh, o.level = 2 := fun o ho => ((s3 o).1 ho).1
  have hsz : ∀ p ∈ allParts ps, SizeAt cloudCase.cfg.dom cloudCase.cfg.grid s.ranks.mesh cloudCase.cfg.blk p.pos cellSide ∧
      ReachesNoSmaller cloudCase.cfg.dom cloudCase.cfg.grid s.ranks.mesh cloudCase.cfg.blk cellSide p.pos := by
    intro p hp
    refine ⟨?_, fun o ho y _ _ k => (congrFun (cloudCase_size o (hlev o ho) y) k).ge⟩
    obtain ⟨c, -, c2, c3, -, -, c6, -⟩ := C26_cell_of_pos hF.cfg.wf hs.tiling cloudCase.cfg.dom hF.dom
      cloudCase.cfg.grid.lmin cloudCase.cfg.lmax hs.levels cloudCase.cfg.blk hF.cfg.blk p.pos (placed_in_box hw.2 p hp)
    exact ⟨_, c2, _, c3, c6, (cloudCase_size _ (hlev _ c2) _).symm⟩
  obtain ⟨r1, hr1⟩ := (mem_leaves _ _).1 ((s3 beside).2 ⟨rfl, fun _ => show 1 < 4 by norm_num⟩)
  obtain ⟨mk, m1, m2⟩ := C110_marks_cloud_partial (m₁ := 3 / 10) (m₂ := 0) hF h8 (fun _ => rfl) rfl 0 [] (as := [])
    (by simp) r0 (h := fun _ => cellSide) hsz (noise_ok 8)
  refine ⟨_, mk, hF, rfl, r0, m1, (m2 r1 beside hr1).1.2 ⟨show 2 < 4 by norm_num, fun _ => 3, fun _ => show 3 < 4 by norm_num, ?_⟩⟩
  unfold cloudMassIn
  rw [(p2.map _).sum_eq, s2]
  have e1 : inCloud cloudCase.cfg.dom cloudCase.cfg.grid cloudCase.cfg.blk cellSide ![1 / 100, 1 / 100, 1 / 100] beside
      (fun _ => 3) = 0 := by decide +kernel
  have e2 : inCloud cloudCase.cfg.dom cloudCase.cfg.grid cloudCase.cfg.blk cellSide ![1 / 2, 1 / 2, 1 / 2] beside
      (fun _ => 3) = 1 / 8 := by decide +kernel
  have e3 : volume cloudCase.cfg.dom (cellGrid cloudCase.cfg.grid cloudCase.cfg.blk) (cellOct cloudCase.cfg.blk beside fun _ => 3) =
      1 / 4096 := massCase_vol beside rfl _
  have e4 : cloudCase.cfg.init beside (fun _ => 3) (.inl cloudCase.density) = if beside = light then 2 else 1 := rfl
  rw [e3]
  simp only [e4, twoParts, List.map_cons, List.map_nil, List.sum_cons, List.sum_nil, add_zero, e1, e2]
  rw [if_neg (by decide +kernel)]
  norm_num

end Verif.Sim
