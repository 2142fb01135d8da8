import Verif.Sim.AmrWith
import Verif.Sim.WorldMore
import Verif.Sim.ConditionsProps

/-!
# C110: `RefineCondition_mass` with the mass of the particles

With `particles/update_density`, `RefineCondition_mass` projects the particles to the new field `rho_g` before it marks
octants (`core/src/refine_condition/RefineCondition_mass.cpp` L74-90). Gas, gravity, particles and mesh are those of C93.
Arithmetic is exact.
-/

namespace Verif.Sim

open Verif.Octree Verif.Cells Verif.Adapt Verif.Flux Verif.Hydro Verif.Run Verif.Gravity Verif.Particles Verif.Refine
  Verif.Remap

variable {P Q : ℕ} {κ ν S : Type} [NeZero P] [NeZero Q] {F : Setup κ ν S}

/-! ### Model -/

/-- `RefineCondition_helper.h` L61-87 with `getMarker` of `RefineCondition_mass.cpp` L33-47: the marker of an octant, where
`rho` is the field `rho_g`. -/
def massMarker (F : Setup κ ν S) (massRefine massCoarsen : ℚ) (rho : Fld 3 ℚ) (o : Oct 3) : ℤ :=
  adjust F.cfg.grid.lmin F.cfg.lmax o.level (((cells F.cfg.blk).map fun x => massMark (rho o x)
    (fun k => getCellSize F.cfg.dom F.cfg.grid (cellAt F.cfg.blk o x) k) massRefine massCoarsen).foldl max coarsen)

/-- `RefineCondition_mass.cpp` L74-90: the particles are projected to `rho_g` on all ranks, then every rank marks its
octants. The field is deleted after that, so it is not remapped. -/
def massMarks (F : Setup κ ν S) (massRefine massCoarsen : ℚ)
    (order : Fin P → List (CellIndex 3 × ℚ) → List (CellIndex 3 × ℚ)) (w : World P κ) : Option (Oct 3 → ℤ) :=
  (depositRanks F.project F.poisson F.cfg.lmax w.sim.ranks order (fun r o x => w.sim.data r o x (.inl F.density))
    w.parts).map fun rhoG o => massMarker F massRefine massCoarsen (rhoG (owner w.sim.ranks.octs o)) o

/-- `DyabloTimeLoop.h` L673-808 with this condition; iterations and load balancing are those of `act`. -/
noncomputable def massAct (F : Setup κ ν S) (massRefine massCoarsen : ℚ) (w : World P κ) :
    Act × Noise P κ → Option (World P κ)
  | (.amr, nz) => (massMarks F massRefine massCoarsen nz.order w).bind fun mk => (amrWith F.cfg mk w.sim).bind fun s =>
      (place F s.ranks w.parts).map fun ps => ⟨s, ps⟩
  | (.iterate, nz) => act F w (.iterate, nz)
  | (.loadBalance level, nz) => act F w (.loadBalance level, nz)

/-- A run, as `runWorld`. -/
noncomputable def massRun (F : Setup κ ν S) (massRefine massCoarsen : ℚ) (time : ℚ) (inits : List Op)
    (ps : Fin P → List (Part 3)) (acts : List (Act × Noise P κ)) : Option (World P κ) :=
  (simulate F.cfg time inits).bind fun s => (place F s.ranks ps).bind fun ps' =>
    acts.foldlM (massAct F massRefine massCoarsen) ⟨s, ps'⟩

/-! ### Specification -/

open Classical in
/-- The mass in a cell: that of the gas, and that of the particles in the box of the cell. -/
noncomputable def massIn (F : Setup κ ν S) (r : Fin P) (w : World P κ) (o : Oct 3) (x : Fin 3 → ℕ) : ℚ :=
  w.sim.data r o x (.inl F.density) * volume F.cfg.dom (cellGrid F.cfg.grid F.cfg.blk) (cellOct F.cfg.blk o x) +
    ((allParts w.parts).map fun p => if InCell F.cfg.dom F.cfg.grid F.cfg.blk o x p.pos then p.mass else 0).sum

/-! ### Markers -/

theorem massMarker_iff (hF : F.Ok) (t t' : ℚ) (rho : Fld 3 ℚ) (o : Oct 3) :
    (massMarker F t t' rho o = 1 ↔ o.level < F.cfg.lmax ∧ ∃ x, (∀ k, x k < F.cfg.blk k) ∧
      t < rho o x * volume F.cfg.dom (cellGrid F.cfg.grid F.cfg.blk) (cellOct F.cfg.blk o x)) ∧
    (massMarker F t t' rho o = -1 ↔ F.cfg.grid.lmin < o.level ∧ ∀ x, (∀ k, x k < F.cfg.blk k) →
      rho o x * volume F.cfg.dom (cellGrid F.cfg.grid F.cfg.blk) (cellOct F.cfg.blk o x) ≤ t ∧
      rho o x * volume F.cfg.dom (cellGrid F.cfg.grid F.cfg.blk) (cellOct F.cfg.blk o x) ≤ t') := by
  have key : ∀ x, massMark (rho o x) (fun k => getCellSize F.cfg.dom F.cfg.grid (cellAt F.cfg.blk o x) k) t t' =
      criterion (some (rho o x * volume F.cfg.dom (cellGrid F.cfg.grid F.cfg.blk) (cellOct F.cfg.blk o x))) t t' := by
    intro x
    unfold massMark
    rw [cellMass_eq]
    congr 3
    exact Finset.prod_congr rfl fun k _ => getCellSize_eq hF.cfg.wf.toPos F.cfg.dom (cellAt F.cfg.blk o x) hF.cfg.blk k
  obtain ⟨a1, a2⟩ := adjust_iff F.cfg.grid.lmin F.cfg.lmax o.level (((cells F.cfg.blk).map fun x => massMark (rho o x)
    (fun k => getCellSize F.cfg.dom F.cfg.grid (cellAt F.cfg.blk o x) k) t t').foldl max coarsen)
  obtain ⟨h1, h2, h3⟩ := foldl_max_spec ((cells F.cfg.blk).map fun x => massMark (rho o x)
    (fun k => getCellSize F.cfg.dom F.cfg.grid (cellAt F.cfg.blk o x) k) t t') coarsen
  have hle : ∀ m ∈ (cells F.cfg.blk).map fun x => massMark (rho o x)
      (fun k => getCellSize F.cfg.dom F.cfg.grid (cellAt F.cfg.blk o x) k) t t', -1 ≤ m ∧ m ≤ 1 := by
    intro m hm
    obtain ⟨x, -, rfl⟩ := List.mem_map.1 hm
    simp only [key]
    unfold criterion refine coarsen noChange
    simp only
    split_ifs <;> omega
  obtain ⟨-, h4⟩ := foldl_max_range _ (fun m hm => (hle m hm).2) (Or.inl rfl : coarsen = -1 ∨ coarsen = 0)
  refine ⟨a1.trans (and_congr (by norm_cast) ⟨fun h => ?_, fun ⟨x, hx, hc⟩ => ?_⟩), a2.trans (and_congr (by norm_cast)
    ⟨fun h x hx => ?_, fun h => ?_⟩)⟩
  · rcases h1 with h1 | h1
    · rw [h] at h1; cases h1
    · rw [h] at h1
      obtain ⟨x, hx, hc⟩ := List.mem_map.1 h1
      exact ⟨x, mem_cells.1 hx, (C52_criterion _ t t').1.1 ((key x).symm.trans hc)⟩
  · have h5 := h3 _ (List.mem_map_of_mem (mem_cells.2 hx))
    rw [key x, (C52_criterion _ t t').1.2 hc] at h5
    exact le_antisymm h4 h5
  · have h5 := h3 _ (List.mem_map_of_mem (mem_cells.2 hx))
    rw [h] at h5
    have h6 := hle _ (List.mem_map_of_mem (mem_cells.2 hx))
    exact (C52_criterion _ t t').2.1.1 ((key x).symm.trans (le_antisymm h5 h6.1))
  · rcases h1 with h1 | h1
    · exact h1
    · obtain ⟨x, hx, hc⟩ := List.mem_map.1 h1
      rw [← hc, key x]
      exact (C52_criterion _ t t').2.1.2 (h x (mem_cells.1 hx))

theorem massMarker_asked (hF : F.Ok) (t t' : ℚ) (rho : Fld 3 ℚ) (o : Oct 3) :
    -1 ≤ massMarker F t t' rho o ∧ massMarker F t t' rho o ≤ 1 ∧
      (massMarker F t t' rho o = -1 → F.cfg.grid.lmin < o.level) ∧
      (massMarker F t t' rho o = 1 → o.level < F.cfg.lmax) := by
  obtain ⟨a1, a2⟩ := massMarker_iff hF t t' rho o
  have hr : -1 ≤ massMarker F t t' rho o ∧ massMarker F t t' rho o ≤ 1 := by
    have hle : ∀ m ∈ (cells F.cfg.blk).map fun x => massMark (rho o x)
        (fun k => getCellSize F.cfg.dom F.cfg.grid (cellAt F.cfg.blk o x) k) t t', m ≤ 1 := by
      intro m hm
      obtain ⟨x, -, rfl⟩ := List.mem_map.1 hm
      unfold massMark criterion refine coarsen noChange
      simp only
      split_ifs <;> omega
    obtain ⟨h1, h2⟩ := foldl_max_range _ hle (Or.inl rfl : coarsen = -1 ∨ coarsen = 0)
    unfold massMarker
    generalize List.foldl max coarsen _ = m at h1 h2
    unfold adjust refine coarsen noChange at *
    simp only
    split
    · split <;> omega
    · split <;> omega
  exact ⟨hr.1, hr.2, fun h => (a2.1 h).1, fun h => (a1.1 h).1⟩

theorem massMarker_congr (t t' : ℚ) {rho rho' : Fld 3 ℚ} {o : Oct 3}
    (h : ∀ x, (∀ k, x k < F.cfg.blk k) → rho o x = rho' o x) : massMarker F t t' rho o = massMarker F t t' rho' o := by
  unfold massMarker
  congr 2
  exact List.map_congr_left fun x hx => by rw [h x (mem_cells.1 hx)]

/-- The markers seen without ranks. -/
theorem massMarks_global (hF : F.Ok) {w : World P κ} (hw : WorldOk F w)
    {order : Fin P → List (CellIndex 3 × ℚ) → List (CellIndex 3 × ℚ)} (hord : ∀ r l, (order r l).Perm l)
    {U : Oct 3 → (Fin 3 → ℕ) → Var κ → ℚ} (hU : Own w.sim.ranks F.cfg.blk w.sim.data U) (t t' : ℚ) :
    Both (fun mk rho => ∀ o ∈ w.sim.ranks.mesh, mk o = massMarker F t t' rho o) (massMarks F t t' order w)
      (globalDeposit F.project F.poisson F.cfg.lmax w.sim.ranks.mesh (fun o x => U o x (.inl F.density))
        (allParts w.parts)) := by
  have h0 : Own w.sim.ranks F.poisson.blk (fun r o x => w.sim.data r o x (.inl F.density))
      (fun o x => U o x (.inl F.density)) := fun r o ho x hx => by
    show w.sim.data r o x _ = U o x _
    rw [hU r o ho x hx]
  have h := deposit_ranks (C := F.poisson) hF.cfg.wf hw.1 hF.dom hF.cfg.blk hF.even F.project hord h0 hw.2
  unfold massMarks
  rcases h with ⟨a, c, e1, e2, h⟩ | ⟨e1, e2⟩
  · rw [e1, e2]
    refine Or.inl ⟨_, _, rfl, rfl, fun o ho => ?_⟩
    exact massMarker_congr t t' fun x hx => h _ o (owner_mem _ ho) x hx
  · rw [e1, e2]
    exact Or.inr ⟨rfl, rfl⟩

/-- What a particle adds to a cell with the nearest grid point scheme. -/
theorem gained_ngp (hF : F.Ok) {w : World P κ} (hw : WorldOk F w) {p : Part 3} (hp : InBox F.cfg.dom p.pos) {o : Oct 3}
    (ho : o ∈ w.sim.ranks.mesh) {x : Fin 3 → ℕ} (hx : ∀ k, x k < F.cfg.blk k)
    [Decidable (InCell F.cfg.dom F.cfg.grid F.cfg.blk o x p.pos)] :
    (deposit .ngp F.poisson F.cfg.lmax w.sim.ranks.mesh p).isSome ∧
    gained .ngp F.poisson F.cfg.lmax w.sim.ranks.mesh p o x *
      volume F.cfg.dom (cellGrid F.cfg.grid F.cfg.blk) (cellOct F.cfg.blk o x) =
      if InCell F.cfg.dom F.cfg.grid F.cfg.blk o x p.pos then p.mass else 0 := by
  obtain ⟨c, h1, h2, h3, -, -, h6, h7⟩ := C26_cell_of_pos hF.cfg.wf hw.1.tiling F.cfg.dom hF.dom F.cfg.grid.lmin F.cfg.lmax
    hw.1.levels F.cfg.blk hF.cfg.blk p.pos hp
  have e : deposit .ngp F.poisson F.cfg.lmax w.sim.ranks.mesh p = some [(⟨c.oct, c.idx, F.cfg.blk, .localToBlock⟩,
      p.mass / volume F.cfg.dom (cellGrid F.cfg.grid F.cfg.blk) (cellOct F.cfg.blk c.oct c.idx))] :=
    C53_ngp_place hF.cfg.wf hw.1.tiling hF.dom F.cfg.grid.lmin F.cfg.lmax hw.1.levels hF.cfg.blk ⟨p.pos, p.mass⟩ hp h2 h3 h6
  have hv : volume F.cfg.dom (cellGrid F.cfg.grid F.cfg.blk) (cellOct F.cfg.blk o x) ≠ 0 :=
    (Finset.prod_pos fun k _ => cellSize_pos (cellGrid_pos hF.cfg.wf.toPos hF.cfg.blk) hF.dom _ k).ne'
  refine ⟨by rw [e]; rfl, ?_⟩
  unfold gained
  rw [e]
  simp only [Option.getD_some, List.map_cons, List.map_nil, List.sum_cons, List.sum_nil, add_zero]
  by_cases hin : InCell F.cfg.dom F.cfg.grid F.cfg.blk o x p.pos
  · obtain ⟨rfl, rfl⟩ := h7 o ho x hx hin
    rw [if_pos ⟨rfl, rfl⟩, if_pos hin, div_mul_cancel₀ _ hv]
  · rw [if_neg hin, if_neg fun h => hin (by rw [← h.1, ← h.2]; exact h6), zero_mul]

theorem sum_map_mul {α : Type} (l : List α) (f : α → ℚ) (v : ℚ) : (l.map f).sum * v = (l.map fun a => f a * v).sum := by
  induction l with
  | nil => simp
  | cons a l ih => simp only [List.map_cons, List.sum_cons, add_mul, ih]

/-- The markers of a state of a run. -/
theorem massMarks_ngp (hF : F.Ok) (hk : F.project = .ngp) {w : World P κ} (hw : WorldOk F w)
    {order : Fin P → List (CellIndex 3 × ℚ) → List (CellIndex 3 × ℚ)} (hord : ∀ r l, (order r l).Perm l) (t t' : ℚ) :
    ∃ mk, massMarks F t t' order w = some mk ∧ ∀ r, ∀ o ∈ w.sim.ranks.octs r,
      (mk o = 1 ↔ o.level < F.cfg.lmax ∧ ∃ x, (∀ k, x k < F.cfg.blk k) ∧ t < massIn F r w o x) ∧
      (mk o = -1 ↔ F.cfg.grid.lmin < o.level ∧ ∀ x, (∀ k, x k < F.cfg.blk k) →
        massIn F r w o x ≤ t ∧ massIn F r w o x ≤ t') := by
  classical
  have hin := placed_in_box hw.2
  have hdef : ∀ p ∈ allParts w.parts, (deposit F.project F.poisson F.cfg.lmax w.sim.ranks.mesh p).isSome := by
    intro p hp
    obtain ⟨o, ho⟩ : ∃ o, o ∈ w.sim.ranks.mesh := by
      obtain ⟨r, hr⟩ := mem_allParts.1 hp
      obtain ⟨-, o, ho, -⟩ := hw.2 r p hr
      exact ⟨o, mem_mesh ho⟩
    rw [hk]
    exact (gained_ngp hF hw (hin p hp) ho (x := fun _ => 0) hF.cfg.blk).1
  rcases massMarks_global hF hw hord (own_self hw.1) t t' with ⟨mk, rho, e1, e2, h⟩ | ⟨e1, e2⟩
  swap
  · unfold globalDeposit at e2
    rw [if_pos hdef] at e2
    cases e2
  refine ⟨mk, e1, fun r o ho => ?_⟩
  unfold globalDeposit at e2
  rw [if_pos hdef, Option.some.injEq] at e2
  have key : ∀ x, (∀ k, x k < F.cfg.blk k) →
      rho o x * volume F.cfg.dom (cellGrid F.cfg.grid F.cfg.blk) (cellOct F.cfg.blk o x) = massIn F r w o x := by
    intro x hx
    rw [← e2]
    unfold massIn
    simp only
    rw [add_mul, own_self hw.1 r o ho x hx, sum_map_mul, hk]
    congr 2
    exact List.map_congr_left fun p hp => (gained_ngp hF hw (hin p hp) (mem_mesh ho) hx).2
  obtain ⟨a1, a2⟩ := massMarker_iff hF t t' rho o
  rw [h o (mem_mesh ho), a1, a2]
  refine ⟨and_congr_right fun _ => exists_congr fun x => and_congr_right fun hx => by rw [key x hx],
    and_congr_right fun _ => forall_congr' fun x => forall_congr' fun hx => by rw [key x hx]⟩

/-! ### Runs -/

/-- The markers of two states that are the same. -/
theorem massMarks_same (hF : F.Ok) {w : World P κ} {w' : World Q κ} (hw : WorldOk F w) (hw' : WorldOk F w')
    (h : SameWorld F.cfg.blk w w') {order : Fin P → List (CellIndex 3 × ℚ) → List (CellIndex 3 × ℚ)}
    (hord : ∀ r l, (order r l).Perm l) {order' : Fin Q → List (CellIndex 3 × ℚ) → List (CellIndex 3 × ℚ)}
    (hord' : ∀ r l, (order' r l).Perm l) (t t' : ℚ) :
    Both (fun mk mk' => Asked F.cfg w.sim.ranks.mesh mk ∧ ∀ o ∈ w.sim.ranks.mesh, mk o = mk' o)
      (massMarks F t t' order w) (massMarks F t t' order' w') := by
  obtain ⟨hm, -, -⟩ := (same_iff hw.1 hw'.1).1 h.1
  have h1 := massMarks_global hF hw hord (own_self hw.1) t t'
  have h2 := massMarks_global hF hw' hord' (own_of_same hw.1 hw'.1 h.1) t t'
  rw [← hm, ← globalDeposit_perm _ _ _ _ _ h.2] at h2
  rcases h1 with ⟨a, c, e1, e2, h1⟩ | ⟨e1, e2⟩ <;> rcases h2 with ⟨a', c', k1, k2, h2⟩ | ⟨k1, k2⟩ <;> rw [e2] at k2 <;>
    cases k2
  · refine Or.inl ⟨a, a', e1, k1, fun o ho => ?_, fun o ho => by rw [h1 o ho, h2 o ho]⟩
    rw [h1 o ho]
    exact massMarker_asked hF t t' _ o
  · exact Or.inr ⟨e1, k1⟩

variable {m₁ m₂ : ℚ}

/-- One step on two numbers of ranks. -/
theorem massAct_same (hF : F.Ok) {nz : Noise P κ} (hnz : nz.Ok) {nz' : Noise Q κ} (hnz' : nz'.Ok) {w t : World P κ}
    {w' t' : World Q κ} (hw : WorldOk F w) (hw' : WorldOk F w') (h : SameWorld F.cfg.blk w w') {a : Act}
    (e : massAct F m₁ m₂ w (a, nz) = some t) (e' : massAct F m₁ m₂ w' (a, nz') = some t') :
    WorldOk F t ∧ WorldOk F t' ∧ SameWorld F.cfg.blk t t' := by
  cases a with
  | iterate => exact act_same (a := .iterate) hF hnz hnz' hw hw' h e e'
  | loadBalance level => exact act_same (a := .loadBalance level) hF hnz hnz' hw hw' h e e'
  | amr =>
    obtain ⟨mk, c1, e⟩ := Option.bind_eq_some_iff.1 e
    obtain ⟨s, d1, e⟩ := Option.bind_eq_some_iff.1 e
    obtain ⟨mk', c2, e'⟩ := Option.bind_eq_some_iff.1 e'
    obtain ⟨s', d2, e'⟩ := Option.bind_eq_some_iff.1 e'
    rcases massMarks_same hF hw hw' h hnz hnz' m₁ m₂ with ⟨f, f', f1, f2, f3, f4⟩ | ⟨f1, -⟩
    swap
    · rw [c1] at f1; cases f1
    rw [c1] at f1
    rw [c2] at f2
    cases f1
    cases f2
    obtain ⟨a1, a2, a3⟩ := amrWith_same hF.cfg hw.1 hw'.1 h.1 f3 f4 d1 d2
    obtain ⟨ps, k1, k2, k3⟩ := place_some hF a1 (placed_in_box hw.2)
    obtain ⟨ps', l1, l2, l3⟩ := place_some hF a2 (placed_in_box hw'.2)
    rw [k1, Option.map_some, Option.some.injEq] at e
    rw [l1, Option.map_some, Option.some.injEq] at e'
    subst e
    subst e'
    exact ⟨⟨a1, k3⟩, ⟨a2, l3⟩, a3, k2.trans (h.2.trans l2.symm)⟩

/-- What `P` ranks can do can be done by one rank. -/
theorem massAct_serial (hF : F.Ok) {nz : Noise P κ} (hnz : nz.Ok) {nz' : Noise 1 κ} (hnz' : nz'.Ok) {w t : World P κ}
    {w' : World 1 κ} (hw : WorldOk F w) (hw' : WorldOk F w') (h : SameWorld F.cfg.blk w w') {a : Act}
    (e : massAct F m₁ m₂ w (a, nz) = some t) : ∃ t', massAct F m₁ m₂ w' (a, nz') = some t' := by
  cases a with
  | iterate => exact act_serial (a := .iterate) hF hnz hnz' hw hw' h e
  | loadBalance level => exact act_serial (a := .loadBalance level) hF hnz hnz' hw hw' h e
  | amr =>
    obtain ⟨mk, c1, e⟩ := Option.bind_eq_some_iff.1 e
    obtain ⟨s, d1, e⟩ := Option.bind_eq_some_iff.1 e
    rcases massMarks_same hF hw hw' h hnz hnz' m₁ m₂ with ⟨f, f', f1, f2, f3, f4⟩ | ⟨f1, -⟩
    swap
    · rw [c1] at f1; cases f1
    rw [c1] at f1
    cases f1
    obtain ⟨s', d2⟩ := amrWith_serial hF.cfg hw.1 hw'.1 h.1 f3 f4 d1
    obtain ⟨-, a2, -⟩ := amrWith_same hF.cfg hw.1 hw'.1 h.1 f3 f4 d1 d2
    obtain ⟨ps', l1, -⟩ := place_some hF a2 (placed_in_box hw'.2)
    refine ⟨⟨s', ps'⟩, ?_⟩
    show ((massMarks F m₁ m₂ nz'.order w').bind fun mk => (amrWith F.cfg mk w'.sim).bind fun s =>
      (place F s.ranks w'.parts).map fun ps => (⟨s, ps⟩ : World 1 κ)) = _
    rw [f2, Option.bind_some, d2, Option.bind_some, l1]
    rfl

theorem massActs_same (hF : F.Ok) {as : List (Act × Noise P κ)} {as' : List (Act × Noise Q κ)}
    (heq : as.map Prod.fst = as'.map Prod.fst) (hn : ∀ a ∈ as, a.2.Ok) (hn' : ∀ a ∈ as', a.2.Ok) :
    ∀ {w t : World P κ} {w' t' : World Q κ}, WorldOk F w → WorldOk F w' → SameWorld F.cfg.blk w w' →
      as.foldlM (massAct F m₁ m₂) w = some t → as'.foldlM (massAct F m₁ m₂) w' = some t' →
      WorldOk F t ∧ WorldOk F t' ∧ SameWorld F.cfg.blk t t' := by
  induction as generalizing as' with
  | nil =>
    cases as' with
    | cons a l => cases heq
    | nil =>
      intro w t w' t' h1 h2 h3 e e'
      cases e
      cases e'
      exact ⟨h1, h2, h3⟩
  | cons a as ih =>
    cases as' with
    | nil => cases heq
    | cons a' as' =>
      obtain ⟨a, nz⟩ := a
      obtain ⟨a', nz'⟩ := a'
      simp only [List.map_cons, List.cons.injEq] at heq
      obtain ⟨rfl, heq⟩ := heq
      intro w t w' t' h1 h2 h3 e e'
      rw [List.foldlM_cons] at e e'
      obtain ⟨u, k1, e⟩ := Option.bind_eq_some_iff.1 e
      obtain ⟨u', k2, e'⟩ := Option.bind_eq_some_iff.1 e'
      obtain ⟨c1, c2, c3⟩ := massAct_same hF (hn _ List.mem_cons_self) (hn' _ List.mem_cons_self) h1 h2 h3 k1 k2
      exact ih heq (fun b hb => hn b (List.mem_cons_of_mem _ hb)) (fun b hb => hn' b (List.mem_cons_of_mem _ hb)) c1 c2 c3 e e'

theorem massRun_ok (hF : F.Ok) (hP : P ≤ ∏ k, F.cfg.grid.coarse k) {time : ℚ} {inits : List Op}
    {ps : Fin P → List (Part 3)} {as : List (Act × Noise P κ)} (hn : ∀ a ∈ as, a.2.Ok) {t : World P κ}
    (h : massRun F m₁ m₂ time inits ps as = some t) : WorldOk F t := by
  obtain ⟨s, e1, h⟩ := Option.bind_eq_some_iff.1 h
  obtain ⟨q, e2, h⟩ := Option.bind_eq_some_iff.1 h
  have hw := (start_world hF hP e1 e2).1
  exact (massActs_same hF rfl hn hn hw hw (SameWorld.refl hw) h h).1

/-- **C110.** After any run, `RefineCondition_mass` with particles (nearest grid point) marks an octant for refinement
exactly if it is below the finest level and a cell of it has more mass than `mass_refine`; for coarsening exactly if it is
above the coarsest level and no cell has more than `mass_coarsen` (or `mass_refine`). The mass in a cell is that of the gas
and that of all particles, of whatever rank, in the box of the cell; the order of the additions does not matter. Partial:
coarse grids that are not full cubes are left out. -/
theorem C110_marks_partial (hF : F.Ok) (hP : P ≤ ∏ k, F.cfg.grid.coarse k) (hk : F.project = .ngp) (time : ℚ)
    (inits : List Op) {ps : Fin P → List (Part 3)} {as : List (Act × Noise P κ)} (hn : ∀ a ∈ as, a.2.Ok) {w : World P κ}
    (h : massRun F m₁ m₂ time inits ps as = some w)
    {order : Fin P → List (CellIndex 3 × ℚ) → List (CellIndex 3 × ℚ)} (hord : ∀ r l, (order r l).Perm l) :
    ∃ mk, massMarks F m₁ m₂ order w = some mk ∧ ∀ r, ∀ o ∈ w.sim.ranks.octs r,
      (mk o = 1 ↔ o.level < F.cfg.lmax ∧ ∃ x, (∀ k, x k < F.cfg.blk k) ∧ m₁ < massIn F r w o x) ∧
      (mk o = -1 ↔ F.cfg.grid.lmin < o.level ∧ ∀ x, (∀ k, x k < F.cfg.blk k) →
        massIn F r w o x ≤ m₁ ∧ massIn F r w o x ≤ m₂) :=
  massMarks_ngp hF hk (massRun_ok hF hP hn h) hord m₁ m₂

/-- **C110.** A simulation with gas, self-gravity and particles that refines by the mass of gas and particles does not depend
on the number of ranks, as in C93. -/
theorem C110_same_result_partial (hF : F.Ok) (hP : P ≤ ∏ k, F.cfg.grid.coarse k) (hQ : Q ≤ ∏ k, F.cfg.grid.coarse k)
    (time : ℚ) (inits : List Op) {ps : Fin P → List (Part 3)} {ps' : Fin Q → List (Part 3)}
    (hps : (allParts ps).Perm (allParts ps')) {as : List (Act × Noise P κ)} {as' : List (Act × Noise Q κ)}
    (heq : as.map Prod.fst = as'.map Prod.fst) (hn : ∀ a ∈ as, a.2.Ok) (hn' : ∀ a ∈ as', a.2.Ok)
    {t : World P κ} {t' : World Q κ} (h : massRun F m₁ m₂ time inits ps as = some t)
    (h' : massRun F m₁ m₂ time inits ps' as' = some t') : SameWorld F.cfg.blk t t' := by
  obtain ⟨s, e1, h⟩ := Option.bind_eq_some_iff.1 h
  obtain ⟨q, e2, h⟩ := Option.bind_eq_some_iff.1 h
  obtain ⟨s', k1, h'⟩ := Option.bind_eq_some_iff.1 h'
  obtain ⟨q', k2, h'⟩ := Option.bind_eq_some_iff.1 h'
  obtain ⟨a1, a2⟩ := start_world hF hP e1 e2
  obtain ⟨b1, b2⟩ := start_world hF hQ k1 k2
  exact (massActs_same hF heq hn hn' a1 b1 ⟨C85_same_result hF.cfg hP hQ time inits e1 k1, a2.trans (hps.trans b2.symm)⟩ h
    h').2.2

/-- **C110.** Such a simulation that ends on some number of ranks ends on one rank, with the same result. -/
theorem C110_serial_partial (hF : F.Ok) (hP : P ≤ ∏ k, F.cfg.grid.coarse k) (time : ℚ) (inits : List Op)
    {ps : Fin P → List (Part 3)} {as : List (Act × Noise P κ)} {as' : List (Act × Noise 1 κ)}
    (heq : as.map Prod.fst = as'.map Prod.fst) (hn : ∀ a ∈ as, a.2.Ok) (hn' : ∀ a ∈ as', a.2.Ok)
    {t : World P κ} (h : massRun F m₁ m₂ time inits ps as = some t) :
    ∃ t' : World 1 κ, massRun F m₁ m₂ time inits (fun _ => allParts ps) as' = some t' ∧ SameWorld F.cfg.blk t t' := by
  have hP1 : 1 ≤ ∏ k, F.cfg.grid.coarse k := Nat.succ_le_of_lt (Finset.prod_pos fun k _ => hF.cfg.wf.toPos.pos k)
  have hall : allParts (fun _ : Fin 1 => allParts ps) = allParts ps := by
    unfold allParts; simp
  obtain ⟨s, e1, h0⟩ := Option.bind_eq_some_iff.1 h
  clear h
  obtain ⟨q, e2, h⟩ := Option.bind_eq_some_iff.1 h0
  clear h0
  obtain ⟨a1, a2⟩ := start_world hF hP e1 e2
  obtain ⟨s', k1, k2⟩ := C85_serial hF.cfg hP time inits e1
  have hs' := simulate_ok hF.cfg hP1 k1
  obtain ⟨q', l1, l2, l3⟩ := place_some hF hs' (ps := fun _ => allParts ps) (by
    rw [hall]
    intro p hp
    exact placed_in_box a1.2 p (a2.mem_iff.2 hp))
  rw [hall] at l2
  unfold massRun
  rw [k1, Option.bind_some, l1, Option.bind_some]
  have hsame : SameWorld F.cfg.blk (⟨s, q⟩ : World P κ) (⟨s', q'⟩ : World 1 κ) := ⟨k2, a2.trans l2.symm⟩
  have hw' : WorldOk F (⟨s', q'⟩ : World 1 κ) := ⟨hs', l3⟩
  generalize (⟨s, q⟩ : World P κ) = w at a1 hsame h
  generalize (⟨s', q'⟩ : World 1 κ) = w' at hsame hw'
  clear a2 e1 e2 k1 k2 l1 l2 l3 hs'
  induction as generalizing as' w w' with
  | nil =>
    cases as' with
    | cons a l => cases heq
    | nil =>
      cases h
      exact ⟨w', rfl, hsame⟩
  | cons a as ih =>
    cases as' with
    | nil => cases heq
    | cons a' as' =>
      obtain ⟨a, nz⟩ := a
      obtain ⟨a', nz'⟩ := a'
      simp only [List.map_cons, List.cons.injEq] at heq
      obtain ⟨rfl, heq⟩ := heq
      rw [List.foldlM_cons] at h ⊢
      obtain ⟨u, u1, h⟩ := Option.bind_eq_some_iff.1 h
      obtain ⟨u', u2⟩ := massAct_serial hF (hn _ List.mem_cons_self) (hn' _ List.mem_cons_self) a1 hw' hsame u1
      obtain ⟨c1, c2, c3⟩ := massAct_same hF (hn _ List.mem_cons_self) (hn' _ List.mem_cons_self) a1 hw' hsame u1 u2
      rw [u2]
      exact ih heq (fun b hb => hn b (List.mem_cons_of_mem _ hb)) (fun b hb => hn' b (List.mem_cons_of_mem _ hb)) u c1 h u' c3 c2

/-- **C110.** After any run, the next AMR cycle cuts every octant below the finest level that has a cell with more mass of
gas and particles than `mass_refine`: its eight parts are in the mesh. -/
theorem C110_refines_partial (hF : F.Ok) (hP : P ≤ ∏ k, F.cfg.grid.coarse k) (hk : F.project = .ngp) (time : ℚ)
    (inits : List Op) {ps : Fin P → List (Part 3)} {as : List (Act × Noise P κ)} (hn : ∀ a ∈ as, a.2.Ok) {w u : World P κ}
    (h : massRun F m₁ m₂ time inits ps as = some w) {nz : Noise P κ} (hnz : nz.Ok)
    (hu : massAct F m₁ m₂ w (.amr, nz) = some u) {r : Fin P} {o : Oct 3} (ho : o ∈ w.sim.ranks.octs r)
    (hl : o.level < F.cfg.lmax) {x : Fin 3 → ℕ} (hx : ∀ k, x k < F.cfg.blk k) (hm : m₁ < massIn F r w o x) {c : Oct 3}
    (hc : PartOf o c) : ∃ r', c ∈ u.sim.ranks.octs r' := by
  have hw := massRun_ok hF hP hn h
  obtain ⟨mk, c1, e⟩ := Option.bind_eq_some_iff.1 hu
  obtain ⟨s, d1, e⟩ := Option.bind_eq_some_iff.1 e
  obtain ⟨ps', -, rfl⟩ := Option.map_eq_some_iff.1 e
  obtain ⟨mk', k1, k2⟩ := massMarks_ngp hF hk hw hnz m₁ m₂
  rw [c1] at k1
  cases k1
  rcases massMarks_same hF hw hw (SameWorld.refl hw) hnz hnz m₁ m₂ with ⟨f, f', f1, -, f3, -⟩ | ⟨f1, -⟩
  swap
  · rw [c1] at f1; cases f1
  rw [c1] at f1
  cases f1
  exact (mem_leaves _ _).1 (amrWith_cuts hF.cfg hw.1 f3 d1 (mem_mesh ho) ((k2 r o ho).1.2 ⟨hl, x, hx, hm⟩) hc.1 hc.2)

theorem massAct_mass (hF : F.Ok) (hg : F.gas.Conservative) (hper : ∀ k, F.cfg.grid.periodic k = true)
    (hpost : ∀ dt u v, F.cfg.post dt u v (.inl F.density) = v (.inl F.density)) (hi : F.Spares (.inl F.density))
    {nz : Noise P κ} (hnz : nz.Ok) {w t : World P κ} (hw : WorldOk F w) {a : Act}
    (e : massAct F m₁ m₂ w (a, nz) = some t) : worldMass F t = worldMass F w := by
  cases a with
  | iterate => exact act_mass (a := .iterate) hF hg hper hpost hi hnz hw e
  | loadBalance level => exact act_mass (a := .loadBalance level) hF hg hper hpost hi hnz hw e
  | amr =>
    obtain ⟨mk, c1, e⟩ := Option.bind_eq_some_iff.1 e
    obtain ⟨s, d1, e⟩ := Option.bind_eq_some_iff.1 e
    rcases massMarks_same hF hw hw (SameWorld.refl hw) hnz hnz m₁ m₂ with ⟨f, f', f1, -, f3, -⟩ | ⟨f1, -⟩
    swap
    · rw [c1] at f1; cases f1
    rw [c1] at f1
    cases f1
    obtain ⟨a1, -⟩ := amrWith_same hF.cfg hw.1 hw.1 (Same.refl hw.1) f3 (fun _ _ => rfl) d1 d1
    obtain ⟨ps, k1, k2, -⟩ := place_some hF a1 (placed_in_box hw.2)
    rw [k1, Option.map_some, Option.some.injEq] at e
    subst e
    unfold worldMass
    simp only
    rw [(k2.map Part.mass).sum_eq, amrWith_conserved hF.cfg hw.1 f3 d1]

/-- **C110** (mass). In a periodic domain the mass of gas and particles does not change during such a run, as in C93; the
projections that the condition makes leave nothing in the gas. Partial: not for `HydroUpdate_hancock` (C75). -/
theorem C110_mass_partial (hF : F.Ok) (hg : F.gas.Conservative) (hper : ∀ k, F.cfg.grid.periodic k = true)
    (hpost : ∀ dt u v, F.cfg.post dt u v (.inl F.density) = v (.inl F.density)) (hi : F.Spares (.inl F.density))
    (hP : P ≤ ∏ k, F.cfg.grid.coarse k) (time : ℚ) (inits : List Op) {ps : Fin P → List (Part 3)}
    {as as' : List (Act × Noise P κ)} (hn : ∀ a ∈ as ++ as', a.2.Ok) {s t : World P κ}
    (h : massRun F m₁ m₂ time inits ps as = some s) (h' : massRun F m₁ m₂ time inits ps (as ++ as') = some t) :
    worldMass F t = worldMass F s := by
  have hs := massRun_ok hF hP (fun a ha => hn a (List.mem_append_left _ ha)) h
  obtain ⟨s0, e1, h1⟩ := Option.bind_eq_some_iff.1 h
  obtain ⟨q, e2, h2⟩ := Option.bind_eq_some_iff.1 h1
  unfold massRun at h'
  rw [e1, Option.bind_some, e2, Option.bind_some, List.foldlM_append, h2] at h'
  replace h' : as'.foldlM (massAct F m₁ m₂) s = some t := h'
  replace hn : ∀ a ∈ as', a.2.Ok := fun a ha => hn a (List.mem_append_right _ ha)
  clear h h1 h2 e1 e2
  induction as' generalizing s with
  | nil => cases h'; rfl
  | cons a as' ih =>
    obtain ⟨a, nz⟩ := a
    rw [List.foldlM_cons] at h'
    obtain ⟨u, u1, h'⟩ := Option.bind_eq_some_iff.1 h'
    have hu := (massAct_same hF (hn _ List.mem_cons_self) (hn _ List.mem_cons_self) hs hs (SameWorld.refl hs) u1 u1).1
    rw [ih hu h' (fun b hb => hn b (List.mem_cons_of_mem _ hb)),
      massAct_mass hF hg hper hpost hi (hn _ List.mem_cons_self) hs u1]

end Verif.Sim
