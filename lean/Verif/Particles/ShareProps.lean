import Verif.Particles.Share
import Verif.Particles.Move

/-!
# C112: what a cloud in cell brings to each cell
-/

namespace Verif.Particles

open Verif.Octree Verif.Cells Verif.Flux Verif.Hydro

/-- Specification: the part of the cloud of a particle at `x` that is in cell `y` of octant `o`. The cloud is a box with
the sides `h` around the particle. -/
def inCloud {d : ℕ} (D : Domain d) (G : Grid d) (b : Fin d → ℕ) (h x : Fin d → ℚ) (o : Oct d) (y : Fin d → ℕ) : ℚ :=
  (∏ k, covered D G b o y h x k) / ∏ k, h k

/-- Specification: `h` is the size of the cell in which `x` is. -/
def SizeAt {d : ℕ} (D : Domain d) (G : Grid d) (M : Finset (Oct d)) (b : Fin d → ℕ) (x h : Fin d → ℚ) : Prop :=
  ∃ o ∈ M, ∃ y : Fin d → ℕ, (∀ k, y k < b k) ∧ InCell D G b o y x ∧ h = cellSize D (cellGrid G b) (cellOct b o y)

theorem project_at {d : ℕ} (ws : List (CellIndex d × ℚ)) (rho : Oct d → (Fin d → ℕ) → ℚ) (o : Oct d) (x : Fin d → ℕ) :
    project rho ws o x = rho o x + (ws.map fun w => if w.1.oct = o ∧ w.1.idx = x then w.2 else 0).sum := by
  unfold project
  induction ws generalizing rho with
  | nil => simp
  | cons w ws ih =>
    rw [List.foldl_cons, ih, List.map_cons, List.sum_cons]
    unfold addTo
    split <;> ring

/-- One particle, every cell. -/
theorem cic_at {G : Grid 3} {M : Finset (Oct 3)} (hG : G.WF) (hM : Tiling G M) (hB : Balanced G M)
    (hper : ∀ k, G.periodic k = true) {D : Domain 3} (hD : Domain.Ok D) (minLevel maxLevel : ℕ)
    (hlev : ∀ o ∈ M, minLevel ≤ o.level ∧ o.level ≤ maxLevel) {b : Fin 3 → ℕ} (hb0 : ∀ k, 0 < b k) (q : Particle 3)
    (hq : InBox D q.pos) (hs : NoSmallerAround D G M b q.pos) {h : Fin 3 → ℚ} (hh : SizeAt D G M b q.pos h) :
    ∃ ws : List (CellIndex 3 × ℚ), cic D G M minLevel maxLevel b q = some ws ∧ ∀ o ∈ M, ∀ y : Fin 3 → ℕ, (∀ k, y k < b k) →
      (ws.map fun w => if w.1.oct = o ∧ w.1.idx = y then w.2 else 0).sum =
        q.mass * inCloud D G b h q.pos o y / volume D (cellGrid G b) (cellOct b o y) := by
  obtain ⟨c, ws, h1, h2, h3, h4, h5⟩ := cic_share hG hM hB hper hD minLevel maxLevel hlev hb0 q hq hs
  obtain ⟨c', -, -, -, -, -, -, c7⟩ := C26_cell_of_pos hG hM D hD minLevel maxLevel hlev b hb0 q.pos hq
  obtain ⟨o', ho', y', hy', hin, rfl⟩ := hh
  have e1 := c7 _ h1 _ h2 h3
  have e2 := c7 _ ho' _ hy' hin
  have e3 : cellOct b o' y' = cellOct b c.oct c.idx := by rw [e1.1, e1.2, e2.1, e2.2]
  refine ⟨ws, h4, fun o ho y hy => ?_⟩
  rw [e3]
  unfold inCloud
  rw [← Finset.prod_div_distrib]
  exact h5 o ho y hy

/-- C112: where no cell around the cell of a particle is smaller than this cell, the projection adds to the density of every
cell the mass of each particle, times the part of the cloud of the particle that is in the cell, divided by the volume of
the cell. -/
theorem C112_density_partial {G : Grid 3} {M : Finset (Oct 3)} (hG : G.WF) (hM : Tiling G M) (hB : Balanced G M)
    (hper : ∀ k, G.periodic k = true) {D : Domain 3} (hD : Domain.Ok D) (minLevel maxLevel : ℕ)
    (hlev : ∀ o ∈ M, minLevel ≤ o.level ∧ o.level ≤ maxLevel) {b : Fin 3 → ℕ} (hb0 : ∀ k, 0 < b k)
    (ps : List (Particle 3)) (hps : ∀ p ∈ ps, InBox D p.pos) (hs : ∀ p ∈ ps, NoSmallerAround D G M b p.pos)
    (h : Particle 3 → Fin 3 → ℚ) (hh : ∀ p ∈ ps, SizeAt D G M b p.pos (h p)) :
    ∃ ws, ps.mapM (cic D G M minLevel maxLevel b) = some ws ∧ ∀ rho, ∀ o ∈ M, ∀ y : Fin 3 → ℕ, (∀ k, y k < b k) →
      project rho ws.flatten o y = rho o y +
        (ps.map fun p => p.mass * inCloud D G b (h p) p.pos o y).sum / volume D (cellGrid G b) (cellOct b o y) := by
  have key := fun p hp => cic_at hG hM hB hper hD minLevel maxLevel hlev hb0 p (hps p hp) (hs p hp) (hh p hp)
  choose! f hf1 hf2 using key
  refine ⟨_, OneNeighbor.loops_mapM_some _ _ f hf1, fun rho o ho y hy => ?_⟩
  rw [project_at, List.map_flatten, List.sum_flatten, List.map_map, List.map_map,
    List.map_congr_left (g := fun p => p.mass * inCloud D G b (h p) p.pos o y / volume D (cellGrid G b) (cellOct b o y))]
  · congr 1
    simp only [div_eq_mul_inv, List.sum_map_mul_right]
  · intro p hp
    exact hf2 p hp o ho y hy

theorem sum_cells {d : ℕ} {M : Finset (Oct d)} {b : Fin d → ℕ} {ws : List (CellIndex d × ℚ)} (hw : Inside M b ws)
    (g : Oct d → (Fin d → ℕ) → ℚ) : (ws.map fun w => w.2 * g w.1.oct w.1.idx).sum =
      cellSum b M fun o y => (ws.map fun w => if w.1.oct = o ∧ w.1.idx = y then w.2 else 0).sum * g o y := by
  classical
  induction ws with
  | nil => simp [cellSum]
  | cons w ws ih =>
    rw [List.map_cons, List.sum_cons, ih fun v hv => hw v (List.mem_cons_of_mem _ hv)]
    unfold cellSum
    simp only [List.map_cons, List.sum_cons, add_mul, Finset.sum_add_distrib]
    congr 1
    have h1 := hw w List.mem_cons_self
    rw [Finset.sum_eq_single_of_mem _ h1.1, Finset.sum_eq_single_of_mem w.1.idx (by simpa using h1.2)]
    · simp
    · intro y _ hne
      rw [if_neg fun h => hne h.2.symm, zero_mul]
    · intro o _ hne
      exact Finset.sum_eq_zero fun y _ => by rw [if_neg fun h => hne h.1.symm, zero_mul]

/-- Interpolation at a particle without smaller cells around its cell, and deposition with the same shares. -/
theorem acc_share {G : Grid 3} {M : Finset (Oct 3)} (hG : G.WF) (hM : Tiling G M) (hB : Balanced G M)
    (hper : ∀ k, G.periodic k = true) {D : Domain 3} (hD : Domain.Ok D) (minLevel maxLevel : ℕ)
    (hlev : ∀ o ∈ M, minLevel ≤ o.level ∧ o.level ≤ maxLevel) {b : Fin 3 → ℕ} (hb0 : ∀ k, 0 < b k) (x : Fin 3 → ℚ)
    (hx : InBox D x) (hs : NoSmallerAround D G M b x) :
    ∃ sh : List (CellIndex 3 × ℚ), (∀ mass, cic D G M minLevel maxLevel b ⟨x, mass⟩ = some (sh.map fun w =>
        (w.1, mass * w.2 / volume D (cellGrid G b) (cellOct b w.1.oct w.1.idx)))) ∧
      (∀ g, cicAcc D G M minLevel maxLevel b g x = some (sh.map fun w => w.2 * g w.1.oct w.1.idx).sum) ∧
      Inside M b sh := by
  obtain ⟨c, h1, h2, h3, h4, h5, h6, -⟩ := C26_cell_of_pos hG hM D hD minLevel maxLevel hlev b hb0 x hx
  have hns := hs _ h2 _ h3 h6
  subst h4
  have hGp : G.Pos := hG
  generalize hp : relPos D G c x = p
  have hc := fun e he => contrib_one hGp hM hB hper hD h2 h3 h5 (e := e) (fun k => offsets_abs (p := p) he k)
    (fun P hP => hns e (fun k => offsets_abs (p := p) he k) P hP) p
  have : Nonempty (CellIndex 3) := ⟨c⟩
  choose! f P hf1 hg hf2 hf3 hf4 hf5 using hc
  refine ⟨(offsets p).map fun e => (f e, fraction p e), fun mass => ?_, fun g => ?_, ?_⟩
  · unfold cic
    rw [h1, Option.bind_some]
    dsimp only
    rw [hp, OneNeighbor.loops_mapM_some _ _ _ fun e he => hf1 e he mass, Option.map_some, List.map_map]
    congr 1
  · unfold cicAcc
    rw [h1, Option.bind_some]
    dsimp only
    rw [hp, OneNeighbor.loops_mapM_some _ _ _ fun e he => hg e he g, Option.map_some, List.map_map]
    congr 2
    exact List.map_congr_left fun e _ => mul_comm _ _
  · intro w hw
    obtain ⟨e, he, rfl⟩ := List.mem_map.1 hw
    exact ⟨hf2 e he, hf3 e he⟩

/-- C112 (acceleration): there, the acceleration of a particle is the mean, over its cloud, of the acceleration of the
cells. -/
theorem C112_acceleration_partial {G : Grid 3} {M : Finset (Oct 3)} (hG : G.WF) (hM : Tiling G M) (hB : Balanced G M)
    (hper : ∀ k, G.periodic k = true) {D : Domain 3} (hD : Domain.Ok D) (minLevel maxLevel : ℕ)
    (hlev : ∀ o ∈ M, minLevel ≤ o.level ∧ o.level ≤ maxLevel) {b : Fin 3 → ℕ} (hb0 : ∀ k, 0 < b k)
    (x : Fin 3 → ℚ) (hx : InBox D x) (hs : NoSmallerAround D G M b x) {h : Fin 3 → ℚ}
    (hh : SizeAt D G M b x h) (g : Oct 3 → (Fin 3 → ℕ) → ℚ) :
    cicAcc D G M minLevel maxLevel b g x = some (cellSum b M fun o y => inCloud D G b h x o y * g o y) := by
  have hG' := cellGrid_pos (show G.Pos from hG) hb0
  obtain ⟨ws, h1, h2⟩ := cic_at hG hM hB hper hD minLevel maxLevel hlev hb0 ⟨x, 1⟩ hx hs hh
  obtain ⟨sh, a1, a2, a3⟩ := acc_share hG hM hB hper hD minLevel maxLevel hlev hb0 x hx hs
  rw [a2 g, sum_cells a3]
  congr 1
  unfold cellSum
  refine Finset.sum_congr rfl fun o ho => Finset.sum_congr rfl fun y hy => ?_
  have hy' : ∀ k, y k < b k := by simpa using hy
  have hV := volume_pos hG' hD (cellOct b o y)
  have e := h2 o ho y hy'
  rw [a1 1] at h1
  rw [← Option.some.inj h1, List.map_map, List.map_congr_left (g := fun w =>
    (if w.1.oct = o ∧ w.1.idx = y then w.2 else 0) * (volume D (cellGrid G b) (cellOct b o y))⁻¹)] at e
  · rw [List.sum_map_mul_right, div_eq_mul_inv, one_mul] at e
    dsimp only
    rw [mul_right_cancel₀ (inv_ne_zero hV.ne') e]
  · intro w _
    simp only [Function.comp_apply]
    split
    · rename_i hw
      rw [hw.1, hw.2, one_mul, div_eq_mul_inv]
    · ring

/-- Disagreement: next to smaller cells the shares are not those of the cloud. The smaller cell at the corner across which
the cloud reaches holds 1/64 of the cloud and gets 1/256 of the mass. -/
theorem C112_density_fails : SizeAt cubeDomain cube cubeMesh.toFinset ![2, 2, 2] corner.pos ![1 / 4, 1 / 4, 1 / 4] ∧
    (cic cubeDomain cube cubeMesh.toFinset 1 2 ![2, 2, 2] corner).map (fun ws => project (fun _ _ => 0) ws
      ⟨2, ![2, 2, 2]⟩ ![0, 0, 0] * volume cubeDomain (cellGrid cube ![2, 2, 2]) (cellOct ![2, 2, 2] ⟨2, ![2, 2, 2]⟩ ![0, 0, 0])) =
      some (1 / 256) ∧
    corner.mass * inCloud cubeDomain cube ![2, 2, 2] ![1 / 4, 1 / 4, 1 / 4] corner.pos ⟨2, ![2, 2, 2]⟩ ![0, 0, 0] = 1 / 64 := by
  refine ⟨⟨⟨1, ![0, 0, 0]⟩, by decide, ![1, 1, 1], by decide, by unfold InCell; decide +kernel, by decide +kernel⟩, ?_, ?_⟩
  · decide +kernel
  · decide +kernel

/-! ### Examples -/

/-- Cells that are not at the border of their octant have no smaller cells around. -/
theorem interior_same {d : ℕ} {G : Grid d} {M : Finset (Oct d)} (hG : G.WF) (hM : Tiling G M) {D : Domain d}
    (hD : Domain.Ok D) (minLevel maxLevel : ℕ) (hlev : ∀ o ∈ M, minLevel ≤ o.level ∧ o.level ≤ maxLevel) {b : Fin d → ℕ}
    (hb0 : ∀ k, 0 < b k) {x : Fin d → ℚ} (hx : InBox D x) {o : Oct d} (ho : o ∈ M) {y : Fin d → ℕ}
    (hy : ∀ k, 0 < y k ∧ y k + 1 < b k) (hin : InCell D G b o y x) : NoSmallerAround D G M b x := by
  intro o' ho' y' hy' hin' e he P hP q hq hA
  obtain ⟨c, -, -, -, -, -, -, c7⟩ := C26_cell_of_pos hG hM D hD minLevel maxLevel hlev b hb0 x hx
  have hy0 : ∀ k, y k < b k := fun k => by have := hy k; omega
  have e1 := c7 _ ho' _ hy' hin'
  have e2 := c7 _ ho _ hy0 hin
  obtain rfl : o' = o := e1.1.trans e2.1.symm
  obtain rfl : y' = y := e1.2.trans e2.2.symm
  have hPm : (⟨o'.level, P⟩ : Oct d) ∈ cellMesh b M := ?_
  · rw [← (cellMesh_tiling (show G.Pos from hG) hb0 hM).eq_of_anc (cellGrid_pos (show G.Pos from hG) hb0) hPm hq hA]
  refine mem_cellMesh.2 ⟨o', ho', fun k => (y' k + e k).toNat, fun k => ?_, ?_⟩
  · have := abs_le.1 (he k)
    have := hy k
    dsimp only
    omega
  · unfold cellOct
    congr 1
    funext k
    have h1 := abs_le.1 (he k)
    have h2 := hy k
    obtain ⟨w1, t, w2, w3⟩ := hP k
    have hv := (cellMesh_tiling (show G.Pos from hG) hb0 hM).valid (cellOct b o' fun k => y' k + 1)
      (mem_cellMesh.2 ⟨o', ho', _, fun k => (hy k).2, rfl⟩) |>.2 k
    have hv' : o'.pos k * b k + (y' k + 1) < (cellGrid G b).count k o'.level := hv
    unfold target at w3
    generalize (cellGrid G b).count k o'.level = N at *
    push_cast at w3
    have ht : t = 0 := by
      rcases w2 with h | ⟨-, h | h⟩
      · exact h
      · subst h
        exfalso
        have : (0 : ℤ) ≤ o'.pos k * b k := by positivity
        zify at hv'
        omega
      · subst h
        exfalso
        have : (0 : ℤ) ≤ o'.pos k * b k := by positivity
        omega
    subst ht
    generalize hm : o'.pos k * b k = m at *
    have : ((m : ℕ) : ℤ) = (o'.pos k : ℤ) * b k := by rw [← hm]; push_cast; rfl
    dsimp only
    omega

/-- Nor have cells of the finest level. -/
theorem finest_same {d : ℕ} {G : Grid d} {M : Finset (Oct d)} (hG : G.WF) (hM : Tiling G M) {D : Domain d}
    (hD : Domain.Ok D) (minLevel maxLevel : ℕ) (hlev : ∀ o ∈ M, minLevel ≤ o.level ∧ o.level ≤ maxLevel) {b : Fin d → ℕ}
    (hb0 : ∀ k, 0 < b k) {x : Fin d → ℚ} (hx : InBox D x) {o : Oct d} (ho : o ∈ M) {y : Fin d → ℕ}
    (hy : ∀ k, y k < b k) (hin : InCell D G b o y x) (hl : o.level = maxLevel) : NoSmallerAround D G M b x := by
  intro o' ho' y' hy' hin' e he P hP q hq hA
  obtain ⟨c, -, -, -, -, -, -, c7⟩ := C26_cell_of_pos hG hM D hD minLevel maxLevel hlev b hb0 x hx
  obtain rfl : o' = o := (c7 _ ho' _ hy' hin').1.trans (c7 _ ho _ hy hin).1.symm
  obtain ⟨o₂, ho₂, y₂, -, rfl⟩ := mem_cellMesh.1 hq
  rw [hl]
  exact (hlev _ ho₂).2

/-- In the middle of a coarse octant. -/
def coarseIn : Particle 3 := ⟨![7 / 32, 3 / 16, 1 / 8], 2⟩

/-- In the middle of a refined octant. -/
def fineIn : Particle 3 := ⟨![21 / 32, 21 / 32, 41 / 64], 3⟩

/-- The sizes of their cells. -/
def sizeOf (p : Particle 3) : Fin 3 → ℚ := if p.mass = 2 then ![1 / 8, 1 / 8, 1 / 8] else ![1 / 16, 1 / 16, 1 / 16]

theorem inner_same : ∀ p ∈ [coarseIn, fineIn, fine], InBox cubeDomain p.pos ∧
    NoSmallerAround cubeDomain cube cubeMesh.toFinset ![4, 4, 4] p.pos ∧
    SizeAt cubeDomain cube cubeMesh.toFinset ![4, 4, 4] p.pos (sizeOf p) := by
  have hD : Domain.Ok cubeDomain := by unfold Domain.Ok; decide
  have b1 : InBox cubeDomain coarseIn.pos := by unfold InBox; decide +kernel
  have b2 : InBox cubeDomain fineIn.pos := by unfold InBox; decide +kernel
  have i1 : InCell cubeDomain cube ![4, 4, 4] ⟨1, ![0, 0, 0]⟩ ![1, 1, 1] coarseIn.pos := by unfold InCell; decide +kernel
  have i2 : InCell cubeDomain cube ![4, 4, 4] ⟨2, ![2, 2, 2]⟩ ![2, 2, 2] fineIn.pos := by unfold InCell; decide +kernel
  have b3 : InBox cubeDomain fine.pos := by unfold InBox; decide +kernel
  have i3 : InCell cubeDomain cube ![4, 4, 4] ⟨2, ![2, 2, 2]⟩ ![0, 0, 0] fine.pos := by unfold InCell; decide +kernel
  simp only [List.mem_cons, List.not_mem_nil, or_false, forall_eq_or_imp, forall_eq]
  exact ⟨⟨b1, interior_same cube_wf cube_tiling hD 1 2 cube_levels (by decide) b1 (by decide) (by decide) i1,
    _, by decide, _, by decide, i1, by decide +kernel⟩,
    ⟨b2, interior_same cube_wf cube_tiling hD 1 2 cube_levels (by decide) b2 (by decide) (by decide) i2,
    _, by decide, _, by decide, i2, by decide +kernel⟩,
    b3, finest_same cube_wf cube_tiling hD 1 2 cube_levels (by decide) b3 (by decide) (by decide) i3 rfl,
    _, by decide, _, by decide, i3, by decide +kernel⟩

/-- The hypotheses are met in a mesh of two levels, also by a cloud that reaches into larger cells. -/
example : ∃ ws, [coarseIn, fineIn, fine].mapM (cic cubeDomain cube cubeMesh.toFinset 1 2 ![4, 4, 4]) = some ws ∧
    ∀ o ∈ cubeMesh.toFinset, ∀ y : Fin 3 → ℕ, (∀ k, y k < (![4, 4, 4] : Fin 3 → ℕ) k) →
      project (fun _ _ => 1) ws.flatten o y = 1 +
        ([coarseIn, fineIn, fine].map fun p => p.mass * inCloud cubeDomain cube ![4, 4, 4] (sizeOf p) p.pos o y).sum /
          volume cubeDomain (cellGrid cube ![4, 4, 4]) (cellOct ![4, 4, 4] o y) := by
  obtain ⟨ws, h1, h2⟩ := C112_density_partial cube_wf cube_tiling cube_balanced (by decide) (D := cubeDomain)
    (by unfold Domain.Ok; decide) 1 2 cube_levels (b := ![4, 4, 4]) (by decide) [coarseIn, fineIn, fine]
    (fun p hp => (inner_same p hp).1) (fun p hp => (inner_same p hp).2.1) sizeOf (fun p hp => (inner_same p hp).2.2)
  exact ⟨ws, h1, fun o ho y hy => h2 _ o ho y hy⟩

example (g : Oct 3 → (Fin 3 → ℕ) → ℚ) : cicAcc cubeDomain cube cubeMesh.toFinset 1 2 ![4, 4, 4] g fine.pos =
    some (cellSum ![4, 4, 4] cubeMesh.toFinset fun o y =>
      inCloud cubeDomain cube ![4, 4, 4] (sizeOf fine) fine.pos o y * g o y) :=
  C112_acceleration_partial cube_wf cube_tiling cube_balanced (by decide) (by unfold Domain.Ok; decide) 1 2 cube_levels
    (by decide) _ (inner_same _ (by simp)).1 (inner_same _ (by simp)).2.1 (inner_same _ (by simp)).2.2 g

/-- By evaluation: a particle a quarter of a cell from the middle in one direction and on the face of the cell in another
one leaves three eighths of its cloud in its cell and one eighth in the cell across both faces. -/
example : inCloud cubeDomain cube ![4, 4, 4] (sizeOf coarseIn) coarseIn.pos ⟨1, ![0, 0, 0]⟩ ![1, 1, 1] = 3 / 8 ∧
    inCloud cubeDomain cube ![4, 4, 4] (sizeOf coarseIn) coarseIn.pos ⟨1, ![0, 0, 0]⟩ ![2, 1, 0] = 1 / 8 ∧
    inCloud cubeDomain cube ![4, 4, 4] (sizeOf coarseIn) coarseIn.pos ⟨1, ![0, 0, 0]⟩ ![3, 1, 1] = 0 := by
  decide +kernel

/-- By evaluation: the larger cells across a corner and across a face. -/
example : inCloud cubeDomain cube ![4, 4, 4] (sizeOf fine) fine.pos ⟨1, ![0, 0, 0]⟩ ![3, 3, 3] = 1 / 64 ∧
    inCloud cubeDomain cube ![4, 4, 4] (sizeOf fine) fine.pos ⟨1, ![0, 1, 1]⟩ ![3, 0, 0] = 9 / 64 := by
  decide +kernel

end Verif.Particles
