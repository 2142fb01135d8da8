import Verif.Sim.CloudProps
import Verif.Sim.GravityCheck

/-!
# C92: cases that meet the hypotheses; particles that are sent to wrong ranks
-/

namespace Verif.Sim

open Verif.Octree Verif.Cells Verif.Adapt Verif.Flux Verif.Gravity Verif.Run Verif.Particles
open Verif.Partition (lightIntervals)

/-! ### Two particles in a box -/

/-- One particle near a corner of the box, one in the middle. -/
def twoParts : List (Part 3) :=
  [⟨![1 / 100, 1 / 100, 1 / 100], ![-1, 0, 0], 1⟩, ⟨![1 / 2, 1 / 2, 1 / 2], ![0, 1, -1], 3⟩]

theorem twoParts_in_box : ∀ p ∈ twoParts, InBox boxCase.dom p.pos := by
  unfold twoParts InBox
  decide +kernel

/-- Eight ranks and one rank: wherever the two particles are at first, the distribution puts them on their ranks; then the
cycle, with cloud in cell, is defined on both, and gives the same particles, potential and accelerations. -/
example : ∃ (s : Ranks 3 8) (t : Ranks 3 1), Reach 3 4 boxCase.grid [] s ∧ Reach 3 4 boxCase.grid [] t ∧
    ∃ (ps : Fin 8 → List (Part 3)) (ps' : Fin 1 → List (Part 3)) (dt : ℚ) (n : ℕ) (u : _) (v : _),
      distributeRanks boxCase.dom boxCase.grid 3 4 s (fun r => if r = 5 then twoParts else []) = some ps ∧
      distributeRanks boxCase.dom boxCase.grid 3 4 t (fun _ => twoParts) = some ps' ∧ 0 < dt ∧
      particleCycle .cic .cic boxCase 3 4 s 2 (1 / 1000) n (rhs boxCase.dom boxCase.grid boxCase.blk 12) dt
        (fun _ l => l.reverse) (boxRho s) (fun r _ _ => (r : ℚ) * 0) (fun _ _ _ _ => 0)
        ⟨fun _ _ _ => 5, fun _ _ _ => 6, fun _ _ _ => 7, 8⟩ ps = some u ∧
      particleCycle .cic .cic boxCase 3 4 t 1 (1 / 1000) n (rhs boxCase.dom boxCase.grid boxCase.blk 12) dt
        (fun _ l => l) (boxRho t) (fun _ _ _ => 0) (fun _ _ _ _ => 1)
        ⟨fun _ _ _ => 1, fun _ _ _ => 2, fun _ _ _ => 3, 4⟩ ps' = some v ∧
      (∀ r q o, o ∈ s.octs r → o ∈ t.octs q → ∀ x, (∀ k, x k < 2) → u.1 r o x = v.1 q o x ∧ u.2.1 r o x = v.2.1 q o x) ∧
      (allParts u.2.2).Perm (allParts v.2.2) ∧ (allParts u.2.2).length = 2 := by
  obtain ⟨⟨s, es⟩, -⟩ := C81_progress_partial (P := 8) (e := 3) (L := 4) boxCase_wf (by decide) (by decide) (by decide)
    (by decide) (by decide) (by decide)
  obtain ⟨⟨t, et⟩, -⟩ := C81_progress_partial (P := 1) (e := 3) (L := 4) boxCase_wf (by decide) (by decide) (by decide)
    (by decide) (by decide) (by decide)
  have rs : Reach 3 4 boxCase.grid [] s := Reach.start es
  have rt : Reach 3 4 boxCase.grid [] t := Reach.start et
  have hD : Domain.Ok boxCase.dom := fun _ => show (0 : ℚ) < 1 by norm_num
  have hb0 : ∀ k, 0 < boxCase.blk k := fun _ => show 0 < 2 by norm_num
  have hb : ∀ k, 2 ∣ boxCase.blk k := fun _ => show 2 ∣ 2 by norm_num
  have hfull : ∀ i, boxCase.grid.coarse i = 2 ^ boxCase.grid.lmin := fun _ => rfl
  have all8 : allParts (fun r : Fin 8 => if r = 5 then twoParts else []) = twoParts := rfl
  have all1 : allParts (fun _ : Fin 1 => twoParts) = twoParts := rfl
  obtain ⟨ps, d1, d2, d3⟩ := C92_distribution_partial (C := boxCase) boxCase_wf (by decide) (by decide) (by decide) (by decide)
    (by decide) (by decide) hD hfull rs (ps := fun r => if r = 5 then twoParts else []) (by rw [all8]; exact twoParts_in_box)
  obtain ⟨ps', d1', d2', d3'⟩ := C92_distribution_partial (C := boxCase) boxCase_wf (by decide) (by decide) (by decide)
    (by decide) (by decide) (by decide) hD hfull rt (ps := fun _ => twoParts) (by rw [all1]; exact twoParts_in_box)
  rw [all8] at d2
  rw [all1] at d2'
  have hs := (reach_good boxCase_wf (by decide) (by decide) (by decide) (by decide) (by decide) (by decide) rs).1
  refine ⟨s, t, rs, rt, ps, ps', ?_⟩
  obtain ⟨dt, h0, h1⟩ := cycle_defined boxCase_wf hs.tiling hs.balanced (fun _ => rfl) hD hs.levels hb0 hb .cic .cic (1 / 1000)
    (source := rhs boxCase.dom boxCase.grid boxCase.blk 12) (fun o => boxRho s (owner s.octs o) o)
    (fun o x => ((owner s.octs o : Fin 8) : ℚ) * 0) (allParts ps) (fun p hm => twoParts_in_box p (d2.mem_iff.1 hm))
    (Or.inl ⟨12, rfl⟩)
  have hord : ∀ (r : Fin 8) (l : List (CellIndex 3 × ℚ)), l.reverse.Perm l := fun _ l => l.reverse_perm
  obtain ⟨t0, ht0, h4⟩ := C92_defined_partial (C := boxCase) boxCase_wf (by decide) (by decide) (by decide) (by decide)
    (by decide) hD hb0 hb hfull (fun _ => rfl) rs .cic .cic (gc := 2) (by norm_num) (1 / 1000)
    (source := rhs boxCase.dom boxCase.grid boxCase.blk 12) (order := fun _ l => l.reverse) hord (boxRho s)
    (fun r _ _ => (r : ℚ) * 0) (fun _ _ _ _ => 0) ⟨fun _ _ _ => 5, fun _ _ _ => 6, fun _ _ _ => 7, 8⟩ d3 (Or.inl ⟨12, rfl⟩)
  have hm : 0 < min dt t0 := lt_min h0 ht0
  obtain ⟨w, h2, h3⟩ := h1 (min dt t0) hm.le (min_le_left _ _)
  obtain ⟨u, h5, h6, -⟩ := h4 (min dt t0) hm.le (min_le_right _ _)
  rcases C92_independent_of_ranks_partial (C := boxCase) (P := 8) (Q := 1) boxCase_wf (by decide) (by decide) (by decide)
    (by decide) (by decide) (by decide) hD hb0 hb hfull rs rt .cic .cic (gc := 2) (gc' := 1) (by norm_num) (by norm_num)
    (1 / 1000) (s.mesh.card * (∏ k, boxCase.blk k) + 1) (source := rhs boxCase.dom boxCase.grid boxCase.blk 12)
    (fun m u v o x h => by unfold rhs; rw [h]) (min dt t0) (order := fun _ l => l.reverse) hord (order' := fun _ l => l)
    (fun _ l => List.Perm.refl l) (rho := boxRho s) (rho' := boxRho t) (gphi := fun r _ _ => (r : ℚ) * 0)
    (gphi' := fun _ _ _ => 0) (fun r q o ho ho' x hx => by unfold boxRho; rw [if_pos ho, if_pos ho'])
    (fun r q o _ _ x _ => mul_zero _) (fun _ _ _ _ => 0) ⟨fun _ _ _ => 5, fun _ _ _ => 6, fun _ _ _ => 7, 8⟩
    (fun _ _ _ _ => 1) ⟨fun _ _ _ => 1, fun _ _ _ => 2, fun _ _ _ => 3, 4⟩ d3 d3' (d2.trans d2'.symm)
    (fun v hv => by rw [h2] at hv; cases hv; exact h3) with ⟨u', v, e1, e2, e3, e4, -⟩ | ⟨e1, -⟩
  · have : u = u' := Option.some.inj (h5.symm.trans e1)
    subst this
    exact ⟨_, _, u, v, d1, d1', hm, e1, e2, e3, e4, h6.trans d2.length_eq⟩
  · rw [h5] at e1; cases e1

/-! ### Coarse grids that are not cubes -/

/-- 4x2x2 coarse octants of 2x2x2 cells in a box of 2x1x1, periodic. -/
def longCase : Poisson 3 :=
  ⟨fun _ => false, ⟨fun _ => 0, ![2, 1, 1]⟩, ⟨2, ![4, 2, 2], fun _ => true⟩, fun _ => 2⟩

/-- The start of a run on four ranks. -/
def longRanks : Ranks 3 4 := (start 3 longCase.grid).getD ⟨fun _ => [], fun _ => ∅, fun _ _ => []⟩

theorem long_start : start 3 longCase.grid = some longRanks := by
  have : (start (P := 4) 3 longCase.grid).isSome = true := by decide +kernel
  obtain ⟨s, hs⟩ := Option.isSome_iff_exists.1 this
  unfold longRanks
  rw [hs]; rfl

/-- A particle at rest in an octant of rank 1. -/
def longPart : Part 3 := ⟨![1 / 4, 1 / 4, 3 / 4], ![0, 0, 0], 1⟩

/-- The particle on rank `r`. -/
def onRank (r : Fin 4) : Fin 4 → List (Part 3) := fun q => if q = r then [longPart] else []

theorem long_octs : (⟨2, ![0, 0, 1]⟩ : Oct 3) ∈ longRanks.octs 1 ∧ (⟨2, ![0, 0, 1]⟩ : Oct 3) ∉ longRanks.octs 0 := by
  decide +kernel

theorem long_domain : domainOf longCase.dom longCase.grid 3 2 4
    (fun i => (lightIntervals 3 2 longCase.grid (List.ofFn longRanks.octs) i).getD 0) longPart = 0 := by decide +kernel

theorem long_intervals : ∀ i < 4 + 1, (lightIntervals 3 2 longCase.grid (List.ofFn longRanks.octs) i).isSome := by
  decide +kernel

theorem long_deposit : deposit .ngp longCase 2 (rankMap longRanks 0) longPart =
    some [(⟨⟨2, ![0, 0, 1]⟩, ![1, 1, 1], fun _ => 2, .localToBlock⟩, 64)] := by decide +kernel

theorem onRank_mem {r q : Fin 4} {p : Part 3} : p ∈ onRank r q ↔ q = r ∧ p = longPart := by
  unfold onRank
  by_cases h : q = r
  · rw [if_pos h, List.mem_singleton]; exact ⟨fun hp => ⟨h, hp⟩, fun hp => hp.2⟩
  · rw [if_neg h]; exact ⟨fun hp => absurd hp List.not_mem_nil, fun hp => absurd hp.1 h⟩

theorem long_all (r : Fin 4) : (List.ofFn (onRank r)).flatten = [longPart] := by
  fin_cases r <;> rfl

/-- **C92 fails** for coarse grids that are not cubes. At the start of a run on four ranks of a mesh of 4x2x2 octants a
particle is on the rank of its octant. The distribution sends it to rank 0, which does not hold the octant. The next
projection to the nearest cell adds its mass to a ghost of rank 0, which is never sent back: all cells of all ranks keep
their density, the mass is lost. -/
theorem C92_distribution_fails : Reach 3 2 longCase.grid [] longRanks ∧ Placed longCase.dom longCase.grid longRanks (onRank 1) ∧
    distributeRanks longCase.dom longCase.grid 3 2 longRanks (onRank 1) = some (onRank 0) ∧
    ¬ Placed longCase.dom longCase.grid longRanks (onRank 0) ∧
    ∀ rho, ∃ rhoG, depositRanks .ngp longCase 2 longRanks (fun _ l => l) rho (onRank 0) = some rhoG ∧
      ∀ r, ∀ o ∈ longRanks.octs r, ∀ x, rhoG r o x = rho r o x := by
  have hG : longCase.grid.WF := ⟨⟨by decide⟩, by decide⟩
  have hR : Reach 3 2 longCase.grid [] longRanks := Reach.start long_start
  have hs := (reach_good hG (by decide) (by decide) (by decide) (by decide) (by decide) (by decide) hR).1
  have hcov : Covers longCase.grid ⟨2, ![0, 0, 1]⟩ (unit longCase.dom longPart.pos) := by
    unfold Covers
    decide +kernel
  have hbox : InBox longCase.dom longPart.pos := by
    unfold InBox
    decide +kernel
  refine ⟨hR, fun r p hp => ?_, ?_, fun h => ?_, fun rho => ?_⟩
  · obtain ⟨rfl, rfl⟩ := onRank_mem.1 hp
    exact ⟨hbox, _, long_octs.1, hcov⟩
  · unfold distributeRanks
    rw [if_pos long_intervals]
    simp only
    rw [if_pos fun r p hp => by
      rw [(onRank_mem.1 hp).2, long_domain]; decide]
    congr 1
    funext r
    rw [long_all, List.filter_singleton, long_domain]
    fin_cases r <;> rfl
  · obtain ⟨-, o, ho, hc⟩ := h 0 longPart (onRank_mem.2 ⟨rfl, rfl⟩)
    obtain ⟨o', -, hu⟩ := hs.tiling.2 (unit longCase.dom longPart.pos) (unit_bounds (by unfold Domain.Ok; decide +kernel) hbox)
    have := (hu o ⟨mem_mesh ho, hc⟩).trans (hu ⟨2, ![0, 0, 1]⟩ ⟨mem_mesh long_octs.1, hcov⟩).symm
    rw [this] at ho
    exact long_octs.2 ho
  · unfold depositRanks
    rw [if_pos fun r p hp => by
      obtain ⟨rfl, rfl⟩ := onRank_mem.1 hp
      rw [long_deposit]; rfl]
    refine ⟨_, rfl, fun r o ho x => ?_⟩
    simp only
    rw [project_sum, if_pos ho]
    by_cases hr : r = 0
    · subst hr
      have : onRank 0 0 = [longPart] := rfl
      rw [this, List.flatMap_singleton, long_deposit, Option.getD_some, List.map_singleton, List.sum_singleton, if_neg, add_zero]
      rintro ⟨h1, -⟩
      rw [← h1] at ho
      exact long_octs.2 ho
    · have : onRank 0 r = [] := if_neg hr
      rw [this]
      simp

end Verif.Sim
