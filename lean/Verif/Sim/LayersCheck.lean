import Verif.Sim.Layers
import Verif.Legacy.Props
import Verif.Run.Check

/-!
# C89: examples, and the block-based solver that reads further than the exchange reaches
-/

namespace Verif.Sim

open Verif.Octree Verif.Adapt Verif.Cells Verif.Partition Verif.Run Verif.Legacy Verif.Legacy.Spec

/-- Blocks of six cells, `HydroUpdate_legacy` has two layers of ghost cells; periodic in `x`, walls in `y`. -/
def legPar : Par 2 := ⟨exGrid, ![6, 6], 2, ![.periodic, .reflecting], ![.periodic, .absorbing], true⟩

theorem small_touch : ∀ a ∈ exMesh, Touch exGrid ⟨1, ![1, 0]⟩ a ∨ a.level = 1 := by
  intro a ha
  simp only [exMesh, List.mem_cons, List.not_mem_nil, or_false] at ha
  rcases ha with rfl | rfl | rfl | rfl | rfl | rfl | rfl
  · left; intro i; fin_cases i
    · exact ⟨1, by unfold Shift; decide, by norm_num [lo, hi, Grid.count, exGrid], by norm_num [lo, hi, Grid.count, exGrid]⟩
    · exact ⟨0, by unfold Shift; decide, by norm_num [lo, hi, Grid.count, exGrid], by norm_num [lo, hi, Grid.count, exGrid]⟩
  · left; intro i; fin_cases i
    · exact ⟨0, by unfold Shift; decide, by norm_num [lo, hi, Grid.count, exGrid], by norm_num [lo, hi, Grid.count, exGrid]⟩
    · exact ⟨0, by unfold Shift; decide, by norm_num [lo, hi, Grid.count, exGrid], by norm_num [lo, hi, Grid.count, exGrid]⟩
  · left; intro i; fin_cases i
    · exact ⟨1, by unfold Shift; decide, by norm_num [lo, hi, Grid.count, exGrid], by norm_num [lo, hi, Grid.count, exGrid]⟩
    · exact ⟨0, by unfold Shift; decide, by norm_num [lo, hi, Grid.count, exGrid], by norm_num [lo, hi, Grid.count, exGrid]⟩
  · left; intro i; fin_cases i
    · exact ⟨0, by unfold Shift; decide, by norm_num [lo, hi, Grid.count, exGrid], by norm_num [lo, hi, Grid.count, exGrid]⟩
    · exact ⟨0, by unfold Shift; decide, by norm_num [lo, hi, Grid.count, exGrid], by norm_num [lo, hi, Grid.count, exGrid]⟩
  all_goals right; rfl

/-- The cell of the smaller octant in which the parts of the second ghost cell lie. -/
theorem ghost_source {W : Fin 2 → ℕ} (h0 : W 0 = 4) (h1 : W 1 = 1) {a : Oct 2} {x : Fin 2 → ℕ} {s : Fin 2 → Fin 2}
    (ha : a ∈ exMesh) (hx : ∀ i, x i < 6) (h : Anc (cellOct ![6, 6] a x) ⟨1 + 1, fun i => 2 * W i + s i⟩) :
    a = ⟨2, ![1, 0]⟩ ∧ ∀ i, x i = 2 + s i := by
  obtain ⟨-, h⟩ := h
  have e0 := h 0
  have e1 := h 1
  have x0 := hx 0
  have x1 := hx 1
  have s0 := (s 0).2
  have s1 := (s 1).2
  simp only [exMesh, List.mem_cons, List.not_mem_nil, or_false] at ha
  rcases ha with rfl | rfl | rfl | rfl | rfl | rfl | rfl <;> simp [cellOct, h0, h1] at e0 e1
  · omega
  · refine ⟨rfl, fun i => ?_⟩
    fin_cases i
    · show x 0 = 2 + (s 0 : ℕ); omega
    · show x 1 = 2 + (s 1 : ℕ); omega
  all_goals omega

theorem legPar_ghost (U : Legacy.Mesh 2) (B : Block 2) :
    ∃ B', fillGhosts legPar exMesh.toFinset U ⟨1, ![1, 0]⟩ B = some B' ∧
      B' ![-2, 1] .rho = (∑ s : Fin 2 → Fin 2, U ⟨2, ![1, 0]⟩ (fun i => 2 + s i) .rho) / 4 := by
  obtain ⟨B', h1, h2, -⟩ := C83_ghost_values_partial (P := legPar) exGrid_wf.toPos exMesh_tiling exMesh_balanced
    (o := ⟨1, ![1, 0]⟩) (by decide) (by decide) (by decide) (by decide) (fun _ _ _ _ => by decide)
    (by unfold PeriodicOk; decide) (by decide) U B
  refine ⟨B', h1, ?_⟩
  obtain ⟨W, hW, hm⟩ := h2 ![-2, 1] (by decide)
  have hm := hm .rho trivial
  simp only [varSign, one_mul] at hm
  have w0 : W 0 = 4 := by
    obtain ⟨hlt, t, -, ht⟩ := hW 0
    simp [image, legPar, lattice, cellGrid, Grid.count, exGrid] at ht hlt
    omega
  have w1 : W 1 = 1 := by
    obtain ⟨hlt, t, -, ht⟩ := hW 1
    simp [image, legPar, lattice, cellGrid, Grid.count, exGrid] at ht hlt
    omega
  obtain ⟨c, hc, e⟩ := hm
  rw [e]
  have : ∀ s, U (c s).1 (c s).2 .rho = U ⟨2, ![1, 0]⟩ (fun i => 2 + s i) .rho := by
    intro s
    obtain ⟨k1, k2, k3⟩ := hc s
    obtain ⟨e1, e2⟩ := ghost_source w0 w1 (List.mem_toFinset.1 k1) (fun i => by have := k2 i; fin_cases i <;> exact this) k3
    rw [e1, show (c s).2 = fun i => 2 + ↑(s i) from funext e2]
  simp only [this]
  norm_num

/-- **C89**, disagreement. `DyabloTimeLoop` exchanges two layers for `HydroUpdate_legacy`, but its second layer of ghost
cells next to a smaller octant is the mean over the third and fourth layers of the cells of that octant. On a mesh with
a refined octant on three ranks these cells of a ghost are not exchanged: with density 1 in all cells of the mesh, a
ghost cell of the block gets the density that was left in the ghosts (0) instead of 1. -/
theorem C89_legacy_ghosts_fail : ∃ s : Ranks 2 3, Reach 3 2 exGrid [exRefine] s ∧ (⟨1, ![1, 0]⟩ : Oct 2) ∈ s.octs 2 ∧
    ∃ D : Fin 3 → Legacy.Mesh 2, (∀ r, ∀ o ∈ s.octs r, ∀ x v, D r o x v = 1) ∧ ∀ B, ∃ B' Bt,
      fillGhosts legPar (rankMap s 2) (exchangeLayers s legPar.b (loopGhosts legPar.b) D 2) ⟨1, ![1, 0]⟩ B = some B' ∧
      fillGhosts legPar (rankMap s 2) (fun _ _ _ => 1) ⟨1, ![1, 0]⟩ B = some Bt ∧
      B' ![-2, 1] .rho = 0 ∧ Bt ![-2, 1] .rho = 1 := by
  obtain ⟨s, hr, hl, -⟩ := C81_rank_emptied_fails
  have hs := (reach_good (P := 3) exGrid_wf (by decide) (by decide) (by decide) (by decide) (by decide) (by decide) hr).1
  have hm : s.mesh = exMesh.toFinset := by
    unfold Ranks.mesh leaves
    rw [hl]
    decide
  have o0 : s.octs 0 = [⟨2, ![0, 0]⟩, ⟨2, ![1, 0]⟩] := by
    have := congrArg (fun l : List (List (Oct 2)) => l[0]?) hl
    simpa using this
  have o2 : s.octs 2 = [⟨1, ![1, 0]⟩, ⟨1, ![0, 1]⟩, ⟨1, ![1, 1]⟩] := by
    have := congrArg (fun l : List (List (Oct 2)) => l[2]?) hl
    simpa using this
  have hin : (⟨1, ![1, 0]⟩ : Oct 2) ∈ s.octs 2 := by rw [o2]; decide
  have hmap : rankMap s 2 = exMesh.toFinset := by
    rw [← hm]
    refine Finset.Subset.antisymm (fun o h => (around exGrid_wf hs hin).sub o h) fun o h => ?_
    rw [hm, List.mem_toFinset] at h
    rcases small_touch o h with h1 | h1
    · exact (around exGrid_wf hs hin).complete o (by rw [hm, List.mem_toFinset]; exact h) h1
    · have : o ∈ s.octs 2 := by
        rw [o2]
        revert h1
        revert h
        revert o
        decide
      exact (around exGrid_wf hs this).mem
  refine ⟨s, hr, hin, fun r o _ _ => if owner s.octs o = r then 1 else 0, fun r o ho x v => if_pos (owner_eq hs ho),
    fun B => ?_⟩
  rw [hmap]
  obtain ⟨B', h1, h2⟩ := legPar_ghost (exchangeLayers s legPar.b (loopGhosts legPar.b)
    (fun r o _ _ => if owner s.octs o = r then 1 else 0) 2) B
  obtain ⟨Bt, h3, h4⟩ := legPar_ghost (fun _ _ _ => 1) B
  refine ⟨B', Bt, h1, h3, ?_, ?_⟩
  · rw [h2]
    have : ∀ t : Fin 2 → Fin 2, exchangeLayers s legPar.b (loopGhosts legPar.b)
        (fun r o _ _ => if owner s.octs o = r then (1 : ℝ) else 0) 2 ⟨2, ![1, 0]⟩ (fun i => 2 + t i)
          (Var.rho : Var 2) = 0 := by
      intro t
      have hg : loopGhosts legPar.b = 2 := by decide
      have hn : ∀ F, ¬ InLayers legPar.b 2 F fun i => 2 + (t i : ℕ) := by
        rintro F ⟨⟨j, sd⟩, -, h⟩
        have := (t j).2
        fin_cases j <;> cases sd <;> simp [legPar] at h this <;> omega
      have ho : owner s.octs ⟨2, ![1, 0]⟩ = 0 := owner_eq hs (by rw [o0]; decide)
      unfold exchangeLayers
      rw [hg, if_neg fun h => hn _ h.2]
      show (if owner s.octs ⟨2, ![1, 0]⟩ = 2 then (1 : ℝ) else 0) = 0
      rw [ho]
      exact if_neg (by decide)
    simp only [this]
    simp
  · rw [h4]
    simp [Finset.card_univ]

/-- The hypotheses of the theorems on masks and layers are met: an octant of rank 0, smaller than the octant of rank 2
next to it; cells that touch at a face. -/
example : ∃ s : Ranks 2 3, Reach 3 2 exGrid [exRefine] s ∧ (⟨1, ![1, 0]⟩ : Oct 2) ∈ s.octs 2 ∧
    (⟨2, ![1, 0]⟩ : Oct 2) ∈ s.octs 0 ∧
    Touch (cellGrid exGrid ![6, 6]) (cellOct ![6, 6] ⟨1, ![1, 0]⟩ ![0, 1]) (cellOct ![6, 6] ⟨2, ![1, 0]⟩ ![5, 2]) ∧
    Within exGrid ![6, 6] 3 ⟨1, ![1, 0]⟩ ⟨2, ![1, 0]⟩ ![3, 2] ∧ ¬ Within exGrid ![6, 6] 2 ⟨1, ![1, 0]⟩ ⟨2, ![1, 0]⟩ ![3, 2] := by
  obtain ⟨s, hr, hl, -⟩ := C81_rank_emptied_fails
  refine ⟨s, hr, ?_, ?_, ?_, ?_, ?_⟩
  · have := congrArg (fun l : List (List (Oct 2)) => l[2]?) hl
    rw [show s.octs 2 = [⟨1, ![1, 0]⟩, ⟨1, ![0, 1]⟩, ⟨1, ![1, 1]⟩] by simpa using this]
    decide
  · have := congrArg (fun l : List (List (Oct 2)) => l[0]?) hl
    rw [show s.octs 0 = [⟨2, ![0, 0]⟩, ⟨2, ![1, 0]⟩] by simpa using this]
    decide
  · intro i
    refine ⟨0, by unfold Shift; simp, ?_, ?_⟩ <;> fin_cases i <;>
      norm_num [lo, hi, Grid.count, exGrid, cellGrid, cellOct]
  · intro i
    refine ⟨0, by unfold Shift; simp, ?_, ?_, ?_, ?_⟩ <;> fin_cases i <;>
      norm_num [lo, hi, Grid.count, exGrid, cellGrid, cellOct]
  · intro h
    obtain ⟨t, h0, h1, h2, h3, h4⟩ := h 0
    norm_num [lo, hi, Grid.count, exGrid, cellGrid, cellOct] at h1 h2 h3 h4
    have : (t : ℚ) ≤ -1 := by exact_mod_cast (show t ≤ -1 by omega)
    linarith

/-- The mask `{XR}`, as in `1 << Face::XR`. -/
example : maskBits [((0 : Fin 2), true)] = 2 := by decide

end Verif.Sim
