import Verif.Sim.BlockProps

/-!
# C91: a case that meets the hypotheses, and a wrong number of layers
-/

namespace Verif.Sim

open Verif.Octree Verif.Cells Verif.Adapt Verif.Flux Verif.Hydro Verif.Run
open Verif.Partition (Within)

/-! ### Three layers are not enough for `HydroUpdate_hancock` -/

/-- The scheme takes the state right of a face. -/
def rightScheme : Hancock.Scheme 2 ℚ Unit ℚ :=
  ⟨fun u _ => u, fun q sl t i => q i - (sl.getD 0 0 i * t 0 + sl.getD 1 0 i * t 1) * (1 / 2), fun q => q,
    fun _ _ r => r ()⟩

/-- Values that grow along the first axis; `c` is in the fourth layer of smaller cells right of an octant. -/
def layerSource (c : ℚ) : Source 2 ℚ :=
  ⟨fun o x => if o = ⟨2, ![2, 0]⟩ ∧ x 0 = 3 then c else o.pos 0 * 10 + x 0 * x 0, fun _ => 0, fun l => l.sum / l.length⟩

/-- C91 is false with one layer less (`ghost_count` 3 in place of `DyabloTimeLoop.h` L317): two states that agree in three
layers around an octant, and the octant is updated differently. -/
theorem C91_three_layers_fail :
    Tiling quadGrid quad.toFinset ∧ Balanced quadGrid quad.toFinset ∧
    SameSource quadGrid ![4, 4] 3 quad.toFinset ⟨1, ![0, 0]⟩ (layerSource 29) (layerSource 30) ∧
    Hancock.updateCell rightScheme (layerSource 29) torusDomain quadGrid quad.toFinset ![4, 4] (1 / 8) 5 ⟨1, ![0, 0]⟩ ![3, 0] ≠
      Hancock.updateCell rightScheme (layerSource 30) torusDomain quadGrid quad.toFinset ![4, 4] (1 / 8) 5 ⟨1, ![0, 0]⟩
        ![3, 0] := by
  refine ⟨quad_tiling, balanced_of_check ⟨⟨by decide⟩, by decide⟩ _ 2 (by decide +kernel),
    ⟨⟨fun x _ => ?_, fun o' _ x hx hw => ?_⟩, fun r _ _ => rfl, rfl⟩, by decide +kernel⟩
  · unfold layerSource
    simp only
    rw [if_neg (fun h => absurd h.1 (by decide)), if_neg (fun h => absurd h.1 (by decide))]
  · have : ¬ (o' = ⟨2, ![2, 0]⟩ ∧ x 0 = 3) := by
      rintro ⟨rfl, h3⟩
      obtain ⟨t, ht, -, -, h1, -⟩ := hw 0
      have t0 : t = 0 := by
        rcases ht with h | ⟨h, -⟩
        · exact h
        · exact absurd h (by decide)
      subst t0
      norm_num [lo, hi, cellOct, cellGrid, Grid.count, quadGrid, h3] at h1
    unfold layerSource
    simp only
    rw [if_neg this, if_neg this]

/-! ### Eight ranks and one -/

/-- 4x4x4 coarse octants of 4x4x4 cells, one axis periodic, walls elsewhere; gravity pulls at the end of the step. -/
def blockCase : Blocks 3 ℚ Unit :=
  ⟨⟨fun _ => 0, fun _ => 1⟩, ⟨2, fun _ => 4, fun k => decide (k = 0)⟩, fun _ => 4,
    fun own r => own fun k => ⟨r.idx k % 4, Nat.mod_lt _ (by norm_num)⟩, fun l i => (l.map fun u => u i).sum / l.length,
    fun dt _ _ old new i => new i - dt * old i⟩

theorem blockCase_wf : blockCase.grid.WF := ⟨⟨by decide⟩, by decide⟩

/-- Upwind fluxes along the first axis. -/
def upHancock : Kernel 3 ℚ Unit Unit :=
  .hancock fun _ => ⟨fun u _ => u (), fun q sl t i => q i - sl.getD 0 0 i * t 0 * (1 / 2), fun q => q,
    fun j l _ => if j = 0 then l () else 0⟩

def upEuler (_ : Unit) : Euler.Scheme 3 ℚ Unit (Unit → ℚ) :=
  ⟨fun u _ => u (), fun q => q, fun j l _ => if j = 0 then l () else 0, none⟩

/-- A bump in one corner of the box; ranks have garbage in their ghosts. -/
def bump (s : Ranks 3 P) : Fin P → Oct 3 → (Fin 3 → ℕ) → Unit → ℚ := fun r o x _ =>
  if o ∈ s.octs r then if o = ⟨2, fun _ => 0⟩ ∧ x 0 = 3 then 2 else 1 else 17 + r

/-- Eight ranks and one rank: the three solvers are defined on both, with the same values in all cells. -/
example : ∃ (s : Ranks 3 8) (t : Ranks 3 1), Reach 3 4 blockCase.grid [] s ∧ Reach 3 4 blockCase.grid [] t ∧
    (∀ k ∈ [upHancock, .euler upEuler], ∃ u v, blockStep blockCase k s (1 / 100) (bump s) = some u ∧
      blockStep blockCase k t (1 / 100) (bump t) = some v ∧ SameCells s t (fun _ => 4) u v) ∧
    ∃ u v, rk2Step blockCase upEuler s (1 / 100) (bump s) (fun r _ _ _ => r) = some u ∧
      rk2Step blockCase upEuler t (1 / 100) (bump t) (fun _ _ _ _ => 5) = some v ∧ SameCells s t (fun _ => 4) u v := by
  obtain ⟨⟨s, es⟩, -⟩ := C81_progress_partial (P := 8) (e := 3) (L := 4) blockCase_wf (by decide) (by decide) (by decide)
    (by decide) (by decide) (by decide)
  obtain ⟨⟨t, et⟩, -⟩ := C81_progress_partial (P := 1) (e := 3) (L := 4) blockCase_wf (by decide) (by decide) (by decide)
    (by decide) (by decide) (by decide)
  have rs : Reach 3 4 blockCase.grid [] s := Reach.start es
  have rt : Reach 3 4 blockCase.grid [] t := Reach.start et
  have hb : ∀ k, 4 ≤ blockCase.blk k ∧ 2 ∣ blockCase.blk k := fun k => ⟨le_refl 4, ⟨2, rfl⟩⟩
  have hD : Domain.Ok blockCase.dom := fun _ => show (0 : ℚ) < 1 by norm_num
  have hsame : SameCells s t blockCase.blk (bump s) (bump t) := fun r q o ho ho' x _ => by
    funext i; unfold bump; rw [if_pos ho, if_pos ho']
  refine ⟨s, t, rs, rt, fun k hk => ?_, ?_⟩
  · have hp : k.Plain := by
      simp only [List.mem_cons, List.not_mem_nil, or_false] at hk
      rcases hk with rfl | rfl
      · exact trivial
      · exact fun _ => rfl
    have hdef := (C91_defined (ν := Unit) (C := blockCase) (e := 3) (L := 4) blockCase_wf (by decide) (by decide) (by decide)
      (by decide) (by decide) (by decide) hD hb rs (1 / 100) (bump s) (bump s)).1 k hp
    rcases C91_independent_of_ranks (C := blockCase) (P := 8) (Q := 1) blockCase_wf (by decide) (by decide) (by decide)
      (by decide) (by decide) (by decide) (by decide) hb rs rt k (1 / 100) hsame with ⟨u, v, e1, e2, e3⟩ | ⟨e1, -⟩
    · exact ⟨u, v, e1, e2, e3⟩
    · rw [e1] at hdef; cases hdef
  · have hdef := (C91_defined (ν := Unit) (C := blockCase) (e := 3) (L := 4) blockCase_wf (by decide) (by decide) (by decide)
      (by decide) (by decide) (by decide) hD hb rs (1 / 100) (bump s) (fun r _ _ _ => r)).2 upEuler fun _ => rfl
    rcases C91_rk2_independent_of_ranks (C := blockCase) (P := 8) (Q := 1) blockCase_wf (by decide) (by decide) (by decide)
      (by decide) (by decide) (by decide) (by decide) hb rs rt upEuler (1 / 100) hsame (fun r _ _ _ => r) (fun _ _ _ _ => 5)
      with ⟨u, v, e1, e2, e3⟩ | ⟨e1, -⟩
    · exact ⟨u, v, e1, e2, e3⟩
    · rw [e1] at hdef; cases hdef

end Verif.Sim
