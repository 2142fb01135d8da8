import Verif.Sim.GravityProps

/-!
# C90: a case that meets the hypotheses
-/

namespace Verif.Sim

open Verif.Octree Verif.Cells Verif.Adapt Verif.Flux Verif.Gravity Verif.Run

/-- 4x4x4 coarse octants of 2x2x2 cells, periodic. -/
def boxCase : Poisson 3 := ⟨fun _ => false, ⟨fun _ => 0, fun _ => 1⟩, ⟨2, fun _ => 4, fun _ => true⟩, fun _ => 2⟩

theorem boxCase_wf : boxCase.grid.WF := ⟨⟨by decide⟩, by decide⟩

/-- A mass in one corner of the box; ranks have garbage in their ghosts. -/
def boxRho (s : Ranks 3 P) : RFld 3 P ℚ := fun r o x =>
  if o ∈ s.octs r then if o = ⟨2, fun _ => 0⟩ ∧ x 0 = 0 then 2 else 1 else 17 + r

/-- Eight ranks and one rank: the solver ends on both, with the same potential and accelerations. -/
example : ∃ (s : Ranks 3 8) (t : Ranks 3 1), Reach 3 4 boxCase.grid [] s ∧ Reach 3 4 boxCase.grid [] t ∧
    ∃ (n : ℕ) (u : _) (v : _),
      updateGravity boxCase s 2 (1 / 1000) n (rhs boxCase.dom boxCase.grid boxCase.blk 12) (boxRho s) (fun r _ _ => (r : ℚ) * 0)
        (fun _ _ _ _ => 0) ⟨fun _ _ _ => 5, fun _ _ _ => 6, fun _ _ _ => 7, 8⟩ = some u ∧
      updateGravity boxCase t 1 (1 / 1000) n (rhs boxCase.dom boxCase.grid boxCase.blk 12) (boxRho t) (fun _ _ _ => 0)
        (fun _ _ _ _ => 1) ⟨fun _ _ _ => 1, fun _ _ _ => 2, fun _ _ _ => 3, 4⟩ = some v ∧
      ∀ r q o, o ∈ s.octs r → o ∈ t.octs q → ∀ x, (∀ k, x k < 2) → u.1 r o x = v.1 q o x ∧ u.2 r o x = v.2 q o x := by
  obtain ⟨⟨s, es⟩, -⟩ := C81_progress_partial (P := 8) (e := 3) (L := 4) boxCase_wf (by decide) (by decide) (by decide)
    (by decide) (by decide) (by decide)
  obtain ⟨⟨t, et⟩, -⟩ := C81_progress_partial (P := 1) (e := 3) (L := 4) boxCase_wf (by decide) (by decide) (by decide)
    (by decide) (by decide) (by decide)
  have rs : Reach 3 4 boxCase.grid [] s := Reach.start es
  have rt : Reach 3 4 boxCase.grid [] t := Reach.start et
  refine ⟨s, t, rs, rt, ?_⟩
  obtain ⟨u, hu, -⟩ := C90_ends (C := boxCase) boxCase_wf (by decide) (by decide) (by decide) (by decide) (by decide) (by decide)
    (fun _ => show (0 : ℚ) < 1 by norm_num) (fun _ => show 0 < 2 by norm_num) rs (gc := 2) (by norm_num) (1 / 1000 : ℚ)
    (source := rhs boxCase.dom boxCase.grid boxCase.blk 12) (boxRho s) (fun r _ _ => (r : ℚ) * 0) (Or.inl ⟨12, rfl⟩)
    (fun _ _ _ _ => 0) ⟨fun _ _ _ => 5, fun _ _ _ => 6, fun _ _ _ => 7, 8⟩
  rcases C90_independent_of_ranks (C := boxCase) (P := 8) (Q := 1) boxCase_wf (by decide) (by decide) (by decide) (by decide)
    (by decide) (by decide) (by decide) rs rt (gc := 2) (gc' := 1) (by norm_num) (by norm_num) (1 / 1000 : ℚ) (s.mesh.card * (∏ k, boxCase.blk k) + 1)
    (source := rhs boxCase.dom boxCase.grid boxCase.blk 12) (fun m u v o x h => by unfold rhs; rw [h])
    (rho := boxRho s) (rho' := boxRho t) (gphi := fun r _ _ => (r : ℚ) * 0) (gphi' := fun _ _ _ => 0)
    (fun r q o ho ho' x hx => by unfold boxRho; rw [if_pos ho, if_pos ho']) (fun r q o _ _ x _ => mul_zero _)
    (fun _ _ _ _ => 0) ⟨fun _ _ _ => 5, fun _ _ _ => 6, fun _ _ _ => 7, 8⟩
    (fun _ _ _ _ => 1) ⟨fun _ _ _ => 1, fun _ _ _ => 2, fun _ _ _ => 3, 4⟩ with ⟨u', v, e1, e2, e3⟩ | ⟨e1, -⟩
  · exact ⟨_, u', v, e1, e2, e3⟩
  · rw [hu] at e1; cases e1

end Verif.Sim
