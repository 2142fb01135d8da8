import Verif.Run.Props

/-!
# C81: a run that fails, and one that meets the hypotheses
-/

namespace Verif.Run

open Verif.Octree Verif.Adapt Verif.Partition

theorem LeastCorrection.refl {d : ℕ} {G : Grid d} {M : Finset (Oct d)} {mk : Oct d → ℤ}
    (h : Admissible G M mk) : LeastCorrection G M mk mk := ⟨fun _ _ => le_refl _, h, fun _ _ h1 => h1⟩

/-- Refine the first coarse octant. -/
def exRefine : Oct 2 → ℤ := fun o => if o = ⟨1, ![0, 0]⟩ then 1 else 0

/-- Coarsen it again. -/
def exBack : Oct 2 → ℤ := fun o => if o.level = 2 then -1 else 0

theorem exBack_least : LeastCorrection exGrid exMesh.toFinset exBack exBack :=
  C18_rank_emptied_by_adapt_fails.2.1

/-- **C81**, disagreement. Three ranks: the first of four coarse octants is refined, the seven leaves are
distributed over the ranks, then the four small ones are to be coarsened. The second rank has the last
two of them only, and would have no octant: `adapt` reads octant 0 of empty storage. -/
theorem C81_rank_emptied_fails : ∃ s : Ranks 2 3, Reach 3 2 exGrid [exRefine] s ∧
    (List.ofFn s.octs) = [[⟨2, ![0, 0]⟩, ⟨2, ![1, 0]⟩], [⟨2, ![0, 1]⟩, ⟨2, ![1, 1]⟩],
      [⟨1, ![1, 0]⟩, ⟨1, ![0, 1]⟩, ⟨1, ![1, 1]⟩]] ∧
    Requested exGrid s.mesh exBack ∧ (∀ a ∈ s.mesh, (a.level : ℤ) + exBack a ≤ 2) ∧
    adapt 3 2 exGrid exBack s = none := by
  have hT : ∏ i, exGrid.coarse i < 2 ^ 32 := by decide
  have hP : 3 ≤ ∏ i, exGrid.coarse i := by decide
  obtain ⟨s0, e0, g0, m0⟩ := start_spec (P := 3) (e := 3) (L := 2) exGrid_wf (by decide) (by decide)
    (by decide) hT hP
  have r0 : Reach 3 2 exGrid [] s0 := Reach.start e0
  have o0 : ∀ r : Fin 3, s0.octs r = (initLocal exGrid 3 r).getD [] := by
    unfold start at e0
    split at e0
    · cases e0; intro r; rfl
    · cases e0
  have hlev0 : ∀ a ∈ s0.mesh, a.level = 1 := fun a ha => ((m0 a).1 ha).1
  have hmk : ∀ o, exRefine o = 0 ∨ exRefine o = 1 := fun o => by unfold exRefine; split <;> omega
  have q0 : Requested exGrid s0.mesh exRefine := by
    refine ⟨fun a _ => ?_, fun a _ => ?_, fun a _ h => ?_, fun a ha => ?_, fun a ha => ?_⟩
    all_goals have h1 := hmk a
    · omega
    · omega
    · omega
    · have := hlev0 a ha; omega
    · have := hlev0 a ha; omega
  have a0 : Admissible exGrid s0.mesh exRefine := by
    refine ⟨fun a ha b hb _ => ?_, fun a ha h => ?_⟩
    · have := hlev0 a ha
      have := hlev0 b hb
      have := hmk a
      have := hmk b
      omega
    · have := hmk a; omega
  have x0 : ∀ a ∈ s0.mesh, (a.level : ℤ) + exRefine a ≤ 2 := fun a ha => by
    have := hlev0 a ha
    have := hmk a
    omega
  obtain ⟨f, hf, -, -, hok⟩ := adapt_spec exGrid_wf (by decide) (by decide) g0 q0 x0
  have hnew : ∀ r, newLeaves f (s0.octs r) = newLeaves exRefine ((initLocal exGrid 3 r).getD []) := by
    intro r
    rw [← o0]
    unfold newLeaves
    exact List.flatMap_congr fun a ha => by
      rw [hf.unique (LeastCorrection.refl a0) a ((mem_leaves _ _).2 ⟨r, ha⟩)]
  obtain ⟨s1, e1, g1, o1, -⟩ := hok fun r => by
    rw [hnew]
    revert r
    decide +kernel
  have r1 : Reach 3 2 exGrid [exRefine] s1 := Reach.adapt r0 q0 x0 e1
  have l1 : List.ofFn s1.octs =
      List.ofFn fun r : Fin 3 => newLeaves exRefine ((initLocal exGrid 3 r).getD []) := by
    congr 1
    funext r
    rw [o1, hnew]
  obtain ⟨s2, e2, g2, m2⟩ := balance_spec exGrid_wf (by decide) (by decide) g1 0
  have r2 : Reach 3 2 exGrid [exRefine] s2 := Reach.balance r1 0 e2
  have l2 : List.ofFn s2.octs = [[⟨2, ![0, 0]⟩, ⟨2, ![1, 0]⟩], [⟨2, ![0, 1]⟩, ⟨2, ![1, 1]⟩],
      [⟨1, ![1, 0]⟩, ⟨1, ![0, 1]⟩, ⟨1, ![1, 1]⟩]] := by
    unfold balance at e2
    rw [l1] at e2
    have : (loadBalance 3 2 0 (List.ofFn fun r : Fin 3 =>
        newLeaves exRefine ((initLocal exGrid 3 r).getD []))).map Prod.fst =
        some [[⟨2, ![0, 0]⟩, ⟨2, ![1, 0]⟩], [⟨2, ![0, 1]⟩, ⟨2, ![1, 1]⟩],
          [⟨1, ![1, 0]⟩, ⟨1, ![0, 1]⟩, ⟨1, ![1, 1]⟩]] := by decide +kernel
    cases hl : loadBalance 3 2 0 (List.ofFn fun r : Fin 3 =>
        newLeaves exRefine ((initLocal exGrid 3 r).getD [])) with
    | none => rw [hl] at this; cases this
    | some p =>
      rw [hl] at this e2
      simp only [Option.map_some, Option.some.injEq] at this e2
      rw [← e2]
      simp only [this]
      decide
  have hm : s2.mesh = exMesh.toFinset := by
    unfold Ranks.mesh leaves
    rw [l2]
    decide
  have h1 : ∀ a ∈ exMesh, -1 ≤ exBack a ∧ exBack a ≤ 1 ∧ (exBack a = -1 → exGrid.lmin < a.level) ∧
      1 ≤ (a.level : ℤ) + exBack a ∧ a.level < 2 ^ 30 ∧ (a.level : ℤ) + exBack a ≤ 2 := by decide
  have q2 : Requested exGrid s2.mesh exBack := by
    rw [hm]
    exact ⟨fun a ha => (h1 a (List.mem_toFinset.1 ha)).1, fun a ha => (h1 a (List.mem_toFinset.1 ha)).2.1,
      fun a ha => (h1 a (List.mem_toFinset.1 ha)).2.2.1, fun a ha => (h1 a (List.mem_toFinset.1 ha)).2.2.2.1,
      fun a ha => (h1 a (List.mem_toFinset.1 ha)).2.2.2.2.1⟩
  have x2 : ∀ a ∈ s2.mesh, (a.level : ℤ) + exBack a ≤ 2 := by
    rw [hm]
    exact fun a ha => (h1 a (List.mem_toFinset.1 ha)).2.2.2.2.2
  refine ⟨s2, r2, l2, q2, x2, ?_⟩
  have hpr := ((C81_progress_partial (P := 3) exGrid_wf (by decide) (by decide) (by decide) (by decide) hT hP).2
    _ s2 r2).2 exBack q2 x2
  have hiff := hpr.1 exBack (by rw [hm]; exact exBack_least)
  cases ha : adapt 3 2 exGrid exBack s2 with
  | none => rfl
  | some s3 =>
    exfalso
    refine hiff.1 ⟨s3, ha⟩ 1 ?_
    have h3 : s2.octs 1 = [⟨2, ![0, 1]⟩, ⟨2, ![1, 1]⟩] := by
      have := congrArg (fun l : List (List (Oct 2)) => l[1]?) l2
      simpa using this
    rw [h3]
    decide

/-- A case that meets the hypotheses: 4x4x4 coarse octants on 8 ranks; any requested markers can be
followed. -/
example : ∃ s : Ranks 3 8, Reach 3 4 (⟨2, fun _ => 4, fun _ => true⟩ : Grid 3) [] s ∧
    Tiling (⟨2, fun _ => 4, fun _ => true⟩ : Grid 3) s.mesh := by
  have hG : (⟨2, fun _ => 4, fun _ => true⟩ : Grid 3).WF := ⟨⟨by decide⟩, by decide⟩
  obtain ⟨⟨s, e⟩, -⟩ := C81_progress_partial (P := 8) (e := 3) (L := 4) hG (by decide) (by decide) (by decide)
    (by decide) (by decide) (by decide)
  exact ⟨s, Reach.start e, (C81_every_mesh_partial (L := 4) hG (by decide) (by decide) (by decide) (by decide) (by decide)
    (by decide) (Reach.start e)).1⟩

end Verif.Run
