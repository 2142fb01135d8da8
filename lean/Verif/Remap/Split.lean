import Verif.Remap.Props
import Verif.Octree.Check
import Mathlib.Algebra.Field.Rat
import Mathlib.Tactic.IntervalCases

/-!
# C30: examples, and families that are spread over several ranks
-/

namespace Verif.Remap

open Verif.Octree Verif.Cells Verif.Adapt

variable {d P : ℕ} {K : Type} [Field K] {G : Grid d} {M : Finset (Oct d)}

theorem foldlM_count (isGhost : Oct d → Bool) (U : Oct d → (Fin d → ℕ) → K) (n : K)
    {K' : Type} [Field K'] (U' : Oct d → (Fin d → ℕ) → K') (n' : K') :
    ∀ (l : List (Option (CellIndex d))) (v : K) (v' : K') (m : ℕ),
      (l.foldlM (fun (acc : K × ℕ) (r : Option (CellIndex d)) => r.map fun r =>
        (acc.1 + U r.oct r.idx / n, acc.2 + if isGhost r.oct then 1 else 0)) (v, m)).map Prod.snd =
      (l.foldlM (fun (acc : K' × ℕ) (r : Option (CellIndex d)) => r.map fun r =>
        (acc.1 + U' r.oct r.idx / n', acc.2 + if isGhost r.oct then 1 else 0)) (v', m)).map
          Prod.snd := by
  intro l
  induction l with
  | nil => intro v v' m; rfl
  | cons r l ih =>
    intro v v' m
    rw [List.foldlM_cons, List.foldlM_cons]
    cases r with
    | none => rfl
    | some r =>
      simp only [Option.map_some, Option.bind_eq_bind, Option.bind_some]
      exact ih _ _ _

/-- The number of ghosts read does not depend on the values. -/
theorem remapCell_count {K' : Type} [Field K'] (Mr : Finset (Oct d)) (isGhost : Oct d → Bool)
    (minLevel maxLevel : ℕ)
    (U : Oct d → (Fin d → ℕ) → K) (U' : Oct d → (Fin d → ℕ) → K') (c : CellIndex d) :
    (remapCell G Mr isGhost minLevel maxLevel U c).map Prod.snd =
      (remapCell G Mr isGhost minLevel maxLevel U' c).map Prod.snd := by
  unfold remapCell
  cases getOldCell G Mr minLevel maxLevel c with
  | none => rfl
  | some o =>
    simp only [Option.bind_some]
    split
    · rfl
    · exact foldlM_count isGhost U _ U' _ _ 0 0 0

theorem remapPass_count {K' : Type} [Field K'] (D : Dist d P) {f f' : Oct d → ℤ}
    (hf : ∀ a ∈ M, f a = f' a)
    (b : Fin d → ℕ) (minLevel maxLevel : ℕ) (U : Oct d → (Fin d → ℕ) → K)
    (U' : Oct d → (Fin d → ℕ) → K') (r : Fin P) :
    (remapPass G D M f b minLevel maxLevel U r).map Prod.snd =
      (remapPass G D M f' b minLevel maxLevel U' r).map Prod.snd := by
  have hN : rankNew D M f r = rankNew D M f' r := by
    ext o
    simp only [mem_rankNew]
    refine exists_congr fun a => and_congr_right fun ha => ?_
    rw [hf a ha]
  unfold remapPass
  simp only [hN]
  have key := fun o x => remapCell_count (G := G) (localMap D M r) (fun o => decide (D.owner o ≠ r))
    minLevel maxLevel U U' ⟨o, x, b, .localToBlock⟩
  have hs : ∀ o x, (remapCell G (localMap D M r) (fun o => decide (D.owner o ≠ r)) minLevel maxLevel U
      ⟨o, x, b, .localToBlock⟩).isSome = (remapCell G (localMap D M r)
        (fun o => decide (D.owner o ≠ r)) minLevel maxLevel U' ⟨o, x, b, .localToBlock⟩).isSome := by
    intro o x
    have h1 := congrArg Option.isSome (key o x)
    simpa using h1
  by_cases h : ∀ o ∈ rankNew D M f' r, ∀ x ∈ block b, (remapCell G (localMap D M r)
        (fun o => decide (D.owner o ≠ r)) minLevel maxLevel U' ⟨o, x, b, .localToBlock⟩).isSome
  · rw [if_pos h, if_pos (fun o ho x hx => by rw [hs]; exact h o ho x hx)]
    simp only [Option.map_some, Option.some.injEq]
    refine Finset.sum_congr rfl fun o _ => Finset.sum_congr rfl fun x _ => ?_
    have h1 := key o x
    revert h1
    cases remapCell G (localMap D M r) (fun o => decide (D.owner o ≠ r)) minLevel maxLevel U
      ⟨o, x, b, .localToBlock⟩ <;>
    cases remapCell G (localMap D M r) (fun o => decide (D.owner o ≠ r)) minLevel maxLevel U'
      ⟨o, x, b, .localToBlock⟩ <;> simp
  · rw [if_neg h, if_neg (fun h' => h fun o ho x hx => by rw [← hs]; exact h' o ho x hx)]
    rfl

/-- If the requested markers are admissible, the correction leaves them. -/
theorem outerLoop_admissible (hG : G.WF) (hM : Tiling G M) (hB : Balanced G M) (D : Dist d P)
    (hD : GhostComplete G M D.owner D.ghost) (mk : Oct d → ℤ) (hr : Requested G M mk)
    (hA : Admissible G M mk) (innerFuel fuel : ℕ) (h1 : 2 * M.card < innerFuel)
    (h2 : 2 * M.card < fuel) :
    ∃ f, outerLoop G D M innerFuel fuel mk = some f ∧ ∀ a ∈ M, f a = mk a := by
  obtain ⟨f, e, h⟩ := C10_result_is_least_correction hG hM hB D hD mk hr innerFuel fuel h1 h2
  exact ⟨f, e, fun a ha => le_antisymm (h.2.2 mk hA (fun _ _ => le_refl _) a ha) (h.1 a ha)⟩

/-- A box of two coarse octants, the first of which is refined. -/
def boxGrid : Grid 2 := ⟨1, ![2, 1], ![true, false]⟩

/-- Its leaves. -/
def boxMesh : List (Oct 2) :=
  [⟨2, ![0, 0]⟩, ⟨2, ![1, 0]⟩, ⟨2, ![0, 1]⟩, ⟨2, ![1, 1]⟩, ⟨1, ![1, 0]⟩]

/-- Coarsen the family, refine the other octant. -/
def boxMark (a : Oct 2) : ℤ := if a.level = 2 then -1 else 1

theorem boxGrid_wf : boxGrid.WF := ⟨⟨by decide⟩, by decide⟩

theorem boxMesh_tiling : Tiling boxGrid boxMesh.toFinset :=
  tiling_of_check boxGrid_wf _ 2 (by decide +kernel)

theorem boxMesh_balanced : Balanced boxGrid boxMesh.toFinset :=
  balanced_of_check boxGrid_wf _ 2 (by decide +kernel)

/-- Two ranks; the last octant of the family is on rank `r`, and every rank has all other octants as
ghosts. -/
def boxDist (r : Fin 2) : Dist 2 2 :=
  let owner : Oct 2 → Fin 2 := fun a =>
    if a = ⟨1, ![1, 0]⟩ then 1 else if a = ⟨2, ![1, 1]⟩ then r else 0
  ⟨owner, fun q => boxMesh.toFinset.filter fun a => owner a ≠ q⟩

theorem boxDist_complete (r : Fin 2) :
    GhostComplete boxGrid boxMesh.toFinset (boxDist r).owner (boxDist r).ghost := by
  intro q
  refine ⟨fun b hb => (Finset.mem_filter.1 hb).1, fun a _ _ b hb h _ => Finset.mem_filter.2 ⟨hb, h⟩⟩

theorem boxMark_requested : Requested boxGrid boxMesh.toFinset boxMark := by
  constructor <;> decide

theorem boxMark_admissible : Admissible boxGrid boxMesh.toFinset boxMark := by
  constructor
  · intro a ha b hb _
    have key : ∀ a ∈ boxMesh.toFinset, ∀ b ∈ boxMesh.toFinset,
        (b.level : ℤ) + boxMark b ≤ a.level + boxMark a + 1 := by decide
    exact key a ha b hb
  · intro a ha hm s hs
    have h1 : a.level = 2 ∧ ∀ i, a.pos i / 2 = 0 := by clear hs; revert a; decide
    have h2 : s.level = 2 := hs.1.trans h1.1
    have h3 : ∀ i, s.pos i ≤ 1 := fun i => by
      have h4 := hs.2 i; rw [h1.2 i] at h4; omega
    refine ⟨?_, by simp [boxMark, h2]⟩
    have h4 : s = ⟨2, ![s.pos 0, s.pos 1]⟩ := Oct.ext' h2 fun i => by fin_cases i <;> rfl
    have h5 := h3 0
    have h6 := h3 1
    rw [h4]
    generalize s.pos 0 = p at *
    generalize s.pos 1 = q at *
    interval_cases p <;> interval_cases q <;> decide

/-- The hypotheses of `C30_remap_partial` can be met: a family is coarsened on rank 0 and an octant is
refined on rank 1. -/
example : ∃ f, outerLoop boxGrid (boxDist 0) boxMesh.toFinset 11 11 boxMark = some f ∧
    Together boxMesh.toFinset f (boxDist 0).owner ∧
    newMesh f boxMesh.toFinset = newMesh boxMark boxMesh.toFinset := by
  obtain ⟨f, e, h⟩ := outerLoop_admissible boxGrid_wf boxMesh_tiling boxMesh_balanced (boxDist 0)
    (boxDist_complete 0) boxMark boxMark_requested boxMark_admissible 11 11 (by decide) (by decide)
  refine ⟨f, e, fun a ha hm s hs => ?_, ?_⟩
  · rw [h a ha] at hm
    have hs2 : s ∈ boxMesh.toFinset := (boxMark_admissible.sib a ha hm s hs).1
    have h1 : a.level = 2 := by clear hs; revert a; decide
    have h2 : s.level = 2 := hs.1.trans h1
    have key : ∀ s ∈ boxMesh.toFinset, s.level = 2 → (boxDist 0).owner s = 0 := by decide
    rw [key s hs2 h2, key a ha h1]
  · unfold newMesh
    exact Finset.biUnion_congr rfl fun a ha => by rw [h a ha]

/-- C30, the code violates the property: if a family that is coarsened is spread over two ranks,
`remap_aux` calls itself for ever. -/
theorem C30_split_family_no_result :
    ∃ (G : Grid 2) (M : Finset (Oct 2)) (D : Dist 2 2) (mk f : Oct 2 → ℤ) (b : Fin 2 → ℕ),
      G.WF ∧ Tiling G M ∧ Balanced G M ∧ GhostComplete G M D.owner D.ghost ∧ Requested G M mk ∧
      outerLoop G D M 11 11 mk = some f ∧ (∀ o ∈ M, 1 ≤ o.level ∧ o.level ≤ 2) ∧ (∀ k, 0 < b k) ∧
      ∀ (exch : (Fin 2 → Oct 2 → (Fin 2 → ℕ) → ℚ) → Fin 2 → Oct 2 → (Fin 2 → ℕ) → ℚ) (depth : ℕ)
        (U : Fin 2 → Oct 2 → (Fin 2 → ℕ) → ℚ), remapAux G D M f b 1 2 exch depth U = none := by
  obtain ⟨f, e, h⟩ := outerLoop_admissible boxGrid_wf boxMesh_tiling boxMesh_balanced (boxDist 1)
    (boxDist_complete 1) boxMark boxMark_requested boxMark_admissible 11 11 (by decide) (by decide)
  refine ⟨boxGrid, boxMesh.toFinset, boxDist 1, boxMark, f, ![2, 2], boxGrid_wf, boxMesh_tiling,
    boxMesh_balanced, boxDist_complete 1, boxMark_requested, e, by decide, by decide, ?_⟩
  intro exch depth U
  refine remapAux_diverges _ _ _ _ _ exch (fun U => ?_) depth U
  have h1 := remapPass_count (G := boxGrid) (M := boxMesh.toFinset) (boxDist 1) h ![2, 2] 1 2 (U 0)
    (fun _ _ => (0 : ℚ)) 0
  have h2 : (remapPass boxGrid (boxDist 1) boxMesh.toFinset boxMark ![2, 2] 1 2
      (fun _ _ => (0 : ℚ)) 0).map Prod.snd = some 4 := by decide +kernel
  rw [h2] at h1
  obtain ⟨⟨v, n⟩, e1, e2⟩ := Option.map_eq_some_iff.1 h1
  simp only at e2
  subst e2
  exact ⟨0, v, 3, e1⟩

end Verif.Remap
