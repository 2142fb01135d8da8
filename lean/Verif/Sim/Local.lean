import Verif.Remap.Cell
import Verif.Flux.Graph

/-!
# What a cell reads on one rank

A rank that stores its octants and all leaves touching them finds the same neighbour cells as on the whole mesh, and
has them.
-/

namespace Verif.Sim

open Verif.Octree Verif.Cells Verif.Adapt Verif.Flux Verif.Remap

variable {d : ℕ} {G : Grid d} {M Mr : Finset (Oct d)}

/-- Cells that touch belong to octants that touch. -/
theorem touch_of_cells (hG : G.Pos) {b : Fin d → ℕ} (hb : ∀ k, 0 < b k) {o o' : Oct d} {x x' : Fin d → ℕ}
    (hx : ∀ k, x k < b k) (hx' : ∀ k, x' k < b k)
    (h : Touch (cellGrid G b) (cellOct b o x) (cellOct b o' x')) : Touch G o o' := by
  intro i
  obtain ⟨s, hs, h1, h2⟩ := h i
  refine ⟨s, hs, ?_, ?_⟩
  · have := cell_lo_ge hG hb o x i
    have := cell_hi_le hG hb o' x' i (hx' i)
    linarith
  · have := cell_lo_ge hG hb o' x' i
    have := cell_hi_le hG hb o x i (hx i)
    linarith

/-- What lies on one side of a cell. -/
theorem reads (hG : G.WF) (hM : Tiling G M) (hB : Balanced G M) (hsub : ∀ b ∈ Mr, b ∈ M) (c : CellIndex d)
    (hc : c.oct ∈ M) (hcomp : ∀ b ∈ M, Touch G c.oct b → b ∈ Mr) (hx : ∀ k, c.idx k < c.b k)
    (hst : c.status = .localToBlock) (j : Fin d) {s : ℤ} (hs : s = 1 ∨ s = -1) :
    ∃ r, getNeighborGhost G M c (faceOff j s) = some r ∧ getNeighborGhost G Mr c (faceOff j s) = some r ∧
      (r.status = .boundary ∨ (r.status ≠ .boundary ∧ r.b = c.b ∧ (∀ k, r.idx k < c.b k) ∧
        (((r.levelDiff = 0 ∨ r.levelDiff = 1) ∧ r.oct ∈ Mr ∧
          Touch (cellGrid G c.b) (cellOct c.b c.oct c.idx) (cellOct c.b r.oct r.idx)) ∨ (r.levelDiff = -1 ∧ ∃ f : (Fin d → ℤ) → CellIndex d,
          ∀ δ ∈ loops (fun k => if faceOff j s k = 0 then [(0 : ℤ), 1] else [0]),
            getNeighborGhost G M r δ = some (f δ) ∧ getNeighborGhost G Mr r δ = some (f δ) ∧ (f δ).b = c.b ∧
              (f δ).oct ∈ Mr ∧ (∀ k, (f δ).idx k < c.b k) ∧
              Touch (cellGrid G c.b) (cellOct c.b c.oct c.idx) (cellOct c.b (f δ).oct (f δ).idx))))) := by
  have hGp : G.Pos := hG.toPos
  have hb : ∀ k, 0 < c.b k := fun k => by have := hx k; omega
  have hcg := getNeighborGhost_congr hG hM hsub c hc hcomp (faceOff j s)
  by_cases hin : InDomain (cellGrid G c.b) c.oct.level (target c.b c.oct c.idx (faceOff j s))
  swap
  · obtain ⟨r, h1, h2, -⟩ := outside hGp hM hB c hc hx hst j hs hin
    exact ⟨r, h1, by rw [hcg, h1], Or.inl h2⟩
  obtain ⟨r, h1, h2, h3, h4, hside⟩ := side hGp hM hB c hc hx hst j hs hin
  have near : ∀ n : CellIndex d, n.oct ∈ M → (∀ k, n.idx k < c.b k) →
      cellOct c.b n.oct n.idx ∈ nbrs (cellGrid G c.b) (cellMesh c.b M) (cellOct c.b c.oct c.idx) j s →
      n.oct ∈ Mr ∧ Touch (cellGrid G c.b) (cellOct c.b c.oct c.idx) (cellOct c.b n.oct n.idx) := fun n k1 k2 k3 =>
    have ht := (mem_nbrs.1 k3).2.touch (cellGrid_pos hGp hb)
    ⟨hcomp _ k1 (touch_of_cells hGp hb hx k2 ht), ht⟩
  refine ⟨r, h1, by rw [hcg, h1], Or.inr ?_⟩
  cases hside with
  | same st hl hn hp =>
    have hst' : r.status = .sameSize ∨ r.status = .localToBlock := by
      rcases st with st | st
      · right; rw [st, hst]; rfl
      · exact Or.inl st
    refine ⟨by rcases hst' with h | h <;> rw [h] <;> decide, h4, h3, Or.inl ⟨Or.inl ?_, near r h2 h3 (by rw [hn]; simp)⟩⟩
    unfold CellIndex.levelDiff
    rcases hst' with h | h <;> rw [h] <;> rfl
  | bigger st hl hn hp =>
    refine ⟨by rw [st]; decide, h4, h3, Or.inl ⟨Or.inr ?_, near r h2 h3 (by rw [hn]; simp)⟩⟩
    unfold CellIndex.levelDiff
    rw [st]; rfl
  | smaller st hl f hf hnd hn =>
    have hfM : ∀ δ ∈ loops (fun k => if faceOff j s k = 0 then [(0 : ℤ), 1] else [0]), (f δ).oct ∈ Mr ∧
        Touch (cellGrid G c.b) (cellOct c.b c.oct c.idx) (cellOct c.b (f δ).oct (f δ).idx) :=
      fun δ hδ => near _ (hf δ hδ).2.1 (hf δ hδ).2.2.1 ((hn _).2 (List.mem_map.2 ⟨δ, hδ, rfl⟩))
    refine ⟨by rw [st]; decide, h4, h3, Or.inr ⟨?_, f, fun δ hδ => ?_⟩⟩
    · unfold CellIndex.levelDiff
      rw [st]; rfl
    · obtain ⟨a1, a2, a3, a4, a5, -⟩ := hf δ hδ
      exact ⟨a1, getNeighborGhost_same a1 (by omega) (hfM δ hδ).1, a4, (hfM δ hδ).1, a3, (hfM δ hδ).2⟩

end Verif.Sim
