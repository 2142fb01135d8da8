import Verif.Cells.Face
import Verif.Octree.Check

/-!
# C25: siblings, and where neighbour lookup goes wrong
-/

namespace Verif.Cells

open Verif.Octree

variable {d : ℕ} {G : Grid d} {M : Finset (Oct d)}

/-- In blocks of even size the siblings of a cell are in its block. -/
theorem siblings_of_even {b : Fin d → ℕ} (hev : ∀ k, 2 ∣ b k) {o : Oct d} (ho : o ∈ M)
    {x : Fin d → ℕ} (hx : ∀ k, x k < b k) {q : Oct d} (hl : q.level = o.level)
    (hq : ∀ k, q.pos k / 2 = (cellOct b o x).pos k / 2) : q ∈ cellMesh b M := by
  refine mem_cellMesh.2 ⟨o, ho, fun k => x k / 2 * 2 + q.pos k % 2, fun k => ?_,
    Oct.ext' hl.symm fun k => ?_⟩
  · obtain ⟨m, hm⟩ := hev k
    have := hx k
    simp only
    omega
  · obtain ⟨m, hm⟩ := hev k
    have h := hq k
    simp only [cellOct] at h ⊢
    have e : o.pos k * b k = 2 * (o.pos k * m) := by rw [hm]; ring
    rw [e] at h ⊢
    omega

/-- C25 (siblings): from the first cell of a coarse cell, `foreach_sibling` visits exactly the cells
of that coarse cell, each one once. -/
theorem C25_siblings (hG : G.Pos) (hM : Tiling G M) (hB : Balanced G M) (diffBlock : Bool)
    (c : CellIndex d) (hc : c.oct ∈ M) (hx : ∀ k, c.idx k < c.b k)
    (hfirst : ∀ k, 2 ∣ (cellOct c.b c.oct c.idx).pos k)
    (hsib : (∀ k, 2 ∣ c.b k) ∨ (diffBlock = true ∧ ∀ q : Oct d, q.level = c.oct.level →
      (∀ k, q.pos k / 2 = (cellOct c.b c.oct c.idx).pos k / 2) → q ∈ cellMesh c.b M)) :
    ∃ rs : List (CellIndex d), foreachSibling diffBlock G M c = rs.map some ∧
      (∀ r ∈ rs, r.oct ∈ M ∧ ∀ k, r.idx k < c.b k) ∧
      (rs.map fun r => cellOct c.b r.oct r.idx).Nodup ∧
      ∀ q : Oct d, q ∈ (rs.map fun r => cellOct c.b r.oct r.idx) ↔
        q.level = c.oct.level ∧ ∀ k, q.pos k / 2 = (cellOct c.b c.oct c.idx).pos k / 2 := by
  have hb : ∀ k, 0 < c.b k := fun k => by have := hx k; omega
  have hloops : (loops fun _ : Fin d => [(0 : ℤ), 1]) =
      (loops fun _ : Fin d => [0, 1]).map fun (s : Fin d → ℕ) k => (s k : ℤ) := by
    rw [← loops_map]; rfl
  have hin : ∀ q : Oct d, q.level = c.oct.level →
      (∀ k, q.pos k / 2 = (cellOct c.b c.oct c.idx).pos k / 2) → q ∈ cellMesh c.b M := by
    rcases hsib with h | h
    · exact fun q h1 h2 => siblings_of_even h hc hx h1 h2
    · exact h.2
  have hstep : ∀ δ ∈ (loops fun _ : Fin d => [0, 1]),
      ∃ r', getSiblingCell diffBlock G M c (fun k => ((δ k : ℕ) : ℤ)) = some r' ∧ (r'.oct ∈ M ∧
        ∀ k, r'.idx k < c.b k) ∧ cellOct c.b r'.oct r'.idx =
          ⟨c.oct.level, fun i => (cellOct c.b c.oct c.idx).pos i + δ i⟩ := by
    intro δ hδ
    rw [mem_loops] at hδ
    have hδ1 : ∀ k, δ k ≤ 1 := fun k => by
      have := hδ k
      simp only [List.mem_cons, List.not_mem_nil, or_false] at this; omega
    unfold getSiblingCell
    cases diffBlock with
    | true =>
      simp only [if_true]
      obtain ⟨r', e1, e2, e3, e4⟩ := getNeighborGhost_to_cell hG hM hB c hc hx
        (fun k => ((δ k : ℕ) : ℤ)) (fun k => by have := hδ1 k; rw [abs_le]; omega)
        (Q := fun i => (cellOct c.b c.oct c.idx).pos i + δ i)
        (hin _ rfl fun k => by
          have := hδ1 k
          have := hfirst k
          simp only
          omega)
        (fun k => by unfold target; simp only [cellOct]; push_cast; ring)
      exact ⟨r', e1, ⟨e2, e3⟩, e4⟩
    | false =>
      simp only [Bool.false_eq_true, if_false]
      have hev : ∀ k, 2 ∣ c.b k := by
        rcases hsib with h | h
        · exact h
        · exact absurd h.1 (by decide)
      have hlt : ∀ k, c.idx k + δ k < c.b k := by
        intro k
        obtain ⟨m, hm⟩ := hev k
        have h1 := hfirst k
        simp only [cellOct] at h1
        have e : c.oct.pos k * c.b k = 2 * (c.oct.pos k * m) := by rw [hm]; ring
        rw [e] at h1
        have := hx k
        have := hδ1 k
        omega
      unfold getNeighbor
      rw [inBlock_eq_some (fun k => by have := hlt k; simp only; omega)]
      refine ⟨_, rfl, ⟨hc, fun k => ?_⟩, Oct.ext' rfl fun k => ?_⟩
      · have := hlt k; simp only; omega
      · simp only [cellOct]
        omega
  obtain ⟨rs, e1, e2, e3⟩ := exists_map hstep
  refine ⟨rs, ?_, e2, ?_, fun q => ?_⟩
  · unfold foreachSibling
    rw [hloops, List.map_map]
    exact e1
  · rw [e3]
    refine List.Nodup.map ?_ (nodup_loops _ fun _ => by simp)
    intro δ δ' h
    funext k
    have := congrFun (congrArg (fun q : Oct d => q.pos) h) k
    simp only at this
    omega
  · rw [e3, List.mem_map]
    constructor
    · rintro ⟨δ, hδ, rfl⟩
      rw [mem_loops] at hδ
      refine ⟨rfl, fun k => ?_⟩
      have h1 := hδ k
      simp only [List.mem_cons, List.not_mem_nil, or_false] at h1
      have := hfirst k
      simp only
      omega
    · rintro ⟨hl, hq⟩
      refine ⟨fun k => q.pos k - (cellOct c.b c.oct c.idx).pos k, ?_, Oct.ext' hl.symm fun k => ?_⟩
      · rw [mem_loops]
        intro k
        have := hq k
        have := hfirst k
        simp only [List.mem_cons, List.not_mem_nil, or_false]
        omega
      · have := hq k
        have := hfirst k
        simp only
        omega

/-- Three coarse octants and a refined one. -/
def quad : List (Oct 2) :=
  [⟨1, ![0, 0]⟩, ⟨1, ![0, 1]⟩, ⟨1, ![1, 1]⟩, ⟨2, ![2, 0]⟩, ⟨2, ![3, 0]⟩, ⟨2, ![2, 1]⟩, ⟨2, ![3, 1]⟩]

def quadGrid : Grid 2 := ⟨1, ![2, 2], ![false, false]⟩

theorem quadGrid_pos : quadGrid.Pos := ⟨by decide⟩

theorem quad_tiling : Tiling quadGrid quad.toFinset :=
  tiling_of_check ⟨⟨by decide⟩, by decide⟩ _ 2 (by decide +kernel)

/-- Hypotheses of the C25 theorems are met: the right-hand face of a cell of a coarse octant next to
a refined one. -/
example : (⟨1, ![0, 0]⟩ : Oct 2) ∈ quad.toFinset ∧
    (faceCells false quadGrid quad.toFinset ⟨⟨1, ![0, 0]⟩, ![1, 1], ![2, 2], .localToBlock⟩
      ![1, 0]) =
    [some ⟨⟨2, ![2, 1]⟩, ![0, 0], ![2, 2], .sameSize⟩,
      some ⟨⟨2, ![2, 1]⟩, ![0, 1], ![2, 2], .sameSize⟩] := by
  constructor
  · decide
  · decide +kernel

theorem quad_balanced : Balanced quadGrid quad.toFinset :=
  balanced_of_check ⟨⟨by decide⟩, by decide⟩ _ 2 (by decide +kernel)

/-- The same in a periodic direction, looking down from the refined octant at a coarser one. -/
example : (⟨2, ![1, 0]⟩ : Oct 2) ∈ exMesh.toFinset ∧
    (faceCells true exGrid exMesh.toFinset ⟨⟨2, ![0, 0]⟩, ![0, 2], ![3, 3], .localToBlock⟩
      ![-1, 0]) = [some ⟨⟨1, ![1, 0]⟩, ![2, 1], ![3, 3], .bigger⟩] := by
  constructor
  · decide
  · decide +kernel

/-- Siblings in blocks of odd size: the cells are in four octants. -/
example : foreachSibling true exGrid exMesh.toFinset ⟨⟨2, ![0, 0]⟩, ![2, 2], ![3, 3], .localToBlock⟩ =
    [some ⟨⟨2, ![0, 0]⟩, ![2, 2], ![3, 3], .localToBlock⟩,
      some ⟨⟨2, ![1, 0]⟩, ![0, 2], ![3, 3], .sameSize⟩,
      some ⟨⟨2, ![0, 1]⟩, ![2, 0], ![3, 3], .sameSize⟩,
      some ⟨⟨2, ![1, 1]⟩, ![0, 0], ![3, 3], .sameSize⟩] := by
  decide +kernel

/-- Disagreement: in an edge direction that stays inside the block downwards in one direction, the
returned smaller cell does not touch the cell ("the smallest index contiguous to current cell",
L700, is not what is computed), and `foreach_smaller_neighbor` visits nothing else. -/
theorem C25_diagonal_not_adjacent :
    ∃ (G : Grid 2) (M : List (Oct 2)) (c r : CellIndex 2),
      G.WF ∧ Tiling G M.toFinset ∧ Balanced G M.toFinset ∧ c.oct ∈ M ∧ (∀ k, c.idx k < c.b k) ∧
      c.status = .localToBlock ∧ (∀ k, 2 ∣ c.b k) ∧
      InDomain (cellGrid G c.b) c.oct.level (target c.b c.oct c.idx ![1, -1]) ∧
      faceCells false G M.toFinset c ![1, -1] = [some r] ∧
      ¬ Touch (cellGrid G c.b) (cellOct c.b c.oct c.idx) (cellOct c.b r.oct r.idx) := by
  refine ⟨quadGrid, quad, ⟨⟨1, ![0, 0]⟩, ![1, 1], ![2, 2], .localToBlock⟩,
    ⟨⟨2, ![2, 0]⟩, ![0, 0], ![2, 2], .sameSize⟩, ⟨⟨by decide⟩, by decide⟩, quad_tiling, quad_balanced,
    by decide, by decide, rfl, by decide, by unfold InDomain; decide, by decide +kernel, ?_⟩
  intro h
  obtain ⟨s, hs, h1, -⟩ := h 1
  have hs0 : s = 0 := by
    rcases hs with h | ⟨h, -⟩
    · exact h
    · exact absurd h (by decide)
  subst hs0
  rw [cell_lo quadGrid_pos (by decide), cell_hi quadGrid_pos (by decide)] at h1
  have e1 : lo quadGrid ⟨1, ![0, 0]⟩ 1 = 0 := by simp [lo]
  have e2 : hi quadGrid ⟨1, ![0, 0]⟩ 1 = 1 / 2 := by simp [hi, quadGrid, Grid.count]
  have e3 : lo quadGrid ⟨2, ![2, 0]⟩ 1 = 0 := by simp [lo]
  have e4 : hi quadGrid ⟨2, ![2, 0]⟩ 1 = 1 / 4 := by simp [hi, quadGrid, Grid.count]
  rw [e1, e2, e3, e4] at h1
  norm_num at h1

/-- Disagreement: `getNeighbor_ghost` on a local array (L766-789, documented at L143-148) tests the
bounds the wrong way round. It returns an invalid index exactly when the neighbour is in the block,
and an index out of the block otherwise. -/
theorem C25_local_inverted (c : CellIndex d) (off : Fin d → ℤ) :
    ((∀ k, 0 ≤ (c.idx k : ℤ) + off k ∧ (c.idx k : ℤ) + off k < c.b k) →
      ∃ r, getNeighborGhostLocal c off = some r ∧ r.status = .invalid) ∧
    ((¬ ∀ k, 0 ≤ (c.idx k : ℤ) + off k ∧ (c.idx k : ℤ) + off k < c.b k) →
      getNeighborGhostLocal c off = none) := by
  unfold getNeighborGhostLocal
  constructor
  · intro h
    rw [if_neg (by push Not; intro k; exact h k)]
    exact ⟨_, rfl, rfl⟩
  · intro h
    rw [if_pos (by push Not at h; obtain ⟨k, hk⟩ := h; exact ⟨k, by push Not; exact hk⟩)]
    unfold getNeighbor inBlock
    rw [if_neg h]
    rfl

end Verif.Cells
