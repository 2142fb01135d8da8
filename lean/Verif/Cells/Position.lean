import Verif.Cells.Grid
import Verif.Cells.Model
import Verif.Cells.Sibling
import Verif.Octree.Props

/-!
# C26: cell of a position (`AMRBlockForeachCell.h` L35-130)

Exact arithmetic replaces `real_t`. In 2D the third coordinate is dropped.
-/

namespace Verif.Cells

open Verif.Octree

variable {d : ℕ} {G : Grid d} {M : Finset (Oct d)}

/-- The physical domain (`cdata.xmin`, `cdata.xmax`, ...). -/
structure Domain (d : ℕ) where
  xmin : Fin d → ℚ
  xmax : Fin d → ℚ

/-- `AMRBlockForeachCell.h` L37-54, `getCellSize`, for a cell of an array without ghosts: the block size
`cdata.bx` is that of the index. -/
def getCellSize (D : Domain d) (G : Grid d) (c : CellIndex d) (k : Fin d) : ℚ :=
  getSize G c.oct k * ((D.xmax k - D.xmin k) / c.b k)

/-- `AMRBlockForeachCell.h` L58-81, `getCellCenter`, for a cell of an array without ghosts. -/
def getCellCenter (D : Domain d) (G : Grid d) (c : CellIndex d) (k : Fin d) : ℚ :=
  D.xmin k + getCenter G c.oct k * (D.xmax k - D.xmin k) +
    ((c.idx k : ℚ) - c.b k * (1 / 2) + 1 / 2) * getCellSize D G c k

/-- `LightOctree_storage.h` L174-183, `getCorner`. -/
def getCorner (G : Grid d) (o : Oct d) (k : Fin d) : ℚ := o.pos k * getSize G o k

/-- `AMRBlockForeachCell.h` L84-130, `getCellFromPos`. The conversion to `uint32_t` truncates; a
negative quotient (undefined behaviour) does not occur for positions in the domain. The `assert`s on
the position are preconditions of the theorems. -/
def getCellFromPos (D : Domain d) (G : Grid d) (M : Finset (Oct d)) (minLevel maxLevel : ℕ)
    (b : Fin d → ℕ) (x : Fin d → ℚ) : Option (CellIndex d) :=
  (getiOctFromPos G M minLevel maxLevel
      fun k => (x k - D.xmin k) / (D.xmax k - D.xmin k)).map fun o =>
    let corner : Fin d → ℚ := fun k => D.xmin k + getCorner G o k * (D.xmax k - D.xmin k)
    let size : Fin d → ℚ := fun k => getSize G o k * (D.xmax k - D.xmin k) / b k
    ⟨o, fun k => ⌊(x k - corner k) / size k⌋₊, b, .localToBlock⟩

/-- The box of a cell in physical coordinates. -/
def InCell (D : Domain d) (G : Grid d) (b : Fin d → ℕ) (o : Oct d) (i : Fin d → ℕ)
    (x : Fin d → ℚ) : Prop :=
  ∀ k, D.xmin k + lo (cellGrid G b) (cellOct b o i) k * (D.xmax k - D.xmin k) ≤ x k ∧
    x k < D.xmin k + hi (cellGrid G b) (cellOct b o i) k * (D.xmax k - D.xmin k)

/-- C26 (size): the size of a cell is the extent of its box. -/
theorem C26_size (hG : G.Pos) (D : Domain d) (c : CellIndex d) (hb : ∀ k, 0 < c.b k) (k : Fin d) :
    getCellSize D G c k = (hi (cellGrid G c.b) (cellOct c.b c.oct c.idx) k -
      lo (cellGrid G c.b) (cellOct c.b c.oct c.idx) k) * (D.xmax k - D.xmin k) := by
  have h0 : (0 : ℚ) < G.count k c.oct.level := by exact_mod_cast count_pos hG k _
  have h1 : (0 : ℚ) < c.b k := by exact_mod_cast hb k
  rw [cell_lo hG hb, cell_hi hG hb]
  unfold getCellSize getSize lo hi
  rw [cellCount_eq]
  field_simp
  ring

/-- C26 (centre): the centre of a cell is the middle of its box. -/
theorem C26_center (hG : G.Pos) (D : Domain d) (c : CellIndex d) (hb : ∀ k, 0 < c.b k) (k : Fin d) :
    getCellCenter D G c k = D.xmin k + (lo (cellGrid G c.b) (cellOct c.b c.oct c.idx) k +
      hi (cellGrid G c.b) (cellOct c.b c.oct c.idx) k) / 2 * (D.xmax k - D.xmin k) := by
  have h0 : (0 : ℚ) < G.count k c.oct.level := by exact_mod_cast count_pos hG k _
  have h1 : (0 : ℚ) < c.b k := by exact_mod_cast hb k
  rw [cell_lo hG hb, cell_hi hG hb]
  unfold getCellCenter getCenter getCellSize getSize lo hi
  rw [cellCount_eq]
  field_simp
  ring

theorem inCell_iff (D : Domain d) (hD : ∀ k, D.xmin k < D.xmax k) (b : Fin d → ℕ) (o : Oct d)
    (i : Fin d → ℕ) (x : Fin d → ℚ) : InCell D G b o i x ↔
      Covers (cellGrid G b) (cellOct b o i) fun k => (x k - D.xmin k) / (D.xmax k - D.xmin k) := by
  have hL : ∀ k, 0 < D.xmax k - D.xmin k := fun k => by linarith [hD k]
  unfold InCell Covers
  refine forall_congr' fun k => ?_
  rw [le_div_iff₀ (hL k), div_lt_iff₀ (hL k)]
  constructor
  · rintro ⟨h1, h2⟩; exact ⟨by linarith, by linarith⟩
  · rintro ⟨h1, h2⟩; exact ⟨by linarith, by linarith⟩

theorem local_coord (hG : G.Pos) (D : Domain d) (hD : ∀ k, D.xmin k < D.xmax k) (b : Fin d → ℕ)
    (hb : ∀ k, 0 < b k) (o : Oct d) (x : Fin d → ℚ) (k : Fin d) :
    (x k - (D.xmin k + getCorner G o k * (D.xmax k - D.xmin k))) /
        (getSize G o k * (D.xmax k - D.xmin k) / b k) =
      (x k - D.xmin k) / (D.xmax k - D.xmin k) * ((cellGrid G b).count k o.level : ℕ) -
        (o.pos k * b k : ℕ) := by
  have h0 : (0 : ℚ) < G.count k o.level := by exact_mod_cast count_pos hG k _
  have hbk : (0 : ℚ) < b k := by exact_mod_cast hb k
  have hL : 0 < D.xmax k - D.xmin k := by linarith [hD k]
  unfold getCorner getSize
  rw [cellCount_eq, count_cell]
  push_cast
  generalize D.xmax k - D.xmin k = L at *
  field_simp
  ring

theorem local_bounds (hG : G.Pos) (b : Fin d → ℕ) (hb : ∀ k, 0 < b k) (o : Oct d) (u : Fin d → ℚ)
    (hu : Covers G o u) (k : Fin d) :
    ((o.pos k * b k : ℕ) : ℚ) ≤ u k * ((cellGrid G b).count k o.level : ℕ) ∧
      u k * ((cellGrid G b).count k o.level : ℕ) < ((o.pos k * b k + b k : ℕ) : ℚ) := by
  have h0 : (0 : ℚ) < G.count k o.level := by exact_mod_cast count_pos hG k _
  have hbk : (0 : ℚ) < b k := by exact_mod_cast hb k
  obtain ⟨a1, a2⟩ := hu k
  unfold lo at a1
  unfold hi at a2
  rw [div_le_iff₀ h0] at a1
  rw [lt_div_iff₀ h0] at a2
  rw [count_cell]
  push_cast
  rw [← mul_assoc]
  constructor
  · exact mul_le_mul_of_nonneg_right a1 hbk.le
  · have := mul_lt_mul_of_pos_right a2 hbk
    linarith

theorem local_cell (hG : G.Pos) (b : Fin d → ℕ) (hb : ∀ k, 0 < b k) (o : Oct d) (u : Fin d → ℚ)
    (hu0 : ∀ k, 0 ≤ u k) (hu : Covers G o u) (i : Fin d → ℕ)
    (hi' : ∀ k, i k = ⌊u k * ((cellGrid G b).count k o.level : ℕ) - (o.pos k * b k : ℕ)⌋₊) :
    Covers (cellGrid G b) (cellOct b o i) u ∧ ∀ k, i k < b k := by
  have hbnd := local_bounds hG b hb o u hu
  refine ⟨?_, fun k => ?_⟩
  · rw [covers_iff_floor (cellGrid_pos hG hb) _ hu0]
    intro k
    simp only [cellOct]
    rw [hi' k, Nat.floor_sub_natCast]
    have := Nat.le_floor (hbnd k).1
    omega
  · rw [hi' k, Nat.floor_sub_natCast]
    have h4 := (Nat.floor_lt (le_trans (by positivity) (hbnd k).1)).2 (hbnd k).2
    have := Nat.le_floor (hbnd k).1
    omega

/-- C26: the cell returned for a position of the domain is the cell of the mesh whose box contains
it. -/
theorem C26_cell_of_pos (hG : G.WF) (hM : Tiling G M) (D : Domain d)
    (hD : ∀ k, D.xmin k < D.xmax k) (minLevel maxLevel : ℕ)
    (hlev : ∀ o ∈ M, minLevel ≤ o.level ∧ o.level ≤ maxLevel) (b : Fin d → ℕ) (hb : ∀ k, 0 < b k)
    (x : Fin d → ℚ) (hx : ∀ k, D.xmin k ≤ x k ∧ x k < D.xmax k) :
    ∃ c, getCellFromPos D G M minLevel maxLevel b x = some c ∧ c.oct ∈ M ∧ (∀ k, c.idx k < b k) ∧
      c.b = b ∧ c.status = .localToBlock ∧ InCell D G b c.oct c.idx x ∧
      ∀ o ∈ M, ∀ i : Fin d → ℕ, (∀ k, i k < b k) → InCell D G b o i x → o = c.oct ∧ i = c.idx := by
  have hL : ∀ k, 0 < D.xmax k - D.xmin k := fun k => by linarith [hD k]
  have hx01 : ∀ k, 0 ≤ (x k - D.xmin k) / (D.xmax k - D.xmin k) ∧
      (x k - D.xmin k) / (D.xmax k - D.xmin k) < 1 := fun k =>
    ⟨div_nonneg (by linarith [(hx k).1]) (hL k).le, by
      rw [div_lt_one (hL k)]; linarith [(hx k).2]⟩
  have hGp : G.Pos := hG
  obtain ⟨o, h1, h2, h3, -⟩ := C04_getiOctFromPos_correct hG hM minLevel maxLevel hlev _ hx01
  have hr : ∃ i : Fin d → ℕ, (∀ k, i k = ⌊(x k - D.xmin k) / (D.xmax k - D.xmin k) *
        ((cellGrid G b).count k o.level : ℕ) - (o.pos k * b k : ℕ)⌋₊) ∧
      getCellFromPos D G M minLevel maxLevel b x = some ⟨o, i, b, .localToBlock⟩ := by
    refine ⟨fun k => ⌊(x k - (D.xmin k + getCorner G o k * (D.xmax k - D.xmin k))) /
        (getSize G o k * (D.xmax k - D.xmin k) / b k)⌋₊, fun k => ?_, ?_⟩
    · simp only [local_coord hGp D hD b hb]
    · unfold getCellFromPos
      rw [h1, Option.map_some]
  obtain ⟨i0, hi0, hr⟩ := hr
  obtain ⟨hc1, hc2⟩ := local_cell hGp b hb o _ (fun k => (hx01 k).1) h3 i0 hi0
  refine ⟨⟨o, i0, b, .localToBlock⟩, hr, h2, hc2, rfl, rfl, (inCell_iff D hD b _ _ x).2 hc1, ?_⟩
  intro o' ho' i hi' hin
  rw [inCell_iff D hD] at hin
  obtain ⟨q, -, hu⟩ := (cellMesh_tiling hGp hb hM).cover _ hx01
  have e1 := hu _ ⟨mem_cellMesh.2 ⟨o', ho', i, hi', rfl⟩, hin⟩
  have e2 := hu _ ⟨mem_cellMesh.2 ⟨o, h2, i0, hc2, rfl⟩, hc1⟩
  exact cellOct_inj hi' hc2 (e1.trans e2.symm)

/-- C26 (round trip): the centre of every cell of the mesh is located back in that cell. -/
theorem C26_center_locates (hG : G.WF) (hM : Tiling G M) (D : Domain d)
    (hD : ∀ k, D.xmin k < D.xmax k) (minLevel maxLevel : ℕ)
    (hlev : ∀ o ∈ M, minLevel ≤ o.level ∧ o.level ≤ maxLevel) (c : CellIndex d)
    (hc : c.oct ∈ M) (hi' : ∀ k, c.idx k < c.b k) :
    getCellFromPos D G M minLevel maxLevel c.b (getCellCenter D G c) =
      some ⟨c.oct, c.idx, c.b, .localToBlock⟩ := by
  have hb : ∀ k, 0 < c.b k := fun k => by have := hi' k; omega
  have hGp := cellGrid_pos (b := c.b) (hG : G.Pos) hb
  have hv := cell_valid (hM.valid _ hc) hi'
  have hL : ∀ k, 0 < D.xmax k - D.xmin k := fun k => by linarith [hD k]
  have hin : InCell D G c.b c.oct c.idx (getCellCenter D G c) := by
    intro k
    rw [C26_center (hG : G.Pos) D c hb k]
    have h1 := lo_lt_hi hGp (cellOct c.b c.oct c.idx) k
    have h2 := hL k
    constructor
    · have := mul_le_mul_of_nonneg_right (show lo (cellGrid G c.b) (cellOct c.b c.oct c.idx) k ≤
        (lo (cellGrid G c.b) (cellOct c.b c.oct c.idx) k +
          hi (cellGrid G c.b) (cellOct c.b c.oct c.idx) k) / 2 by linarith) h2.le
      linarith
    · have := mul_lt_mul_of_pos_right (show (lo (cellGrid G c.b) (cellOct c.b c.oct c.idx) k +
          hi (cellGrid G c.b) (cellOct c.b c.oct c.idx) k) / 2 <
        hi (cellGrid G c.b) (cellOct c.b c.oct c.idx) k by linarith) h2
      linarith
  have hdom : ∀ k, D.xmin k ≤ getCellCenter D G c k ∧ getCellCenter D G c k < D.xmax k := by
    intro k
    obtain ⟨a1, a2⟩ := hin k
    have h1 := lo_nonneg (G := cellGrid G c.b) (cellOct c.b c.oct c.idx) k
    have h2 : hi (cellGrid G c.b) (cellOct c.b c.oct c.idx) k ≤ 1 := by
      unfold hi
      rw [div_le_one (by exact_mod_cast count_pos hGp k _)]
      exact_mod_cast hv.2 k
    have h3 := mul_nonneg h1 (hL k).le
    have h4 := mul_le_mul_of_nonneg_right h2 (hL k).le
    constructor <;> linarith
  obtain ⟨r, e1, e2, e3, e4, e5, e6, e7⟩ := C26_cell_of_pos hG hM D hD minLevel maxLevel hlev c.b hb
    _ hdom
  obtain ⟨f1, f2⟩ := e7 c.oct hc c.idx hi' hin
  rw [e1, f1, f2]
  obtain ⟨a, b', c', d'⟩ := r
  simp only at *
  rw [e4, e5]

/-- Cells of 3×1 blocks in the domain [-1,2]×[0,1]. -/
example : getCellFromPos ⟨![-1, 0], ![2, 1]⟩ quadGrid quad.toFinset 1 2 ![3, 1] ![3/4, 1/8] =
    some ⟨⟨2, ![2, 0]⟩, ![1, 0], ![3, 1], .localToBlock⟩ := by
  decide +kernel

end Verif.Cells
