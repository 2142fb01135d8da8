import Verif.Flux.Graph
import Verif.Cells.Position
import Verif.Cells.Sibling
import Mathlib.Algebra.BigOperators.Field
import Mathlib.Algebra.Order.BigOperators.Ring.Finset

/-!
# Volumes and areas of cells, sums over the cells of a mesh
-/

namespace Verif.Flux

open Verif.Octree Verif.Cells

variable {d : ℕ} {G : Grid d} {M : Finset (Oct d)}

/-! ### Specification -/

/-- Extent of a cell. -/
def cellSize (D : Domain d) (G : Grid d) (q : Oct d) (k : Fin d) : ℚ :=
  (hi G q k - lo G q k) * (D.xmax k - D.xmin k)

/-- Volume of a cell. -/
def volume (D : Domain d) (G : Grid d) (q : Oct d) : ℚ := ∏ k, cellSize D G q k

/-- Area of the face through which two cells that are adjacent in direction `j` touch: the smaller of
the two extents in the other directions. -/
def area (D : Domain d) (G : Grid d) (j : Fin d) (c q : Oct d) : ℚ :=
  ∏ k ∈ Finset.univ.erase j, min (cellSize D G c k) (cellSize D G q k)

/-- Area of the whole face of a cell in direction `j`. -/
def faceArea (D : Domain d) (G : Grid d) (j : Fin d) (c : Oct d) : ℚ :=
  ∏ k ∈ Finset.univ.erase j, cellSize D G c k

/-- The side `s` of cell `x` of octant `o` in direction `j` is on the boundary of the domain. -/
def OnBoundary (G : Grid d) (b : Fin d → ℕ) (o : Oct d) (x : Fin d → ℕ) (j : Fin d) (s : ℤ) : Prop :=
  ¬ InDomain (cellGrid G b) o.level (target b o x (faceOff j s))

/-- Sum over the cells of a mesh. -/
def cellSum {A : Type} [AddCommMonoid A] (b : Fin d → ℕ) (M : Finset (Oct d))
    (f : Oct d → (Fin d → ℕ) → A) : A :=
  ∑ o ∈ M, ∑ x ∈ Fintype.piFinset fun k => Finset.range (b k), f o x

/-- A physical domain that is not empty. -/
def Domain.Ok (D : Domain d) : Prop := ∀ k, D.xmin k < D.xmax k

/-! ### Facts -/

theorem area_symm (D : Domain d) (j : Fin d) (c q : Oct d) : area D G j c q = area D G j q c := by
  unfold area
  exact Finset.prod_congr rfl fun k _ => min_comm _ _

theorem cellSize_eq (D : Domain d) (q : Oct d) (k : Fin d) :
    cellSize D G q k = (D.xmax k - D.xmin k) / G.count k q.level := by
  unfold cellSize hi lo
  ring

theorem cellSize_pos (hG : G.Pos) {D : Domain d} (hD : Domain.Ok D) (q : Oct d) (k : Fin d) :
    0 < cellSize D G q k := by
  unfold cellSize
  exact mul_pos (sub_pos.2 (lo_lt_hi hG q k)) (sub_pos.2 (hD k))

theorem volume_pos (hG : G.Pos) {D : Domain d} (hD : Domain.Ok D) (q : Oct d) : 0 < volume D G q :=
  Finset.prod_pos fun k _ => cellSize_pos hG hD q k

theorem area_pos (hG : G.Pos) {D : Domain d} (hD : Domain.Ok D) (j : Fin d) (c q : Oct d) :
    0 < area D G j c q :=
  Finset.prod_pos fun k _ => lt_min (cellSize_pos hG hD c k) (cellSize_pos hG hD q k)

theorem getCellSize_eq (hG : G.Pos) (D : Domain d) (c : CellIndex d) (hb : ∀ k, 0 < c.b k)
    (k : Fin d) :
    getCellSize D G c k = cellSize D (cellGrid G c.b) (cellOct c.b c.oct c.idx) k :=
  C26_size hG D c hb k

theorem cellSize_succ (D : Domain d) {c q : Oct d} (hl : G.lmin ≤ c.level) (h : q.level = c.level + 1)
    (k : Fin d) : cellSize D G q k = cellSize D G c k / 2 := by
  rw [cellSize_eq, cellSize_eq, h, count_add G k 1 hl]
  push_cast
  rw [div_div]

theorem faceArea_mul (D : Domain d) (c : Oct d) (j : Fin d) :
    faceArea D G j c * cellSize D G c j = volume D G c := by
  unfold volume faceArea
  rw [← Finset.mul_prod_erase Finset.univ _ (Finset.mem_univ j), mul_comm]

/-- The face of a cell towards a cell that is not smaller. -/
theorem area_of_le (hG : G.Pos) {D : Domain d} (hD : Domain.Ok D) {c q : Oct d} (hq : G.lmin ≤ q.level)
    (h : c.level = q.level ∨ c.level = q.level + 1) (j : Fin d) :
    area D G j c q * cellSize D G c j = volume D G c := by
  unfold volume area
  rw [← Finset.mul_prod_erase Finset.univ _ (Finset.mem_univ j), mul_comm]
  congr 1
  refine Finset.prod_congr rfl fun k _ => min_eq_left ?_
  rcases h with h | h
  · rw [cellSize_eq, cellSize_eq, h]
  · rw [cellSize_succ D hq h]
    have := cellSize_pos hG hD q k
    linarith

/-- The part of the face of a cell that touches one of the smaller cells. -/
theorem area_of_finer (hG : G.Pos) {D : Domain d} (hD : Domain.Ok D) {c q : Oct d}
    (hc : G.lmin ≤ c.level) (h : q.level = c.level + 1) (j : Fin d) :
    area D G j c q * (cellSize D G c j * 2 ^ (d - 1)) = volume D G c := by
  have h1 : area D G j c q = (∏ k ∈ Finset.univ.erase j, cellSize D G c k) / 2 ^ (d - 1) := by
    unfold area
    rw [Finset.prod_congr rfl (g := fun k => cellSize D G c k / 2), Finset.prod_div_distrib,
      Finset.prod_const, Finset.card_erase_of_mem (Finset.mem_univ j), Finset.card_univ,
      Fintype.card_fin]
    intro k _
    rw [cellSize_succ D hc h]
    apply min_eq_right
    have := cellSize_pos hG hD c k
    linarith
  unfold volume
  rw [← Finset.mul_prod_erase Finset.univ _ (Finset.mem_univ j), h1]
  field_simp

/-! ### Cells as boxes -/

open Classical in
/-- The octant and the index of the cell that is the box `q`. -/
noncomputable def unbox (b : Fin d → ℕ) (M : Finset (Oct d)) (q : Oct d) : Oct d × (Fin d → ℕ) :=
  if h : ∃ p : Oct d × (Fin d → ℕ), p.1 ∈ M ∧ (∀ k, p.2 k < b k) ∧ cellOct b p.1 p.2 = q then h.choose
  else (q, fun _ => 0)

theorem unbox_cell {b : Fin d → ℕ} {o : Oct d} {x : Fin d → ℕ} (ho : o ∈ M) (hx : ∀ k, x k < b k) :
    unbox b M (cellOct b o x) = (o, x) := by
  have h : ∃ p : Oct d × (Fin d → ℕ), p.1 ∈ M ∧ (∀ k, p.2 k < b k) ∧
      cellOct b p.1 p.2 = cellOct b o x := ⟨(o, x), ho, hx, rfl⟩
  unfold unbox
  rw [dif_pos h]
  obtain ⟨-, h2, h3⟩ := h.choose_spec
  obtain ⟨e1, e2⟩ := cellOct_inj h2 hx h3
  exact Prod.ext e1 e2

theorem cellSum_eq {A : Type} [AddCommMonoid A] (b : Fin d → ℕ) (f : Oct d → (Fin d → ℕ) → A) :
    cellSum b M f = ∑ q ∈ cellMesh b M, f (unbox b M q).1 (unbox b M q).2 := by
  unfold cellSum cellMesh
  rw [Finset.sum_biUnion]
  · refine Finset.sum_congr rfl fun o ho => ?_
    rw [Finset.sum_image]
    · refine Finset.sum_congr rfl fun x hx => ?_
      rw [unbox_cell ho fun k => Finset.mem_range.1 (Fintype.mem_piFinset.1 hx k)]
    · intro x hx y hy h
      exact (cellOct_inj (fun k => Finset.mem_range.1 (Fintype.mem_piFinset.1 hx k))
        (fun k => Finset.mem_range.1 (Fintype.mem_piFinset.1 hy k)) h).2
  · intro o _ o' _ hne
    rw [Function.onFun, Finset.disjoint_left]
    intro q hq hq'
    obtain ⟨x, hx, rfl⟩ := Finset.mem_image.1 hq
    obtain ⟨y, hy, h⟩ := Finset.mem_image.1 hq'
    exact hne (cellOct_inj (fun k => Finset.mem_range.1 (Fintype.mem_piFinset.1 hx k))
      (fun k => Finset.mem_range.1 (Fintype.mem_piFinset.1 hy k)) h.symm).1

theorem cellOct_unbox {b : Fin d → ℕ} {q : Oct d} (hq : q ∈ cellMesh b M) :
    cellOct b (unbox b M q).1 (unbox b M q).2 = q := by
  obtain ⟨o, ho, x, hx, rfl⟩ := mem_cellMesh.1 hq
  rw [unbox_cell ho hx]

/-- A sum over the cells, each seen as a box. -/
theorem cellSum_box {A : Type} [AddCommMonoid A] (b : Fin d → ℕ) (f : Oct d → A) :
    cellSum b M (fun o x => f (cellOct b o x)) = ∑ q ∈ cellMesh b M, f q := by
  rw [cellSum_eq]
  exact Finset.sum_congr rfl fun q hq => by rw [cellOct_unbox hq]

theorem cellSum_comm {A ι : Type} [AddCommMonoid A] (b : Fin d → ℕ) (s : Finset ι)
    (f : ι → Oct d → (Fin d → ℕ) → A) :
    cellSum b M (fun o x => ∑ i ∈ s, f i o x) = ∑ i ∈ s, cellSum b M (f i) := by
  rw [cellSum_eq, Finset.sum_comm]
  exact Finset.sum_congr rfl fun i _ => (cellSum_eq b (f i)).symm

theorem cellSum_sub {A : Type} [AddCommGroup A] (b : Fin d → ℕ) (f g : Oct d → (Fin d → ℕ) → A) :
    cellSum b M (fun o x => f o x - g o x) = cellSum b M f - cellSum b M g := by
  rw [cellSum_eq, cellSum_eq, cellSum_eq, Finset.sum_sub_distrib]

theorem cellSum_add {A : Type} [AddCommMonoid A] (b : Fin d → ℕ) (f g : Oct d → (Fin d → ℕ) → A) :
    cellSum b M (fun o x => f o x + g o x) = cellSum b M f + cellSum b M g := by
  unfold cellSum
  rw [← Finset.sum_add_distrib]
  exact Finset.sum_congr rfl fun o _ => Finset.sum_add_distrib

theorem cellSum_mul {A : Type} [CommSemiring A] (b : Fin d → ℕ) (a : A) (f : Oct d → (Fin d → ℕ) → A) :
    cellSum b M (fun o x => a * f o x) = a * cellSum b M f := by
  unfold cellSum
  rw [Finset.mul_sum]
  exact Finset.sum_congr rfl fun o _ => (Finset.mul_sum ..).symm

theorem cellSum_congr {A : Type} [AddCommMonoid A] {b : Fin d → ℕ} {f g : Oct d → (Fin d → ℕ) → A}
    (h : ∀ o ∈ M, ∀ x : Fin d → ℕ, (∀ k, x k < b k) → f o x = g o x) :
    cellSum b M f = cellSum b M g := by
  unfold cellSum
  exact Finset.sum_congr rfl fun o ho => Finset.sum_congr rfl fun x hx =>
    h o ho x fun k => Finset.mem_range.1 (Fintype.mem_piFinset.1 hx k)

/-! ### A periodic mesh for examples -/

/-- 2×2 coarse octants, periodic in both directions; the mesh `quad` has one of them refined. -/
def torus : Grid 2 := ⟨1, ![2, 2], ![true, true]⟩

/-- The domain [0,4]×[0,2]. -/
def torusDomain : Domain 2 := ⟨![0, 0], ![4, 2]⟩

theorem torus_pos : torus.Pos := ⟨by decide⟩

theorem torus_tiling : Tiling torus quad.toFinset :=
  tiling_of_check ⟨⟨by decide⟩, by decide⟩ _ 2 (by decide +kernel)

theorem torus_balanced : Balanced torus quad.toFinset :=
  balanced_of_check ⟨⟨by decide⟩, by decide⟩ _ 2 (by decide +kernel)

theorem torus_periodic : ∀ k, torus.periodic k = true := by decide

theorem torusDomain_ok : Domain.Ok torusDomain := by
  unfold Domain.Ok; decide

end Verif.Flux
