import Verif.Flux.Graph
import Verif.Cells.Convert
import Verif.Cells.Sibling

/-!
# Patches with two ghost layers

Model of `copyGhostBlockCellData` (`core/src/hydro/CopyGhostBlockCellData.h`), and what the cells of a
patch hold next to a face.
-/

namespace Verif.Flux

open Verif.Octree Verif.Cells

variable {d : ℕ} {V : Type}

/-! ### Model -/

/-- What a patch is filled from: the values of the cells, the values beyond the boundary
(`getBoundaryValue`) and the mean of smaller cells. The last two are arbitrary functions here. -/
structure Source (d : ℕ) (V : Type) where
  U : Oct d → (Fin d → ℕ) → V
  bval : CellIndex d → V
  avg : List V → V

/-- The value that `copyGhostBlockCellData` L22-59 stores in cell `y` of the patch of octant `o` with two
ghost layers (`none`: undefined behaviour). -/
def patchVal (I : Source d V) (G : Grid d) (M : Finset (Oct d)) (b : Fin d → ℕ) (o : Oct d) (y : Fin d → ℕ) :
    Option V :=
  (convertIndexGhost G M b (patchCell b (fun _ => 2) o y)).bind fun r =>
    if r.status = .boundary then some (I.bval r)
    else if r.levelDiff ≥ 0 then some (I.U r.oct r.idx)
    else ((foreachSibling true G M r).mapM id).map fun rs => I.avg (rs.map fun n => I.U n.oct n.idx)

/-- Reading cell `z` of a patch, counted from the first cell of the block: `z + 2` must be a cell of the
patch (`CellIndex::getNeighbor`). -/
def patchRead (I : Source d V) (G : Grid d) (M : Finset (Oct d)) (b : Fin d → ℕ) (o : Oct d) (z : Fin d → ℤ) :
    Option V :=
  (inBlock (fun k => b k + 2 * 2) fun k => z k + 2).bind (patchVal I G M b o)

/-! ### Cells next to a face -/

/-- `x` moved by `t` in direction `j`. -/
def move (x : Fin d → ℕ) (j : Fin d) (t : ℤ) : Fin d → ℕ := fun k => ((x k : ℤ) + faceOff j t k).toNat

variable {G : Grid d} {M : Finset (Oct d)} {b : Fin d → ℕ} {o o' : Oct d} {x y : Fin d → ℕ} {j : Fin d} {s : ℤ}

theorem move_lt (hx : ∀ k, x k < b k) {t : ℤ} (h : 0 ≤ (x j : ℤ) + t ∧ (x j : ℤ) + t < b j) (k : Fin d) :
    move x j t k < b k := by
  unfold move
  by_cases hk : k = j
  · subst hk; rw [faceOff_self]; omega
  · rw [faceOff_ne _ hk]; have := hx k; omega

theorem move_cast {t : ℤ} (h : 0 ≤ (x j : ℤ) + t) (k : Fin d) :
    (move x j t k : ℤ) = x k + faceOff j t k := by
  unfold move
  by_cases hk : k = j
  · subst hk; rw [faceOff_self]; omega
  · rw [faceOff_ne _ hk]; omega

theorem inBlock_move (hx : ∀ k, x k < b k) {t : ℤ} (h : 0 ≤ (x j : ℤ) + t ∧ (x j : ℤ) + t < b j) (k : Fin d) :
    0 ≤ (x k : ℤ) + faceOff j t k ∧ (x k : ℤ) + faceOff j t k < b k := by
  by_cases hk : k = j
  · subst hk; rw [faceOff_self]; exact h
  · rw [faceOff_ne _ hk]; have := hx k; omega

/-- Inside a block there is one neighbour, of the same octant. -/
theorem inner (hG : G.Pos) (hM : Tiling G M) (hB : Balanced G M) (ho : o ∈ M) (hx : ∀ k, x k < b k)
    (hs : s = 1 ∨ s = -1) (h : 0 ≤ (x j : ℤ) + s ∧ (x j : ℤ) + s < b j) :
    getNeighborGhost G M ⟨o, x, b, .localToBlock⟩ (faceOff j s) = some ⟨o, move x j s, b, .localToBlock⟩ ∧
      InDomain (cellGrid G b) o.level (target b o x (faceOff j s)) ∧
      nbrs (cellGrid G b) (cellMesh b M) (cellOct b o x) j s = {cellOct b o (move x j s)} := by
  have hib := inBlock_move hx h
  have e : getNeighborGhost G M ⟨o, x, b, .localToBlock⟩ (faceOff j s) =
      some ⟨o, move x j s, b, .localToBlock⟩ :=
    getNeighborGhost_eq_getNeighbor (c := ⟨o, x, b, .localToBlock⟩) hib
  have hin : InDomain (cellGrid G b) o.level (target b o x (faceOff j s)) := by
    intro k
    right
    have hv := (hM.valid o ho).2 k
    rw [count_cell]
    unfold target
    have h3 : o.pos k * b k + b k ≤ G.count k o.level * b k := by
      have := Nat.mul_le_mul_right (b k) hv
      rw [Nat.succ_mul] at this
      exact this
    have := hib k
    generalize o.pos k * b k = q at *
    generalize G.count k o.level * b k = n at *
    omega
  refine ⟨e, hin, ?_⟩
  obtain ⟨r, h1, -, -, -, hside⟩ := side hG hM hB ⟨o, x, b, .localToBlock⟩ ho hx rfl j hs hin
  rw [e] at h1
  have hr := Option.some.inj h1
  subst hr
  cases hside with
  | same _ _ hn _ => exact hn
  | bigger st _ _ _ => cases st
  | smaller st _ _ _ _ _ => cases st

/-- A neighbour outside the block touches its own block's edge. -/
theorem edge (hG : G.Pos) (hM : Tiling G M) (hB : Balanced G M) (ho : o ∈ M) (hx : ∀ k, x k < b k)
    (ho' : o' ∈ M) (hy : ∀ k, y k < b k) (hs : s = 1 ∨ s = -1)
    (hn : cellOct b o' y ∈ nbrs (cellGrid G b) (cellMesh b M) (cellOct b o x) j s)
    (hout : ¬ (0 ≤ (x j : ℤ) + s ∧ (x j : ℤ) + s < b j)) :
    ¬ (0 ≤ (y j : ℤ) - s ∧ (y j : ℤ) - s < b j) := by
  intro h
  have hb : ∀ k, 0 < b k := fun k => by have := hx k; omega
  have hG' := cellGrid_pos hG hb
  have hM' := cellMesh_tiling hG hb hM
  have h1 := (nbrs_symm hG' hM' hs (mem_cellMesh.2 ⟨o, ho, x, hx, rfl⟩)
    (mem_cellMesh.2 ⟨o', ho', y, hy, rfl⟩)).1 hn
  have hs' : -s = 1 ∨ -s = -1 := by omega
  have h' : 0 ≤ (y j : ℤ) + -s ∧ (y j : ℤ) + -s < b j := by omega
  rw [(inner hG hM hB ho' hy hs' h').2.2, Finset.mem_singleton] at h1
  obtain ⟨e1, e2⟩ := cellOct_inj hx (move_lt hy h') h1
  apply hout
  have := move_cast (x := y) (j := j) h'.1 j
  rw [← e2, faceOff_self] at this
  have := hy j
  omega

/-- Neighbours of another level are outside the block. -/
theorem outer_of_level (hG : G.Pos) (hM : Tiling G M) (hB : Balanced G M) (ho : o ∈ M) (hx : ∀ k, x k < b k)
    (hs : s = 1 ∨ s = -1)
    (hn : cellOct b o' y ∈ nbrs (cellGrid G b) (cellMesh b M) (cellOct b o x) j s)
    (hl : o'.level ≠ o.level) : ¬ (0 ≤ (x j : ℤ) + s ∧ (x j : ℤ) + s < b j) := by
  intro h
  rw [(inner hG hM hB ho hx hs h).2.2, Finset.mem_singleton] at hn
  have h' := congrArg (fun q : Oct d => q.level) hn
  exact hl h'

/-! ### Patches -/

variable {I : Source d V}

theorem patchRead_eq {z : Fin d → ℤ} (hz : ∀ k, -2 ≤ z k ∧ z k < b k + 2) :
    patchRead I G M b o z = patchVal I G M b o fun k => (z k + 2).toNat := by
  unfold patchRead
  rw [inBlock_eq_some fun k => by have := hz k; push_cast; omega]
  rfl

/-- All cells of a patch are defined. -/
theorem patch_defined (hG : G.Pos) (hM : Tiling G M) (hB : Balanced G M) (ho : o ∈ M)
    (hb : ∀ k, 4 ≤ b k ∧ 2 ∣ b k) (hy : ∀ k, y k < b k + 2 * 2) :
    ∃ v, patchVal I G M b o y = some v := by
  have hb0 : ∀ k, 0 < b k := fun k => by have := (hb k).1; omega
  by_cases hin : InDomain (cellGrid G b) o.level (patchPos b (fun _ => 2) o y)
  · obtain ⟨r, P, h1, h2, h3, h4, h5, h6⟩ := C24_ghost_partial hG hM hB ho hb0 (g := fun _ => 2)
      (fun k => by have := (hb k).1; omega) (fun _ _ _ _ k => ⟨by have := (hb k).1; omega, (hb k).2⟩) hy hin
    unfold patchVal
    rw [h1, Option.bind_some]
    by_cases hbd : r.status = .boundary
    · rw [if_pos hbd]; exact ⟨_, rfl⟩
    · rw [if_neg hbd]
      by_cases hl : r.levelDiff ≥ 0
      · rw [if_pos hl]; exact ⟨_, rfl⟩
      · rw [if_neg hl]
        rcases h6 with ⟨st, -⟩ | ⟨st, -⟩ | ⟨st, e⟩
        · exfalso; apply hl; unfold CellIndex.levelDiff; rcases st with st | st <;> rw [st] <;> decide
        · exfalso; apply hl; unfold CellIndex.levelDiff; rw [st]; decide
        · obtain ⟨rs, e1, -⟩ := C25_siblings hG hM hB true r h2 (by rw [h4]; exact h3)
            (fun k => by rw [h4, e]; exact ⟨P k, rfl⟩) (Or.inl fun k => by rw [h4]; exact (hb k).2)
          rw [e1]
          have : (rs.map some).mapM id = some rs := by
            clear e1
            induction rs with
            | nil => rfl
            | cons a l ih =>
              rw [List.map_cons, List.mapM_cons, ih]
              rfl
          rw [this]
          exact ⟨_, rfl⟩
  · obtain ⟨r, h1, h2, -⟩ := C24_boundary hG hM ho hb0 (g := fun _ => 2)
      (fun k => by have := (hb k).1; omega) hy hin
    unfold patchVal
    rw [h1, Option.bind_some, if_pos h2]
    exact ⟨_, rfl⟩

theorem patchRead_defined (hG : G.Pos) (hM : Tiling G M) (hB : Balanced G M) (ho : o ∈ M)
    (hb : ∀ k, 4 ≤ b k ∧ 2 ∣ b k) {z : Fin d → ℤ} (hz : ∀ k, -2 ≤ z k ∧ z k < b k + 2) :
    ∃ v, patchRead I G M b o z = some v := by
  rw [patchRead_eq hz]
  refine patch_defined hG hM hB ho hb fun k => ?_
  have := hz k
  omega

/-- Cells of the block. -/
theorem patchRead_interior (hx : ∀ k, x k < b k) : patchRead I G M b o (fun k => (x k : ℤ)) = some (I.U o x) := by
  rw [patchRead_eq fun k => by have := hx k; omega]
  unfold patchVal
  have h := (C24_interior (G := G) (M := M) b (fun _ => 2) o (fun k => ((x k : ℤ) + 2).toNat)
    (fun k => by have := hx k; omega)).2.2.1
  rw [h, Option.bind_some, if_neg (by simp), if_pos (by unfold CellIndex.levelDiff; simp)]
  have e : (fun k => ((x k : ℤ) + 2).toNat - 2) = x := funext fun k => by omega
  simp only [e]

/-- A step out of the block converts to what `getNeighbor_ghost` finds. -/
theorem convert_near (hb : ∀ k, 2 ≤ b k) (hx : ∀ k, x k < b k) (hs : s = 1 ∨ s = -1) {r : CellIndex d}
    (hr : getNeighborGhost G M ⟨o, x, b, .localToBlock⟩ (faceOff j s) = some r) (hl : r.levelDiff ≥ 0)
    (h : ¬ (0 ≤ (x j : ℤ) + s ∧ (x j : ℤ) + s < b j)) :
    patchRead I G M b o (fun k => (x k : ℤ) + faceOff j s k) =
      some (if r.status = .boundary then I.bval r else I.U r.oct r.idx) := by
  have habs := faceOff_abs (j := j) hs
  have hz : ∀ k, -2 ≤ (x k : ℤ) + faceOff j s k ∧ (x k : ℤ) + faceOff j s k < b k + 2 := fun k => by
    have := abs_le.1 (habs k)
    have := hx k
    omega
  rw [patchRead_eq hz]
  have hsh : shifted b (patchCell b (fun _ => 2) o fun k => ((x k : ℤ) + faceOff j s k + 2).toNat) =
      fun k => (x k : ℤ) + faceOff j s k := by
    funext k
    rw [shifted_patch]
    have := hz k
    omega
  have hne : (patchCell b (fun _ => 2) o fun k => ((x k : ℤ) + faceOff j s k + 2).toNat).b ≠ b :=
    patch_b_ne (g := fun _ => 2) ⟨j, by decide⟩
  have hin : (fun k => clampIn (b k) ((x k : ℤ) + faceOff j s k)) = x := by
    funext k
    have := hx k
    have := hb k
    unfold clampIn
    by_cases hk : k = j
    · subst hk
      rw [faceOff_self]
      rcases hs with rfl | rfl <;> split_ifs <;> omega
    · rw [faceOff_ne _ hk]
      split_ifs <;> omega
  have hoff : (fun k => clampOff (b k) ((x k : ℤ) + faceOff j s k)) = faceOff j s := by
    funext k
    have := hx k
    have := hb k
    unfold clampOff
    by_cases hk : k = j
    · subst hk
      rw [faceOff_self]
      rcases hs with rfl | rfl <;> split_ifs <;> omega
    · rw [faceOff_ne _ hk]
      split_ifs <;> omega
  have hex : ∃ k, (x k : ℤ) + faceOff j s k < 0 ∨ (b k : ℤ) ≤ (x k : ℤ) + faceOff j s k := by
    refine ⟨j, ?_⟩
    rw [faceOff_self]
    omega
  have haux : convertIndexGhostAux G M b (patchCell b (fun _ => 2) o fun k =>
      ((x k : ℤ) + faceOff j s k + 2).toNat) = some (r, faceOff j s) := by
    unfold convertIndexGhostAux
    rw [if_neg hne]
    simp only [hsh]
    rw [if_pos hex, hin, hoff]
    change (getNeighborGhost G M ⟨o, x, b, .localToBlock⟩ (faceOff j s)).map _ = _
    rw [hr]
    rfl
  unfold patchVal convertIndexGhost
  rw [haux]
  simp only [Option.bind_some]
  rw [if_neg (fun h => by omega)]
  simp only [Option.bind_some]
  split
  · rfl
  · rfl

/-- One step outside the block reads what `getNeighbor_ghost` finds. -/
theorem patchRead_near (hb : ∀ k, 2 ≤ b k) (hx : ∀ k, x k < b k) (hs : s = 1 ∨ s = -1) {r : CellIndex d}
    (hr : getNeighborGhost G M ⟨o, x, b, .localToBlock⟩ (faceOff j s) = some r)
    (hbd : r.status ≠ .boundary) (hl : r.levelDiff ≥ 0) :
    patchRead I G M b o (fun k => (x k : ℤ) + faceOff j s k) = some (I.U r.oct r.idx) := by
  by_cases h : 0 ≤ (x j : ℤ) + s ∧ (x j : ℤ) + s < b j
  · have hib := inBlock_move hx h
    rw [getNeighborGhost_eq_getNeighbor (c := ⟨o, x, b, .localToBlock⟩) hib] at hr
    have hr' := Option.some.inj hr
    subst hr'
    have := patchRead_interior (I := I) (G := G) (M := M) (o := o) (x := fun k => ((x k : ℤ) + faceOff j s k).toNat)
      (b := b) (fun k => by have := hib k; omega)
    have e : (fun k => ((((x k : ℤ) + faceOff j s k).toNat : ℕ) : ℤ)) = fun k => (x k : ℤ) + faceOff j s k :=
      funext fun k => by have := hib k; omega
    rw [e] at this
    exact this
  · rw [convert_near hb hx hs hr hl h, if_neg hbd]

/-- One step over the boundary of the domain reads the boundary value. -/
theorem patchRead_boundary (hb : ∀ k, 2 ≤ b k) (hx : ∀ k, x k < b k) (hs : s = 1 ∨ s = -1) {r : CellIndex d}
    (hr : getNeighborGhost G M ⟨o, x, b, .localToBlock⟩ (faceOff j s) = some r) (hbd : r.status = .boundary) :
    patchRead I G M b o (fun k => (x k : ℤ) + faceOff j s k) = some (I.bval r) := by
  have hl : r.levelDiff ≥ 0 := by unfold CellIndex.levelDiff; rw [hbd]; decide
  rw [convert_near hb hx hs hr hl, if_pos hbd]
  intro h
  rw [getNeighborGhost_eq_getNeighbor (c := ⟨o, x, b, .localToBlock⟩) (inBlock_move hx h)] at hr
  rw [← Option.some.inj hr] at hbd
  cases hbd

/-- Two steps from a cell towards a neighbour of the same size is one step from that neighbour. -/
theorem patchRead_far (hG : G.Pos) (hM : Tiling G M) (hB : Balanced G M) (ho : o ∈ M)
    (hb : ∀ k, 4 ≤ b k ∧ 2 ∣ b k) (hx : ∀ k, x k < b k) (hs : s = 1 ∨ s = -1)
    (hin : InDomain (cellGrid G b) o.level (target b o x (faceOff j s))) {r : CellIndex d}
    (hr : getNeighborGhost G M ⟨o, x, b, .localToBlock⟩ (faceOff j s) = some r)
    (hl : r.oct.level = o.level) :
    patchRead I G M b o (fun k => (x k : ℤ) + faceOff j (2 * s) k) =
      patchRead I G M b r.oct (fun k => (r.idx k : ℤ) + faceOff j s k) := by
  have hb0 : ∀ k, 0 < b k := fun k => by have := (hb k).1; omega
  have hoff2 : ∀ k, faceOff j (2 * s) k = faceOff j s k + faceOff j s k := fun k => by
    unfold faceOff; split <;> ring
  by_cases h : 0 ≤ (x j : ℤ) + s ∧ (x j : ℤ) + s < b j
  · have e := (inner hG hM hB ho hx hs h).1
    rw [e] at hr
    have hr' := Option.some.inj hr
    subst hr'
    simp only
    congr 1
    funext k
    rw [move_cast h.1, hoff2]
    ring
  · obtain ⟨r₁, g1, g2, g3, g4, hside⟩ := side hG hM hB ⟨o, x, b, .localToBlock⟩ ho hx rfl j hs hin
    rw [hr] at g1
    have hr' := Option.some.inj g1
    subst hr'
    have hmem : cellOct b r.oct r.idx ∈ nbrs (cellGrid G b) (cellMesh b M) (cellOct b o x) j s := by
      cases hside with
      | same _ _ hn _ => rw [hn]; exact Finset.mem_singleton_self _
      | bigger _ _ hn _ => rw [hn]; exact Finset.mem_singleton_self _
      | smaller _ hl' _ _ _ _ => exact absurd hl (by rw [hl']; exact Nat.succ_ne_self _)
    have hedge := edge hG hM hB ho hx g2 g3 hs hmem h
    have hstep : 0 ≤ (r.idx j : ℤ) + s ∧ (r.idx j : ℤ) + s < b j := by
      have h1 := g3 j
      have h2 := (hb j).1
      rcases hs with rfl | rfl <;> simp only at h1 <;> omega
    have habs := faceOff_abs (j := j) hs
    -- the position of the neighbour
    obtain ⟨r₂, P, k1, k2, k3, k4, k5, k6⟩ := C25_neighbor_cell hG hM hB ⟨o, x, b, .localToBlock⟩ ho hx
      (faceOff j s) (fun k => by have := habs k; have := (hb k).1; simp only; omega) hin
    rw [hr] at k1
    have hr' := Option.some.inj k1
    subst hr'
    have hP : cellOct b r.oct r.idx = ⟨o.level, P⟩ := by
      rcases k6 with ⟨-, e⟩ | ⟨-, e, -⟩ | ⟨-, e, -⟩
      · exact e
      · exact absurd hl (by simp only at e; omega)
      · exact absurd hl (by simp only at e; omega)
    have hP' : cellOct b r.oct (move r.idx j s) = ⟨o.level, fun k => ((P k : ℤ) + faceOff j s k).toNat⟩ := by
      refine Oct.ext' hl fun k => ?_
      have e1 := congrFun (congrArg (fun q : Oct d => q.pos) hP) k
      have e2 := move_cast (x := r.idx) (j := j) hstep.1 k
      simp only [cellOct] at e1 ⊢
      omega
    have hval := cell_valid (hM.valid _ g2) (move_lt g3 hstep)
    have hw : Wraps (cellGrid G b) o.level (fun k => target b o x (faceOff j (2 * s)) k)
        (fun k => ((P k : ℤ) + faceOff j s k).toNat) := by
      intro k
      obtain ⟨p1, t, p2, p3⟩ := k5 k
      have e1 := congrFun (congrArg (fun q : Oct d => q.pos) hP) k
      have e2 := move_cast (x := r.idx) (j := j) hstep.1 k
      simp only [cellOct] at e1
      refine ⟨?_, t, p2, ?_⟩
      · have := hval.2 k
        rw [hP'] at this
        exact this
      · have e3 : (((((P k : ℤ) + faceOff j s k).toNat) : ℕ) : ℤ) = P k + faceOff j s k := by omega
        beta_reduce
        rw [e3]
        unfold target at p3 ⊢
        rw [hoff2]
        simp only at p3
        linarith
    have hin2 : InDomain (cellGrid G b) o.level (fun k => target b o x (faceOff j (2 * s)) k) := by
      intro k
      obtain ⟨p1, t, p2, p3⟩ := hw k
      rcases p2 with rfl | ⟨p2, -⟩
      · right
        rw [zero_mul, add_zero] at p3
        rw [← p3]
        exact ⟨by positivity, by exact_mod_cast p1⟩
      · exact Or.inl p2
    have hz : ∀ k, -2 ≤ (x k : ℤ) + faceOff j (2 * s) k ∧ (x k : ℤ) + faceOff j (2 * s) k < b k + 2 := fun k => by
      have := abs_le.1 (habs k)
      have := hx k
      rw [hoff2]
      omega
    have hpos : patchPos b (fun _ => 2) o (fun k => ((x k : ℤ) + faceOff j (2 * s) k + 2).toNat) =
        fun k => target b o x (faceOff j (2 * s)) k := by
      funext k
      unfold patchPos target
      have := hz k
      push_cast
      omega
    obtain ⟨r', P', m1, m2, m3, m4, m5, m6⟩ := C24_ghost_partial hG hM hB ho hb0 (g := fun _ => 2)
      (fun k => by have := (hb k).1; omega) (fun _ _ _ _ k => ⟨by have := (hb k).1; omega, (hb k).2⟩)
      (y := fun k => ((x k : ℤ) + faceOff j (2 * s) k + 2).toNat)
      (fun k => by have := hz k; omega) (by rw [hpos]; exact hin2)
    rw [hpos] at m5
    have hPP := wraps_unique m5 hw
    rw [hPP, ← hP'] at m6
    have hG' := cellGrid_pos hG hb0
    have hM' := cellMesh_tiling hG hb0 hM
    have mem1 : cellOct b r.oct (move r.idx j s) ∈ cellMesh b M :=
      mem_cellMesh.2 ⟨_, g2, _, move_lt g3 hstep, rfl⟩
    have mem2 : cellOct b r'.oct r'.idx ∈ cellMesh b M := mem_cellMesh.2 ⟨_, m2, _, m3, rfl⟩
    have hfin : cellOct b r'.oct r'.idx = cellOct b r.oct (move r.idx j s) ∧ r'.status ≠ .boundary ∧
        r'.levelDiff ≥ 0 := by
      rcases m6 with ⟨st, e⟩ | ⟨-, e1, e2⟩ | ⟨-, e⟩
      · refine ⟨e, ?_, ?_⟩
        · rcases st with st | st <;> rw [st] <;> decide
        · unfold CellIndex.levelDiff; rcases st with st | st <;> rw [st] <;> decide
      · have := congrArg (fun q : Oct d => q.level) (hM'.eq_of_anc hG' mem2 mem1 e2)
        simp only [cellOct] at this
        omega
      · have hanc : Anc (cellOct b r.oct (move r.idx j s)) (cellOct b r'.oct r'.idx) := by
          rw [e, hP', ← hPP]
          refine ⟨by simp, fun k => ?_⟩
          simp
        have h1 := congrArg (fun q : Oct d => q.level) (hM'.eq_of_anc hG' mem1 mem2 hanc)
        have h2 := congrArg (fun q : Oct d => q.level) e
        simp only [cellOct] at h1 h2
        omega
    obtain ⟨e1, e2⟩ := cellOct_inj m3 (move_lt g3 hstep) hfin.1
    rw [patchRead_eq hz]
    unfold patchVal
    rw [m1, Option.bind_some, if_neg hfin.2.1, if_pos hfin.2.2, e1, e2]
    have := patchRead_interior (I := I) (G := G) (M := M) (o := r.oct) (x := move r.idx j s) (b := b)
      (move_lt g3 hstep)
    rw [← this]
    congr 1
    funext k
    exact move_cast hstep.1 k

end Verif.Flux
