import Verif.Flux.Balance
import Verif.Hydro.OneNeighbor
import Mathlib.Tactic.FieldSimp
import Mathlib.Tactic.Ring
import Mathlib.Tactic.Linarith

/-!
# C49: the Poisson operator of `GravitySolver_cg`

Model of `get_value` and `matprod` (`core/src/gravity/GravitySolver_cg.cpp` L92-166). The solver runs in 3D only
(L59); the model has any number of directions. Arithmetic is exact.
-/

namespace Verif.Gravity

open Verif.Octree Verif.Cells Verif.Flux Verif.Hydro

variable {d : ℕ} {K : Type} [Field K]

/-! ### Model -/

/-- L92-119, `get_value`: 0 beyond the boundary, the value of a cell, or the mean of the smaller neighbours. -/
def getValue (φ : Oct d → (Fin d → ℕ) → K) (G : Grid d) (M : Finset (Oct d)) (r : CellIndex d)
    (off : Fin d → ℤ) : Option K :=
  if r.status = .boundary then some 0
  else if r.levelDiff ≥ 0 then some (φ r.oct r.idx)
  else ((foreachSmallerNeighbor true G M r off).mapM id).map fun rs =>
    (rs.map fun n => φ n.oct n.idx).sum / (rs.length : K)

/-- L148-153: distance to the middle of the neighbour. -/
def stretch (ldiff : ℤ) (h : K) : K :=
  let h := if ldiff = -1 then h * (3 / 4) else h
  if ldiff = 1 then h * (3 / 2) else h

/-- L138-163 for one direction. `absorbing` is `boundarycondition[dir] == BC_ABSORBING`; the code uses the
condition of the lower side for both sides (L46-48). -/
def matprodDir (absorbing : Fin d → Bool) (φ : Oct d → (Fin d → ℕ) → K) (D : Domain d) (G : Grid d)
    (M : Finset (Oct d)) (b : Fin d → ℕ) (o : Oct d) (x : Fin d → ℕ) (j : Fin d) : Option K :=
  (getNeighborGhost G M ⟨o, x, b, .localToBlock⟩ (faceOff j (-1))).bind fun rL =>
  (getNeighborGhost G M ⟨o, x, b, .localToBlock⟩ (faceOff j 1)).bind fun rR =>
  (getValue φ G M rL (faceOff j (-1))).bind fun vL => (getValue φ G M rR (faceOff j 1)).map fun vR =>
    let h : K := (getCellSize D G ⟨o, x, b, .localToBlock⟩ j : ℚ)
    let S : K := (∏ k, (getCellSize D G ⟨o, x, b, .localToBlock⟩ k : ℚ) : ℚ) / h
    let dL := S * (φ o x - vL) / stretch rL.levelDiff h
    let dR := S * (vR - φ o x) / stretch rR.levelDiff h
    let dL := if absorbing j && (rL.status = .boundary) then 0 else dL
    let dR := if absorbing j && (rR.status = .boundary) then 0 else dR
    dR - dL

/-- L133-166, `matprod`. -/
def matprod (absorbing : Fin d → Bool) (φ : Oct d → (Fin d → ℕ) → K) (D : Domain d) (G : Grid d)
    (M : Finset (Oct d)) (b : Fin d → ℕ) (o : Oct d) (x : Fin d → ℕ) : Option K :=
  ((List.finRange d).mapM (matprodDir absorbing φ D G M b o x)).map fun l => -l.sum

/-! ### Specification -/

/-- Distance between the middles of two adjacent cells along direction `j`. -/
def centerDist (D : Domain d) (G : Grid d) (j : Fin d) (c q : Oct d) : ℚ := (cellSize D G c j + cellSize D G q j) / 2

/-- Strength of the coupling of two adjacent cells: area of the face over the distance of the middles. -/
def weight (D : Domain d) (G : Grid d) (j : Fin d) (c q : Oct d) : ℚ := area D G j c q / centerDist D G j c q

/-- Value of a field in a box of the mesh of cells. -/
noncomputable def onBox (b : Fin d → ℕ) (M : Finset (Oct d)) (φ : Oct d → (Fin d → ℕ) → K) (c : Oct d) : K :=
  φ (unbox b M c).1 (unbox b M c).2

open Classical in
/-- The Dirichlet form: the sum over faces of the coupling times the differences of both fields, and over
faces on a boundary where the potential is 0 outside. -/
noncomputable def form (absorbing : Fin d → Bool) (D : Domain d) (G : Grid d) (M : Finset (Oct d)) (b : Fin d → ℕ)
    (φ ψ : Oct d → (Fin d → ℕ) → K) : K :=
  ∑ j, ((∑ c ∈ cellMesh b M, ∑ q ∈ nbrs (cellGrid G b) (cellMesh b M) c j 1,
    (weight D (cellGrid G b) j c q : K) * ((onBox b M φ c - onBox b M φ q) * (onBox b M ψ c - onBox b M ψ q))) +
  cellSum b M fun o x => ∑ s ∈ ({1, -1} : Finset ℤ),
    if absorbing j = false ∧ OnBoundary G b o x j s then
      ((faceArea D (cellGrid G b) j (cellOct b o x) / cellSize D (cellGrid G b) (cellOct b o x) j : ℚ) : K) *
        (φ o x * ψ o x)
    else 0)

/-! ### One side of a cell -/

variable {G : Grid d} {M : Finset (Oct d)} {b : Fin d → ℕ}

omit [Field K] in
theorem onBox_cell {o : Oct d} (ho : o ∈ M) {x : Fin d → ℕ} (hx : ∀ k, x k < b k) (φ : Oct d → (Fin d → ℕ) → K) :
    onBox b M φ (cellOct b o x) = φ o x := by
  unfold onBox
  rw [unbox_cell ho hx]

variable [CharZero K]

theorem length_face (j : Fin d) {s : ℤ} (hs : s ≠ 0) :
    (loops fun k => if faceOff j s k = 0 then [(0 : ℤ), 1] else [0]).length = 2 ^ (d - 1) := by
  rw [length_loops, ← Finset.mul_prod_erase Finset.univ _ (Finset.mem_univ j), faceOff_self, if_neg hs,
    Finset.prod_congr rfl (g := fun _ => 2), Finset.prod_const, Finset.card_erase_of_mem (Finset.mem_univ j),
    Finset.card_univ, Fintype.card_fin]
  · simp
  · intro k hk
    rw [faceOff_ne s (Finset.ne_of_mem_erase hk), if_pos rfl]
    rfl

/-- What `matprod` computes on one side inside the domain. -/
theorem side_value (hG : G.Pos) (hM : Tiling G M) (hB : Balanced G M) {D : Domain d} (hD : Domain.Ok D)
    (φ : Oct d → (Fin d → ℕ) → K) {o : Oct d} (ho : o ∈ M) {x : Fin d → ℕ} (hx : ∀ k, x k < b k) (j : Fin d) {s : ℤ}
    (hs : s = 1 ∨ s = -1) (hin : InDomain (cellGrid G b) o.level (target b o x (faceOff j s))) :
    ∃ r v, getNeighborGhost G M ⟨o, x, b, .localToBlock⟩ (faceOff j s) = some r ∧ r.status ≠ .boundary ∧
      getValue φ G M r (faceOff j s) = some v ∧
      (volume D (cellGrid G b) (cellOct b o x) : K) / (cellSize D (cellGrid G b) (cellOct b o x) j : K) * (φ o x - v) /
          stretch r.levelDiff (cellSize D (cellGrid G b) (cellOct b o x) j : K) =
        ∑ q ∈ nbrs (cellGrid G b) (cellMesh b M) (cellOct b o x) j s,
          (weight D (cellGrid G b) j (cellOct b o x) q : K) * (φ o x - onBox b M φ q) := by
  have hb : ∀ k, 0 < b k := fun k => by have := hx k; omega
  have hG' := cellGrid_pos hG hb
  have hov := hM.valid _ ho
  have hpos := cellSize_pos hG' hD (cellOct b o x) j
  have hK : ((cellSize D (cellGrid G b) (cellOct b o x) j : ℚ) : K) ≠ 0 := by exact_mod_cast hpos.ne'
  obtain ⟨r, h1, h2, h3, h4, hside⟩ := side hG hM hB ⟨o, x, b, .localToBlock⟩ ho hx rfl j hs hin
  have hrv := hM.valid _ h2
  -- one neighbour
  have one : r.status ≠ .boundary → r.levelDiff ≥ 0 → (o.level = r.oct.level ∨ o.level = r.oct.level + 1) →
      nbrs (cellGrid G b) (cellMesh b M) (cellOct b o x) j s = {cellOct b r.oct r.idx} →
      (stretch r.levelDiff (cellSize D (cellGrid G b) (cellOct b o x) j : K) =
        (centerDist D (cellGrid G b) j (cellOct b o x) (cellOct b r.oct r.idx) : K)) →
      ∃ r v, getNeighborGhost G M ⟨o, x, b, .localToBlock⟩ (faceOff j s) = some r ∧ r.status ≠ .boundary ∧
        getValue φ G M r (faceOff j s) = some v ∧
        (volume D (cellGrid G b) (cellOct b o x) : K) / (cellSize D (cellGrid G b) (cellOct b o x) j : K) *
            (φ o x - v) / stretch r.levelDiff (cellSize D (cellGrid G b) (cellOct b o x) j : K) =
          ∑ q ∈ nbrs (cellGrid G b) (cellMesh b M) (cellOct b o x) j s,
            (weight D (cellGrid G b) j (cellOct b o x) q : K) * (φ o x - onBox b M φ q) := by
    intro k1 k2 k3 k4 k5
    refine ⟨r, φ r.oct r.idx, h1, k1, ?_, ?_⟩
    · unfold getValue
      rw [if_neg k1, if_pos k2]
    · rw [k4, Finset.sum_singleton, k5, onBox_cell h2 h3, weight,
        ← area_of_le hG' hD (c := cellOct b o x) (q := cellOct b r.oct r.idx) hrv.1 k3 j]
      push_cast
      field_simp
  cases hside with
  | same st hl hn hp =>
    have hst' : r.status = .sameSize ∨ r.status = .localToBlock := by
      rcases st with st | st
      · right; rw [st]; rfl
      · exact Or.inl st
    have hld := (OneNeighbor.levelDiff_cases r).2.2 hst'
    refine one ?_ (by omega) (Or.inl hl.symm) hn ?_
    · rcases hst' with h | h <;> rw [h] <;> decide
    · have e : cellSize D (cellGrid G b) (cellOct b r.oct r.idx) j = cellSize D (cellGrid G b) (cellOct b o x) j := by
        rw [cellSize_eq D (cellOct b r.oct r.idx), cellSize_eq D (cellOct b o x)]
        rw [show (cellOct b r.oct r.idx).level = (cellOct b o x).level from hl]
      rw [hld]
      unfold stretch centerDist
      rw [e]
      push_cast
      ring
  | bigger st hl hn hp =>
    have hld := (OneNeighbor.levelDiff_cases r).2.1 st
    refine one (by rw [st]; decide) (by omega) (Or.inr hl.symm) hn ?_
    have e := cellSize_succ D (G := cellGrid G b) (c := cellOct b r.oct r.idx) (q := cellOct b o x) hrv.1 hl.symm j
    rw [hld]
    unfold stretch centerDist
    rw [e]
    push_cast
    norm_num
    field_simp
    ring
  | smaller st hl f hf hnd hn =>
    have hld := (OneNeighbor.levelDiff_cases r).1 st
    simp only at hl hf hnd hn
    have hlist : (foreachSmallerNeighbor true G M r (faceOff j s)).mapM id =
        some ((loops fun k => if faceOff j s k = 0 then [(0 : ℤ), 1] else [0]).map f) := by
      unfold foreachSmallerNeighbor
      rw [List.mapM_map]
      exact OneNeighbor.loops_mapM_some _ _ f fun δ hδ => (hf δ hδ).1
    refine ⟨r, (((loops fun k => if faceOff j s k = 0 then [(0 : ℤ), 1] else [0]).map f).map
      fun n => φ n.oct n.idx).sum / (((loops fun k => if faceOff j s k = 0 then [(0 : ℤ), 1] else [0]).map f).length : K),
      h1, by rw [st]; decide, ?_, ?_⟩
    · unfold getValue
      rw [if_neg (by rw [st]; decide), if_neg (by omega), hlist]
      rfl
    · have hsum : ∀ g : Oct d → K, ∑ q ∈ nbrs (cellGrid G b) (cellMesh b M) (cellOct b o x) j s, g q =
          ((loops (fun k => if faceOff j s k = 0 then [(0 : ℤ), 1] else [0])).map
            fun δ => g (cellOct b (f δ).oct (f δ).idx)).sum := by
        intro g
        have : nbrs (cellGrid G b) (cellMesh b M) (cellOct b o x) j s =
            ((loops (fun k => if faceOff j s k = 0 then [(0 : ℤ), 1] else [0])).map
              fun δ => cellOct b (f δ).oct (f δ).idx).toFinset := by
          ext q
          rw [hn q, List.mem_toFinset]
        rw [this, List.sum_toFinset _ hnd, List.map_map]
        rfl
      have hL := length_face j (s := s) (by omega)
      have hw : ∀ δ ∈ loops (fun k => if faceOff j s k = 0 then [(0 : ℤ), 1] else [0]),
          (weight D (cellGrid G b) j (cellOct b o x) (cellOct b (f δ).oct (f δ).idx) : K) *
              (φ o x - onBox b M φ (cellOct b (f δ).oct (f δ).idx)) =
            (volume D (cellGrid G b) (cellOct b o x) : K) /
              ((cellSize D (cellGrid G b) (cellOct b o x) j : K) * 2 ^ (d - 1)) /
              ((cellSize D (cellGrid G b) (cellOct b o x) j : K) * (3 / 4)) * (φ o x - φ (f δ).oct (f δ).idx) := by
        intro δ hδ
        obtain ⟨a1, a2, a3, a4, a5, a6⟩ := hf δ hδ
        rw [onBox_cell a2 a3, weight, centerDist,
          ← area_of_finer hG' hD (c := cellOct b o x) (q := cellOct b (f δ).oct (f δ).idx) hov.1 a5 j,
          cellSize_succ D (G := cellGrid G b) (c := cellOct b o x) (q := cellOct b (f δ).oct (f δ).idx) hov.1 a5 j]
        push_cast
        field_simp
        ring
      rw [hsum, List.map_congr_left hw, List.sum_map_mul_left, List.map_map, List.length_map, hL, hld]
      have hsub : ∀ l : List (Fin d → ℤ), (l.map fun δ => φ o x - φ (f δ).oct (f δ).idx).sum =
          (l.length : K) * φ o x - (l.map fun δ => φ (f δ).oct (f δ).idx).sum := by
        intro l
        induction l with
        | nil => simp
        | cons a l ih => simp only [List.map_cons, List.sum_cons, List.length_cons, ih]; push_cast; ring
      rw [hsub, hL]
      unfold stretch
      simp only [if_true, show ¬ (-1 : ℤ) = 1 by decide, if_false]
      have h2 : (2 : K) ^ (d - 1) ≠ 0 := pow_ne_zero _ (by norm_num)
      push_cast
      have e : (List.map ((fun n => φ n.oct n.idx) ∘ f) (loops fun k => if faceOff j s k = 0 then [(0 : ℤ), 1] else [0])).sum =
        (List.map (fun δ => φ (f δ).oct (f δ).idx) (loops fun k => if faceOff j s k = 0 then [(0 : ℤ), 1] else [0])).sum := rfl
      rw [e]
      field_simp

open Classical in
/-- What one side of a cell contributes to the operator. -/
noncomputable def sideOp (absorbing : Fin d → Bool) (D : Domain d) (G : Grid d) (M : Finset (Oct d)) (b : Fin d → ℕ)
    (φ : Oct d → (Fin d → ℕ) → K) (j : Fin d) (s : ℤ) (o : Oct d) (x : Fin d → ℕ) : K :=
  (∑ q ∈ nbrs (cellGrid G b) (cellMesh b M) (cellOct b o x) j s,
    (weight D (cellGrid G b) j (cellOct b o x) q : K) * (φ o x - onBox b M φ q)) +
  if absorbing j = false ∧ OnBoundary G b o x j s then
    ((faceArea D (cellGrid G b) j (cellOct b o x) / cellSize D (cellGrid G b) (cellOct b o x) j : ℚ) : K) * φ o x
  else 0

/-- The operator: the sum over the sides of a cell. -/
noncomputable def op (absorbing : Fin d → Bool) (D : Domain d) (G : Grid d) (M : Finset (Oct d)) (b : Fin d → ℕ)
    (φ : Oct d → (Fin d → ℕ) → K) (o : Oct d) (x : Fin d → ℕ) : K :=
  ∑ j, (sideOp absorbing D G M b φ j 1 o x + sideOp absorbing D G M b φ j (-1) o x)

theorem side_all (hG : G.Pos) (hM : Tiling G M) (hB : Balanced G M) {D : Domain d} (hD : Domain.Ok D)
    (absorbing : Fin d → Bool) (φ : Oct d → (Fin d → ℕ) → K) {o : Oct d} (ho : o ∈ M) {x : Fin d → ℕ}
    (hx : ∀ k, x k < b k) (j : Fin d) {s : ℤ} (hs : s = 1 ∨ s = -1) :
    ∃ r v, getNeighborGhost G M ⟨o, x, b, .localToBlock⟩ (faceOff j s) = some r ∧
      getValue φ G M r (faceOff j s) = some v ∧
      (if absorbing j && (r.status = .boundary) then 0 else
        (volume D (cellGrid G b) (cellOct b o x) : K) / (cellSize D (cellGrid G b) (cellOct b o x) j : K) *
          (φ o x - v) / stretch r.levelDiff (cellSize D (cellGrid G b) (cellOct b o x) j : K)) =
        sideOp absorbing D G M b φ j s o x := by
  by_cases hin : InDomain (cellGrid G b) o.level (target b o x (faceOff j s))
  · obtain ⟨r, v, h1, h2, h3, h4⟩ := side_value hG hM hB hD φ ho hx j hs hin
    refine ⟨r, v, h1, h3, ?_⟩
    have hnb : ¬ OnBoundary G b o x j s := not_not.2 hin
    unfold sideOp
    rw [if_neg (by simp [h2]), if_neg (fun h => hnb h.2), add_zero, h4]
  · have hb : ∀ k, 0 < b k := fun k => by have := hx k; omega
    have hpos := cellSize_pos (cellGrid_pos hG hb) hD (cellOct b o x) j
    have hK : ((cellSize D (cellGrid G b) (cellOct b o x) j : ℚ) : K) ≠ 0 := by exact_mod_cast hpos.ne'
    obtain ⟨r, h1, h2, h3⟩ := outside hG hM hB ⟨o, x, b, .localToBlock⟩ ho hx rfl j hs hin
    simp only at h3
    refine ⟨r, 0, h1, by unfold getValue; rw [if_pos h2], ?_⟩
    have hbd : OnBoundary G b o x j s := hin
    have hld : r.levelDiff = 0 := by unfold CellIndex.levelDiff; rw [h2]; rfl
    unfold sideOp
    rw [h3, Finset.sum_empty, zero_add, h2, hld]
    cases absorbing j with
    | true => simp
    | false =>
      rw [if_neg (by simp), if_pos ⟨rfl, hbd⟩, sub_zero, ← faceArea_mul D _ j]
      unfold stretch
      simp only [show ¬ (0 : ℤ) = -1 by decide, show ¬ (0 : ℤ) = 1 by decide, if_false]
      push_cast
      field_simp

/-- `matprod` is defined in every cell and computes the operator. -/
theorem matprod_eq (hG : G.Pos) (hM : Tiling G M) (hB : Balanced G M) {D : Domain d} (hD : Domain.Ok D)
    (absorbing : Fin d → Bool) (φ : Oct d → (Fin d → ℕ) → K) {o : Oct d} (ho : o ∈ M) {x : Fin d → ℕ}
    (hx : ∀ k, x k < b k) : matprod absorbing φ D G M b o x = some (op absorbing D G M b φ o x) := by
  have hb : ∀ k, 0 < b k := fun k => by have := hx k; omega
  have h := fun j => side_all hG hM hB hD absorbing φ ho hx j (Or.inl rfl)
  have h' := fun j => side_all hG hM hB hD absorbing φ ho hx j (s := -1) (Or.inr rfl)
  choose rR vR hR1 hR2 hR3 using h
  choose rL vL hL1 hL2 hL3 using h'
  unfold matprod
  rw [OneNeighbor.loops_mapM_some _ _ fun j =>
    -(sideOp absorbing D G M b φ j 1 o x + sideOp absorbing D G M b φ j (-1) o x)]
  · rw [Option.map_some, ← List.ofFn_eq_map, List.sum_ofFn, Finset.sum_neg_distrib, neg_neg]
    rfl
  · intro j _
    unfold matprodDir
    rw [hL1, hR1, Option.bind_some, Option.bind_some, hL2, hR2, Option.bind_some, Option.map_some,
      getCellSize_eq hG D ⟨o, x, b, .localToBlock⟩ hb j,
      Finset.prod_congr rfl fun k _ => getCellSize_eq hG D ⟨o, x, b, .localToBlock⟩ hb k, ← hR3, ← hL3]
    simp only
    congr 1
    rw [neg_add, sub_eq_add_neg]
    congr 1
    rw [← neg_sub (φ o x) (vR j)]
    split
    · rw [neg_zero]
    · unfold volume
      ring

/-! ### Theorems -/

theorem weight_symm (D : Domain d) (G : Grid d) (j : Fin d) (c q : Oct d) : weight D G j c q = weight D G j q c := by
  unfold weight centerDist
  rw [area_symm, add_comm]

open Classical in
omit [CharZero K] in
/-- The operator is that of the Dirichlet form. -/
theorem sum_op (hG : G.Pos) (hM : Tiling G M) (hb : ∀ k, 0 < b k) (D : Domain d) (absorbing : Fin d → Bool)
    (φ ψ : Oct d → (Fin d → ℕ) → K) :
    cellSum b M (fun o x => ψ o x * op absorbing D G M b φ o x) = form absorbing D G M b φ ψ := by
  have hG' := cellGrid_pos hG hb
  have hM' := cellMesh_tiling hG hb hM
  unfold op form
  simp only [Finset.mul_sum]
  rw [cellSum_comm]
  refine Finset.sum_congr rfl fun j _ => ?_
  simp only [mul_add]
  rw [cellSum_add]
  unfold sideOp
  simp only [mul_add]
  rw [cellSum_add, cellSum_add]
  have e : ∀ s, cellSum b M (fun o x => ψ o x * ∑ q ∈ nbrs (cellGrid G b) (cellMesh b M) (cellOct b o x) j s,
      (weight D (cellGrid G b) j (cellOct b o x) q : K) * (φ o x - onBox b M φ q)) =
      ∑ c ∈ cellMesh b M, ∑ q ∈ nbrs (cellGrid G b) (cellMesh b M) c j s,
        (weight D (cellGrid G b) j c q : K) * ((onBox b M φ c - onBox b M φ q) * onBox b M ψ c) := by
    intro s
    rw [← cellSum_box b fun c => ∑ q ∈ nbrs (cellGrid G b) (cellMesh b M) c j s,
        (weight D (cellGrid G b) j c q : K) * ((onBox b M φ c - onBox b M φ q) * onBox b M ψ c)]
    refine cellSum_congr fun o ho x hx => ?_
    rw [Finset.mul_sum]
    refine Finset.sum_congr rfl fun q _ => ?_
    rw [onBox_cell ho hx, onBox_cell ho hx]
    ring
  have key := sum_faces hG' hM' j fun c q =>
    (weight D (cellGrid G b) j c q : K) * ((onBox b M φ q - onBox b M φ c) * onBox b M ψ q)
  have e2 : ∑ c ∈ cellMesh b M, ∑ q ∈ nbrs (cellGrid G b) (cellMesh b M) c j (-1),
      (weight D (cellGrid G b) j c q : K) * ((onBox b M φ c - onBox b M φ q) * onBox b M ψ c) =
      ∑ c ∈ cellMesh b M, ∑ q ∈ nbrs (cellGrid G b) (cellMesh b M) c j (-1),
      (weight D (cellGrid G b) j q c : K) * ((onBox b M φ c - onBox b M φ q) * onBox b M ψ c) :=
    Finset.sum_congr rfl fun c _ => Finset.sum_congr rfl fun q _ => by rw [weight_symm]
  rw [e, e, e2, ← key]
  have e3 : ∑ c ∈ cellMesh b M, ∑ q ∈ nbrs (cellGrid G b) (cellMesh b M) c j 1,
      (weight D (cellGrid G b) j c q : K) * ((onBox b M φ c - onBox b M φ q) * (onBox b M ψ c - onBox b M ψ q)) =
      (∑ c ∈ cellMesh b M, ∑ q ∈ nbrs (cellGrid G b) (cellMesh b M) c j 1,
        (weight D (cellGrid G b) j c q : K) * ((onBox b M φ c - onBox b M φ q) * onBox b M ψ c)) +
      ∑ c ∈ cellMesh b M, ∑ q ∈ nbrs (cellGrid G b) (cellMesh b M) c j 1,
        (weight D (cellGrid G b) j c q : K) * ((onBox b M φ q - onBox b M φ c) * onBox b M ψ q) := by
    rw [← Finset.sum_add_distrib]
    refine Finset.sum_congr rfl fun c _ => ?_
    rw [← Finset.sum_add_distrib]
    exact Finset.sum_congr rfl fun q _ => by ring
  rw [e3]
  have e4 : (cellSum b M fun o x => ∑ s ∈ ({1, -1} : Finset ℤ),
      if absorbing j = false ∧ OnBoundary G b o x j s then
        ((faceArea D (cellGrid G b) j (cellOct b o x) / cellSize D (cellGrid G b) (cellOct b o x) j : ℚ) : K) *
          (φ o x * ψ o x)
      else 0) =
      (cellSum b M fun o x => ψ o x * if absorbing j = false ∧ OnBoundary G b o x j 1 then
        ((faceArea D (cellGrid G b) j (cellOct b o x) / cellSize D (cellGrid G b) (cellOct b o x) j : ℚ) : K) * φ o x
        else 0) +
      cellSum b M fun o x => ψ o x * if absorbing j = false ∧ OnBoundary G b o x j (-1) then
        ((faceArea D (cellGrid G b) j (cellOct b o x) / cellSize D (cellGrid G b) (cellOct b o x) j : ℚ) : K) * φ o x
        else 0 := by
    rw [← cellSum_add]
    refine cellSum_congr fun o _ x _ => ?_
    rw [Finset.sum_pair (by decide), mul_ite, mul_ite, mul_zero]
    congr 1 <;> (split <;> ring)
  rw [e4]
  ring

omit [CharZero K] in
theorem form_symm (absorbing : Fin d → Bool) (D : Domain d) (φ ψ : Oct d → (Fin d → ℕ) → K) :
    form absorbing D G M b φ ψ = form absorbing D G M b ψ φ := by
  unfold form
  refine Finset.sum_congr rfl fun j _ => ?_
  congr 1
  · exact Finset.sum_congr rfl fun c _ => Finset.sum_congr rfl fun q _ => by ring
  · refine cellSum_congr fun o _ x _ => Finset.sum_congr rfl fun s _ => ?_
    rw [mul_comm (φ o x)]

/-- C49 (symmetry): `matprod` is defined in all cells for all potentials, and it is symmetric. -/
theorem C49_symmetric (hG : G.Pos) (hM : Tiling G M) (hB : Balanced G M) {D : Domain d} (hD : Domain.Ok D)
    (hb : ∀ k, 0 < b k) (absorbing : Fin d → Bool) :
    ∃ A : (Oct d → (Fin d → ℕ) → K) → Oct d → (Fin d → ℕ) → K,
      (∀ φ, ∀ o ∈ M, ∀ x : Fin d → ℕ, (∀ k, x k < b k) → matprod absorbing φ D G M b o x = some (A φ o x)) ∧
      ∀ φ ψ, cellSum b M (fun o x => ψ o x * A φ o x) = cellSum b M (fun o x => φ o x * A ψ o x) :=
  ⟨op absorbing D G M b, fun φ _ ho _ hx => matprod_eq hG hM hB hD absorbing φ ho hx, fun φ ψ => by
    rw [sum_op hG hM hb, sum_op hG hM hb, form_symm]⟩

section
variable {F : Type} [Field F] [LinearOrder F] [IsStrictOrderedRing F]

theorem weight_pos (hG : G.Pos) {D : Domain d} (hD : Domain.Ok D) (j : Fin d) (c q : Oct d) : 0 < weight D G j c q := by
  unfold weight centerDist
  have h1 := cellSize_pos hG hD c j
  have h2 := cellSize_pos hG hD q j
  exact div_pos (area_pos hG hD j c q) (by linarith)

theorem faceArea_pos (hG : G.Pos) {D : Domain d} (hD : Domain.Ok D) (j : Fin d) (c : Oct d) : 0 < faceArea D G j c :=
  Finset.prod_pos fun k _ => cellSize_pos hG hD c k

theorem form_nonneg (hG : G.Pos) {D : Domain d} (hD : Domain.Ok D) (hb : ∀ k, 0 < b k) (absorbing : Fin d → Bool)
    (φ : Oct d → (Fin d → ℕ) → F) : 0 ≤ form absorbing D G M b φ φ := by
  have hG' := cellGrid_pos hG hb
  unfold form
  refine Finset.sum_nonneg fun j _ => add_nonneg ?_ ?_
  · refine Finset.sum_nonneg fun c _ => Finset.sum_nonneg fun q _ => mul_nonneg ?_ (mul_self_nonneg _)
    exact_mod_cast (weight_pos hG' hD j c q).le
  · unfold cellSum
    refine Finset.sum_nonneg fun o _ => Finset.sum_nonneg fun x _ => Finset.sum_nonneg fun s _ => ?_
    split
    · refine mul_nonneg ?_ (mul_self_nonneg _)
      exact_mod_cast (div_pos (faceArea_pos hG' hD j _) (cellSize_pos hG' hD _ j)).le
    · exact le_rfl

/-- The potentials of energy 0. -/
theorem form_eq_zero (hG : G.Pos) {D : Domain d} (hD : Domain.Ok D) (hb : ∀ k, 0 < b k) (absorbing : Fin d → Bool)
    (φ : Oct d → (Fin d → ℕ) → F) (h : form absorbing D G M b φ φ = 0) (j : Fin d) :
    (∀ c ∈ cellMesh b M, ∀ q ∈ nbrs (cellGrid G b) (cellMesh b M) c j 1, onBox b M φ c = onBox b M φ q) ∧
      (absorbing j = false → ∀ o ∈ M, ∀ x : Fin d → ℕ, (∀ k, x k < b k) → ∀ s : ℤ, s = 1 ∨ s = -1 →
        OnBoundary G b o x j s → φ o x = 0) := by
  have hG' := cellGrid_pos hG hb
  have w0 : ∀ j c q, 0 < (weight D (cellGrid G b) j c q : F) := fun j c q => by
    exact_mod_cast weight_pos hG' hD j c q
  have f0 : ∀ j c, 0 < ((faceArea D (cellGrid G b) j c / cellSize D (cellGrid G b) c j : ℚ) : F) := fun j c => by
    exact_mod_cast div_pos (faceArea_pos hG' hD j _) (cellSize_pos hG' hD _ j)
  have n1 : ∀ j, ∀ c ∈ cellMesh b M, 0 ≤ ∑ q ∈ nbrs (cellGrid G b) (cellMesh b M) c j 1,
      (weight D (cellGrid G b) j c q : F) * ((onBox b M φ c - onBox b M φ q) * (onBox b M φ c - onBox b M φ q)) :=
    fun j c _ => Finset.sum_nonneg fun q _ => mul_nonneg (w0 j c q).le (mul_self_nonneg _)
  have n2 : ∀ j o x, ∀ s ∈ ({1, -1} : Finset ℤ), 0 ≤ (open Classical in
      if absorbing j = false ∧ OnBoundary G b o x j s then
      ((faceArea D (cellGrid G b) j (cellOct b o x) / cellSize D (cellGrid G b) (cellOct b o x) j : ℚ) : F) *
        (φ o x * φ o x) else 0) := by
    intro j o x s _
    split
    · exact mul_nonneg (f0 j _).le (mul_self_nonneg _)
    · exact le_rfl
  unfold form cellSum at h
  rw [Finset.sum_eq_zero_iff_of_nonneg fun j _ => add_nonneg (Finset.sum_nonneg (n1 j))
    (Finset.sum_nonneg fun o _ => Finset.sum_nonneg fun x _ => Finset.sum_nonneg (n2 j o x))] at h
  have hj := h j (Finset.mem_univ j)
  rw [add_eq_zero_iff_of_nonneg (Finset.sum_nonneg (n1 j))
    (Finset.sum_nonneg fun o _ => Finset.sum_nonneg fun x _ => Finset.sum_nonneg (n2 j o x))] at hj
  constructor
  · intro c hc q hq
    have h1 := (Finset.sum_eq_zero_iff_of_nonneg (n1 j)).1 hj.1 c hc
    have h2 := (Finset.sum_eq_zero_iff_of_nonneg fun q _ => mul_nonneg (w0 j c q).le (mul_self_nonneg _)).1 h1 q hq
    have h3 := (mul_eq_zero.1 h2).resolve_left (w0 j c q).ne'
    exact sub_eq_zero.1 (mul_self_eq_zero.1 h3)
  · intro ha o ho x hx s hs hbd
    have h1 := (Finset.sum_eq_zero_iff_of_nonneg fun o _ => Finset.sum_nonneg fun x _ =>
      Finset.sum_nonneg (n2 j o x)).1 hj.2 o ho
    have h2 := (Finset.sum_eq_zero_iff_of_nonneg fun x _ => Finset.sum_nonneg (n2 j o x)).1 h1 x
      (Fintype.mem_piFinset.2 fun k => Finset.mem_range.2 (hx k))
    have h3 := (Finset.sum_eq_zero_iff_of_nonneg (n2 j o x)).1 h2 s (by
      rcases hs with rfl | rfl <;> simp)
    rw [if_pos ⟨ha, hbd⟩] at h3
    exact mul_self_eq_zero.1 ((mul_eq_zero.1 h3).resolve_left (f0 j _).ne')

/-- C49 (positivity): the energy of a potential is not negative; it is 0 only if adjacent cells have the same
potential and cells on a boundary with fixed potential have potential 0. -/
theorem C49_positive (hG : G.Pos) (hM : Tiling G M) (hB : Balanced G M) {D : Domain d} (hD : Domain.Ok D)
    (hb : ∀ k, 0 < b k) (absorbing : Fin d → Bool) (φ : Oct d → (Fin d → ℕ) → F) :
    ∃ A : Oct d → (Fin d → ℕ) → F,
      (∀ o ∈ M, ∀ x : Fin d → ℕ, (∀ k, x k < b k) → matprod absorbing φ D G M b o x = some (A o x)) ∧
      0 ≤ cellSum b M (fun o x => φ o x * A o x) ∧
      (cellSum b M (fun o x => φ o x * A o x) = 0 → ∀ o ∈ M, ∀ x : Fin d → ℕ, (∀ k, x k < b k) →
        (∀ j, ∀ o' ∈ M, ∀ y : Fin d → ℕ, (∀ k, y k < b k) →
          cellOct b o' y ∈ nbrs (cellGrid G b) (cellMesh b M) (cellOct b o x) j 1 → φ o x = φ o' y) ∧
        ∀ j, absorbing j = false → ∀ s : ℤ, s = 1 ∨ s = -1 → OnBoundary G b o x j s → φ o x = 0) := by
  refine ⟨op absorbing D G M b φ, fun o ho x hx => matprod_eq hG hM hB hD absorbing φ ho hx, ?_, ?_⟩
  · rw [sum_op hG hM hb]
    exact form_nonneg hG hD hb absorbing φ
  · intro h o ho x hx
    rw [sum_op hG hM hb] at h
    refine ⟨fun j o' ho' y hy hq => ?_, fun j ha s hs => (form_eq_zero hG hD hb absorbing φ h j).2 ha o ho x hx s hs⟩
    have := (form_eq_zero hG hD hb absorbing φ h j).1 _ (mem_cellMesh.2 ⟨_, ho, _, hx, rfl⟩) _ hq
    rwa [onBox_cell ho hx, onBox_cell ho' hy] at this

end

end Verif.Gravity
