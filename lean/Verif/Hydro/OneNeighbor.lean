import Verif.Flux.Balance
import Mathlib.Algebra.CharZero.Quotient
import Mathlib.Data.Rat.Cast.CharZero

/-!
# C45: the update of `HydroUpdate_hancock_oneneighbor`

Model of `compute_fluxes_and_update` (`core/src/hydro/HydroUpdate_hancock_oneneighbor.cpp` L177-409) for
one conserved variable. The reconstruction in a cell (L241-276) and the Riemann solver are arbitrary
functions of what the code passes to them. Arithmetic is exact.
-/

namespace Verif.Hydro.OneNeighbor

open Verif.Octree Verif.Cells Verif.Flux

variable {d : ℕ} {K S : Type} [Field K]

/-! ### Model -/

/-- What the kernel reads besides the mesh. `recon o x offsets size` is the state reconstructed in
cell `x` of octant `o` (L241-276), `flux` the Riemann flux (L205-216), `bflux` the flux at a boundary
(L289-297). -/
structure Scheme (d : ℕ) (K S : Type) where
  recon : Oct d → (Fin d → ℕ) → (Fin d → ℚ) → (Fin d → ℚ) → S
  flux : Fin d → S → S → K
  bflux : Oct d → (Fin d → ℕ) → Fin d → ℤ → K

/-- L205-215: left and right state according to the side of the neighbour. -/
def Scheme.riemann (H : Scheme d K S) (j : Fin d) (s : ℤ) (qc qn : S) : K :=
  if s < 0 then H.flux j qn qc else H.flux j qc qn

/-- L324-343: where the neighbour is reconstructed if it is not smaller. -/
def offsetsN (D : Domain d) (G : Grid d) (c r : CellIndex d) (j : Fin d) (s : ℤ) (k : Fin d) : ℚ :=
  -(faceOff j s k : ℚ) +
    if r.levelDiff > 0 ∧ k ≠ j then (if getCellCenter D G c k > getCellCenter D G r k then 1 / 2 else -(1 / 2))
    else 0

/-- L368-376: where the current cell is reconstructed if the neighbours are smaller. -/
def offsetsC (j : Fin d) (s : ℤ) (δ : Fin d → ℤ) (k : Fin d) : ℚ :=
  if faceOff j s k ≠ 0 then (faceOff j s k : ℚ) else (δ k : ℚ) - 1 / 2

/-- `process_dir` L279-396: what is added to the conserved variable of the cell (`none`: undefined
behaviour). The loops L354-359 over smaller neighbours visit the offsets of
`foreach_smaller_neighbor`. -/
def processDir (H : Scheme d K S) (D : Domain d) (G : Grid d) (M : Finset (Oct d)) (dt : K)
    (c : CellIndex d) (j : Fin d) (s : ℤ) : Option K :=
  let sizeC := getCellSize D G c
  match getNeighborGhost G M c (faceOff j s) with
  | none => none
  | some r =>
    if r.status = .boundary then
      some (H.bflux c.oct c.idx j s * (-s * dt / (sizeC j : ℚ)))
    else if r.levelDiff ≥ 0 then
      let qc := H.recon c.oct c.idx (fun k => faceOff j s k) sizeC
      let qn := H.recon r.oct r.idx (offsetsN D G c r j s) (getCellSize D G r)
      some (H.riemann j s qc qn * (-s * dt / (sizeC j : ℚ)))
    else
      ((loops fun k => if faceOff j s k = 0 then [(0 : ℤ), 1] else [0]).mapM fun δ =>
        (getNeighborGhost G M r δ).map fun n =>
          let qc := H.recon c.oct c.idx (offsetsC j s δ) sizeC
          let qn := H.recon n.oct n.idx (fun k => -(faceOff j s k : ℚ)) (getCellSize D G r)
          H.riemann j s qc qn * (-s * dt / ((sizeC j * (((d - 1) * 2 : ℕ) : ℚ) : ℚ)))).map List.sum

/-- L398-408: the updated variable. -/
def updateCell (H : Scheme d K S) (D : Domain d) (G : Grid d) (M : Finset (Oct d)) (dt : K) (U : K)
    (c : CellIndex d) : Option K :=
  ((List.finRange d).mapM fun j =>
    (processDir H D G M dt c j 1).bind fun a => (processDir H D G M dt c j (-1)).map fun b => a + b).map
      fun l => U + l.sum

/-! ### Fluxes between cells -/

variable {G : Grid d} {M : Finset (Oct d)}

/-- Where the middle of the common face of `c` and `q` is, in half sizes from the middle of `c`. -/
def contact (c q : Oct d) (j : Fin d) (s : ℤ) (k : Fin d) : ℚ :=
  if k = j then s else if q.level = c.level + 1 then (q.pos k : ℚ) - 2 * c.pos k - 1 / 2 else 0

/-- The state of cell `q` at its face with `c`. -/
noncomputable def faceState (H : Scheme d K S) (D : Domain d) (G : Grid d) (M : Finset (Oct d))
    (b : Fin d → ℕ) (c q : Oct d) (j : Fin d) (s : ℤ) : S :=
  H.recon (unbox b M c).1 (unbox b M c).2 (contact c q j s) (cellSize D (cellGrid G b) c)

/-- The flux from `c` to its upper neighbour `q`. -/
noncomputable def pairFlux (H : Scheme d K S) (D : Domain d) (G : Grid d) (M : Finset (Oct d))
    (b : Fin d → ℕ) (j : Fin d) (c q : Oct d) : K :=
  H.flux j (faceState H D G M b c q j 1) (faceState H D G M b q c j (-1))

theorem loops_mapM_some {α β : Type} (l : List α) (f : α → Option β) (g : α → β)
    (h : ∀ a ∈ l, f a = some (g a)) : l.mapM f = some (l.map g) := by
  induction l with
  | nil => rfl
  | cons a l ih =>
    rw [List.mapM_cons, h a (by simp), ih fun x hx => h x (by simp [hx])]
    rfl

/-- The two sides of a face agree on where it is. -/
theorem offsetsN_eq (hG : G.Pos) {D : Domain d} (hD : Domain.Ok D) {c r : CellIndex d}
    (hb : ∀ k, 0 < c.b k) (hrb : r.b = c.b)
    {j : Fin d} {s : ℤ} (hl : r.levelDiff > 0 → r.oct.level + 1 = c.oct.level ∧ ∀ k, k ≠ j →
      (cellOct c.b r.oct r.idx).pos k = (cellOct c.b c.oct c.idx).pos k / 2)
    (hl' : ¬ r.levelDiff > 0 → r.oct.level = c.oct.level) (hr : G.lmin ≤ r.oct.level) :
    offsetsN D G c r j s = contact (cellOct c.b r.oct r.idx) (cellOct c.b c.oct c.idx) j (-s) := by
  funext k
  unfold offsetsN contact
  by_cases hk : k = j
  · subst hk
    rw [if_neg (by simp), if_pos rfl, faceOff_self]
    push_cast
    ring
  · rw [if_neg hk, faceOff_ne s hk]
    by_cases hd : r.levelDiff > 0
    · obtain ⟨e1, e2⟩ := hl hd
      have hlev : (cellOct c.b c.oct c.idx).level = (cellOct c.b r.oct r.idx).level + 1 := e1.symm
      rw [if_pos ⟨hd, hk⟩, if_pos hlev]
      rw [C26_center hG D c hb, C26_center hG D r (by rw [hrb]; exact hb), hrb]
      have hp := e2 k hk
      have hL : 0 < D.xmax k - D.xmin k := sub_pos.2 (hD k)
      have h0 : (0 : ℚ) < (cellGrid G c.b).count k r.oct.level := by
        exact_mod_cast count_pos (cellGrid_pos hG hb) k _
      have h1 : lo (cellGrid G c.b) (cellOct c.b c.oct c.idx) k +
          hi (cellGrid G c.b) (cellOct c.b c.oct c.idx) k =
            (2 * ((cellOct c.b c.oct c.idx).pos k : ℚ) + 1) /
              (2 * (cellGrid G c.b).count k r.oct.level) := by
        unfold lo hi
        have : (cellOct c.b c.oct c.idx).level = r.oct.level + 1 := e1.symm
        rw [this, count_cell_succ hr]
        push_cast
        ring
      have h2 : lo (cellGrid G c.b) (cellOct c.b r.oct r.idx) k +
          hi (cellGrid G c.b) (cellOct c.b r.oct r.idx) k =
            (2 * ((cellOct c.b r.oct r.idx).pos k : ℚ) + 1) / (cellGrid G c.b).count k r.oct.level := by
        unfold lo hi
        change _ / ((cellGrid G c.b).count k r.oct.level : ℚ) +
          _ / ((cellGrid G c.b).count k r.oct.level : ℚ) = _
        ring
      have hcmp : (D.xmin k + (lo (cellGrid G c.b) (cellOct c.b c.oct c.idx) k +
            hi (cellGrid G c.b) (cellOct c.b c.oct c.idx) k) / 2 * (D.xmax k - D.xmin k) >
          D.xmin k + (lo (cellGrid G c.b) (cellOct c.b r.oct r.idx) k +
            hi (cellGrid G c.b) (cellOct c.b r.oct r.idx) k) / 2 * (D.xmax k - D.xmin k)) ↔
          2 * (2 * ((cellOct c.b r.oct r.idx).pos k : ℚ) + 1) <
            2 * ((cellOct c.b c.oct c.idx).pos k : ℚ) + 1 := by
        rw [h1, h2, gt_iff_lt, add_lt_add_iff_left, mul_lt_mul_iff_left₀ hL,
          div_lt_div_iff_of_pos_right two_pos, div_lt_div_iff₀ h0 (by positivity)]
        constructor
        · intro h
          by_contra hcon
          push Not at hcon
          nlinarith
        · intro h
          nlinarith
      rw [if_congr hcmp rfl rfl, hp]
      generalize (cellOct c.b c.oct c.idx).pos k = p
      have hpp : p = 2 * (p / 2) + p % 2 := by omega
      have hm : p % 2 = 0 ∨ p % 2 = 1 := by omega
      rcases hm with hm | hm
      · rw [hm] at hpp
        have hq : (p : ℚ) = 2 * ((p / 2 : ℕ) : ℚ) := by exact_mod_cast hpp
        rw [hq]
        generalize ((p / 2 : ℕ) : ℚ) = m
        rw [if_neg (by intro h; linarith)]
        push_cast; ring
      · rw [hm] at hpp
        have hq : (p : ℚ) = 2 * ((p / 2 : ℕ) : ℚ) + 1 := by exact_mod_cast hpp
        rw [hq]
        generalize ((p / 2 : ℕ) : ℚ) = m
        rw [if_pos (by linarith)]
        push_cast; ring
    · rw [if_neg (by tauto), if_neg]
      · push_cast; ring
      · have h1 := hl' hd
        change ¬ c.oct.level = r.oct.level + 1
        omega

theorem offsetsC_eq {c q : Oct d} {j : Fin d} {s : ℤ} (hs : s = 1 ∨ s = -1) {δ : Fin d → ℤ}
    (hl : q.level = c.level + 1) (hp : ∀ k, k ≠ j → (q.pos k : ℤ) = 2 * c.pos k + δ k) :
    offsetsC j s δ = contact c q j s := by
  funext k
  unfold offsetsC contact
  by_cases hk : k = j
  · subst hk
    rw [if_pos (by rw [faceOff_self]; omega), if_pos rfl, faceOff_self]
  · rw [if_neg (by rw [faceOff_ne s hk]; simp), if_neg hk, if_pos hl]
    have : (q.pos k : ℚ) = 2 * c.pos k + δ k := by exact_mod_cast hp k hk
    rw [this]
    ring

theorem contact_coarse {c q : Oct d} {j : Fin d} {s : ℤ} (hl : q.level ≤ c.level) :
    contact c q j s = fun k => (faceOff j s k : ℚ) := by
  funext k
  unfold contact faceOff
  by_cases hk : k = j
  · rw [if_pos hk, if_pos hk]
  · rw [if_neg hk, if_neg hk, if_neg (by omega)]; simp

theorem pow_eq_of_dim (hd : d = 2 ∨ d = 3) : (((d - 1) * 2 : ℕ) : ℚ) = 2 ^ (d - 1) := by
  rcases hd with rfl | rfl <;> norm_num

variable [CharZero K]

theorem levelDiff_cases (r : CellIndex d) :
    (r.status = .smaller → r.levelDiff = -1) ∧ (r.status = .bigger → r.levelDiff = 1) ∧
      (r.status = .sameSize ∨ r.status = .localToBlock → r.levelDiff = 0) := by
  unfold CellIndex.levelDiff
  refine ⟨fun h => ?_, fun h => ?_, fun h => ?_⟩
  · rw [h]; rfl
  · rw [h]; rfl
  · rcases h with h | h <;> rw [h] <;> rfl

/-- What one side of a cell contributes: the fluxes through the faces with the cells on that side. -/
theorem processDir_eq (hG : G.Pos) (hM : Tiling G M) (hB : Balanced G M) (hd : d = 2 ∨ d = 3)
    {D : Domain d} (hD : Domain.Ok D) (H : Scheme d K S) (dt : K)
    (c : CellIndex d) (hc : c.oct ∈ M) (hx : ∀ k, c.idx k < c.b k) (hst : c.status = .localToBlock)
    (j : Fin d) {s : ℤ} (hs : s = 1 ∨ s = -1)
    (hin : InDomain (cellGrid G c.b) c.oct.level (target c.b c.oct c.idx (faceOff j s))) :
    ∃ a, processDir H D G M dt c j s = some a ∧
      (volume D (cellGrid G c.b) (cellOct c.b c.oct c.idx) : K) * a = -s * dt *
        ∑ q ∈ nbrs (cellGrid G c.b) (cellMesh c.b M) (cellOct c.b c.oct c.idx) j s,
          (area D (cellGrid G c.b) j (cellOct c.b c.oct c.idx) q : K) *
            H.riemann j s (faceState H D G M c.b (cellOct c.b c.oct c.idx) q j s)
              (faceState H D G M c.b q (cellOct c.b c.oct c.idx) j (-s)) := by
  have hb : ∀ k, 0 < c.b k := fun k => by have := hx k; omega
  have hG' := cellGrid_pos hG hb
  have ho := hM.valid _ hc
  have hs0 := cellSize_pos hG' hD (cellOct c.b c.oct c.idx) j
  have hsize : getCellSize D G c = cellSize D (cellGrid G c.b) (cellOct c.b c.oct c.idx) :=
    funext fun k => getCellSize_eq hG D c hb k
  have hunc : unbox c.b M (cellOct c.b c.oct c.idx) = (c.oct, c.idx) := unbox_cell hc hx
  obtain ⟨r, h1, h2, h3, h4, hside⟩ := side hG hM hB c hc hx hst j hs hin
  have hor := hM.valid _ h2
  have hsizer : getCellSize D G r = cellSize D (cellGrid G c.b) (cellOct c.b r.oct r.idx) :=
    funext fun k => by
      have := getCellSize_eq hG D r (by rw [h4]; exact hb) k
      rw [h4] at this
      exact this
  have hsK : ((cellSize D (cellGrid G c.b) (cellOct c.b c.oct c.idx) j : ℚ) : K) ≠ 0 := by
    exact_mod_cast hs0.ne'
  -- one neighbour that is not smaller
  have one : r.status ≠ .boundary → r.levelDiff ≥ 0 →
      (c.oct.level = r.oct.level ∨ c.oct.level = r.oct.level + 1) →
      offsetsN D G c r j s = contact (cellOct c.b r.oct r.idx) (cellOct c.b c.oct c.idx) j (-s) →
      nbrs (cellGrid G c.b) (cellMesh c.b M) (cellOct c.b c.oct c.idx) j s =
        {cellOct c.b r.oct r.idx} → ∃ a, processDir H D G M dt c j s = some a ∧
      (volume D (cellGrid G c.b) (cellOct c.b c.oct c.idx) : K) * a = -s * dt *
        ∑ q ∈ nbrs (cellGrid G c.b) (cellMesh c.b M) (cellOct c.b c.oct c.idx) j s,
          (area D (cellGrid G c.b) j (cellOct c.b c.oct c.idx) q : K) *
            H.riemann j s (faceState H D G M c.b (cellOct c.b c.oct c.idx) q j s)
              (faceState H D G M c.b q (cellOct c.b c.oct c.idx) j (-s)) := by
    intro k1 k2 k3 k4 k5
    unfold processDir
    rw [h1]
    simp only
    rw [if_neg k1, if_pos k2]
    refine ⟨_, rfl, ?_⟩
    rw [k5, Finset.sum_singleton, k4, ← contact_coarse (c := cellOct c.b c.oct c.idx)
      (q := cellOct c.b r.oct r.idx) (by change r.oct.level ≤ c.oct.level; omega), hsize, hsizer]
    unfold faceState
    rw [hunc, unbox_cell h2 h3]
    simp only
    rw [← area_of_le hG' hD (c := cellOct c.b c.oct c.idx) (q := cellOct c.b r.oct r.idx) hor.1 k3 j]
    push_cast
    field_simp
  cases hside with
  | same st hl hn hp =>
    have hst' : r.status = .sameSize ∨ r.status = .localToBlock := by
      rcases st with st | st
      · right; rw [st, hst]; rfl
      · exact Or.inl st
    have hld := (levelDiff_cases r).2.2 hst'
    refine one ?_ (by omega) (Or.inl hl.symm) ?_ hn
    · rcases hst' with h | h <;> rw [h] <;> decide
    · exact offsetsN_eq hG hD hb h4 (fun h => by omega) (fun _ => hl) hor.1
  | bigger st hl hn hp =>
    have hld := (levelDiff_cases r).2.1 st
    refine one (by rw [st]; decide) (by omega) (Or.inr hl.symm) ?_ hn
    exact offsetsN_eq hG hD hb h4 (fun _ => ⟨hl, hp⟩) (fun h => by omega) hor.1
  | smaller st hl f hf hnd hn =>
    have hld := (levelDiff_cases r).1 st
    unfold processDir
    rw [h1]
    simp only
    rw [if_neg (by rw [st]; decide), if_neg (by omega)]
    rw [loops_mapM_some _ _ (fun δ => H.riemann j s
        (faceState H D G M c.b (cellOct c.b c.oct c.idx) (cellOct c.b (f δ).oct (f δ).idx) j s)
        (faceState H D G M c.b (cellOct c.b (f δ).oct (f δ).idx) (cellOct c.b c.oct c.idx) j (-s)) *
        (-s * dt / ((cellSize D (cellGrid G c.b) (cellOct c.b c.oct c.idx) j * 2 ^ (d - 1) : ℚ) : K)))]
    · refine ⟨_, rfl, ?_⟩
      have hsum : ∀ g : Oct d → K, ∑ q ∈ nbrs (cellGrid G c.b) (cellMesh c.b M)
          (cellOct c.b c.oct c.idx) j s, g q =
            ((loops (fun k => if faceOff j s k = 0 then [(0 : ℤ), 1] else [0])).map
              fun δ => g (cellOct c.b (f δ).oct (f δ).idx)).sum := by
        intro g
        have : nbrs (cellGrid G c.b) (cellMesh c.b M) (cellOct c.b c.oct c.idx) j s =
            ((loops (fun k => if faceOff j s k = 0 then [(0 : ℤ), 1] else [0])).map
              fun δ => cellOct c.b (f δ).oct (f δ).idx).toFinset := by
          ext q
          rw [hn q, List.mem_toFinset]
        rw [this, List.sum_toFinset _ hnd, List.map_map]
        rfl
      rw [hsum, ← List.sum_map_mul_left, ← List.sum_map_mul_left]
      refine congrArg List.sum (List.map_congr_left fun δ hδ => ?_)
      obtain ⟨a1, a2, a3, a4, a5, a6⟩ := hf δ hδ
      rw [← area_of_finer hG' hD (c := cellOct c.b c.oct c.idx)
        (q := cellOct c.b (f δ).oct (f δ).idx) ho.1 a5 j]
      have : ((2 : ℚ) ^ (d - 1) : ℚ) ≠ 0 := by positivity
      push_cast
      field_simp
    · intro δ hδ
      obtain ⟨a1, a2, a3, a4, a5, a6⟩ := hf δ hδ
      rw [a1, Option.map_some, pow_eq_of_dim hd]
      congr 1
      have hcell : cellSize D (cellGrid G c.b) (cellOct c.b r.oct r.idx) =
          cellSize D (cellGrid G c.b) (cellOct c.b (f δ).oct (f δ).idx) := by
        funext k
        rw [cellSize_eq, cellSize_eq]
        change _ / (((cellGrid G c.b).count k r.oct.level : ℕ) : ℚ) =
          _ / (((cellGrid G c.b).count k (f δ).oct.level : ℕ) : ℚ)
        rw [hl, a5]
      rw [hsize, hsizer, hcell, offsetsC_eq (c := cellOct c.b c.oct c.idx)
        (q := cellOct c.b (f δ).oct (f δ).idx) hs a5 a6]
      have hct : (fun k => -(faceOff j s k : ℚ)) =
          contact (cellOct c.b (f δ).oct (f δ).idx) (cellOct c.b c.oct c.idx) j (-s) := by
        rw [contact_coarse (by change c.oct.level ≤ (f δ).oct.level; omega)]
        funext k
        unfold faceOff
        split <;> simp
      rw [hct]
      unfold faceState
      rw [hunc, unbox_cell a2 a3]

/-- What one side of a cell contributes on the boundary of the domain. -/
theorem processDir_boundary (hG : G.Pos) (hM : Tiling G M) (hB : Balanced G M)
    {D : Domain d} (hD : Domain.Ok D) (H : Scheme d K S) (dt : K)
    (c : CellIndex d) (hc : c.oct ∈ M) (hx : ∀ k, c.idx k < c.b k) (hst : c.status = .localToBlock)
    (j : Fin d) {s : ℤ} (hs : s = 1 ∨ s = -1)
    (hin : ¬ InDomain (cellGrid G c.b) c.oct.level (target c.b c.oct c.idx (faceOff j s))) :
    ∃ a, processDir H D G M dt c j s = some a ∧
      (volume D (cellGrid G c.b) (cellOct c.b c.oct c.idx) : K) * a = -s * dt *
        ((faceArea D (cellGrid G c.b) j (cellOct c.b c.oct c.idx) : K) * H.bflux c.oct c.idx j s) := by
  have hb : ∀ k, 0 < c.b k := fun k => by have := hx k; omega
  have hs0 := cellSize_pos (cellGrid_pos hG hb) hD (cellOct c.b c.oct c.idx) j
  have hsK : ((cellSize D (cellGrid G c.b) (cellOct c.b c.oct c.idx) j : ℚ) : K) ≠ 0 := by
    exact_mod_cast hs0.ne'
  obtain ⟨r, h1, h2, -⟩ := outside hG hM hB c hc hx hst j hs hin
  unfold processDir
  rw [h1]
  simp only
  rw [if_pos h2]
  refine ⟨_, rfl, ?_⟩
  rw [getCellSize_eq hG D c hb, ← faceArea_mul D _ j]
  push_cast
  field_simp

open Classical in
/-- The flux out of one side of a cell. -/
noncomputable def sideFlux (H : Scheme d K S) (D : Domain d) (G : Grid d) (M : Finset (Oct d))
    (b : Fin d → ℕ) (j : Fin d) (s : ℤ) (o : Oct d) (x : Fin d → ℕ) : K :=
  (∑ q ∈ nbrs (cellGrid G b) (cellMesh b M) (cellOct b o x) j s,
    (area D (cellGrid G b) j (cellOct b o x) q : K) *
      H.riemann j s (faceState H D G M b (cellOct b o x) q j s)
        (faceState H D G M b q (cellOct b o x) j (-s))) +
  if OnBoundary G b o x j s then (faceArea D (cellGrid G b) j (cellOct b o x) : K) * H.bflux o x j s
  else 0

theorem processDir_all (hG : G.Pos) (hM : Tiling G M) (hB : Balanced G M) (hd : d = 2 ∨ d = 3)
    {D : Domain d} (hD : Domain.Ok D) (H : Scheme d K S) (dt : K)
    (c : CellIndex d) (hc : c.oct ∈ M) (hx : ∀ k, c.idx k < c.b k) (hst : c.status = .localToBlock)
    (j : Fin d) {s : ℤ} (hs : s = 1 ∨ s = -1) :
    ∃ a, processDir H D G M dt c j s = some a ∧
      (volume D (cellGrid G c.b) (cellOct c.b c.oct c.idx) : K) * a =
        -s * dt * sideFlux H D G M c.b j s c.oct c.idx := by
  by_cases hin : InDomain (cellGrid G c.b) c.oct.level (target c.b c.oct c.idx (faceOff j s))
  · obtain ⟨a, h1, h2⟩ := processDir_eq hG hM hB hd hD H dt c hc hx hst j hs hin
    refine ⟨a, h1, ?_⟩
    unfold sideFlux OnBoundary
    rw [if_neg (not_not.2 hin), add_zero, h2]
  · obtain ⟨a, h1, h2⟩ := processDir_boundary hG hM hB hD H dt c hc hx hst j hs hin
    obtain ⟨-, -, -, h3⟩ := outside hG hM hB c hc hx hst j hs hin
    refine ⟨a, h1, ?_⟩
    unfold sideFlux OnBoundary
    rw [if_pos hin, h3, Finset.sum_empty, zero_add, h2]

theorem updateCell_eq (hG : G.Pos) (hM : Tiling G M) (hB : Balanced G M) (hd : d = 2 ∨ d = 3)
    {D : Domain d} (hD : Domain.Ok D) (H : Scheme d K S) (dt : K) (U : K)
    (c : CellIndex d) (hc : c.oct ∈ M) (hx : ∀ k, c.idx k < c.b k) (hst : c.status = .localToBlock) :
    ∃ a, updateCell H D G M dt U c = some a ∧
      (volume D (cellGrid G c.b) (cellOct c.b c.oct c.idx) : K) * a =
        (volume D (cellGrid G c.b) (cellOct c.b c.oct c.idx) : K) * U -
          dt * ∑ j, (sideFlux H D G M c.b j 1 c.oct c.idx - sideFlux H D G M c.b j (-1) c.oct c.idx) := by
  have h := fun j => processDir_all hG hM hB hd hD H dt c hc hx hst j (Or.inl rfl)
  have h' := fun j => processDir_all hG hM hB hd hD H dt c hc hx hst j (s := -1) (Or.inr rfl)
  choose u hu hu' using h
  choose v hv hv' using h'
  unfold updateCell
  rw [loops_mapM_some _ _ (fun j => u j + v j)]
  · refine ⟨_, rfl, ?_⟩
    simp only
    rw [← List.ofFn_eq_map, List.sum_ofFn, mul_add, Finset.mul_sum, Finset.mul_sum, sub_eq_add_neg,
      ← Finset.sum_neg_distrib]
    congr 1
    refine Finset.sum_congr rfl fun j _ => ?_
    rw [mul_add, hu', hv']
    push_cast
    ring
  · intro j _
    rw [hu, hv]
    rfl

/-! ### Specification and theorems -/

/-- C45 (balance): the update is defined in every cell and the total of a conserved variable changes by
what leaves through the boundary of the domain, at any refinement of the mesh. -/
theorem C45_balance (hG : G.Pos) (hM : Tiling G M) (hB : Balanced G M) (hd : d = 2 ∨ d = 3)
    {D : Domain d} (hD : Domain.Ok D) (H : Scheme d K S) (dt : K) {b : Fin d → ℕ}
    (U : Oct d → (Fin d → ℕ) → K) :
    ∃ U' : Oct d → (Fin d → ℕ) → K,
      (∀ o ∈ M, ∀ x : Fin d → ℕ, (∀ k, x k < b k) →
        updateCell H D G M dt (U o x) ⟨o, x, b, .localToBlock⟩ = some (U' o x)) ∧
      cellSum b M (fun o x => (volume D (cellGrid G b) (cellOct b o x) : K) * U' o x) =
        cellSum b M (fun o x => (volume D (cellGrid G b) (cellOct b o x) : K) * U o x) -
          dt * outflow D G M b H.bflux := by
  by_cases hb : ∀ k, 0 < b k
  swap
  · -- empty blocks: nothing to update
    push Not at hb
    obtain ⟨k, hk⟩ := hb
    have h0 : ∀ f : Oct d → (Fin d → ℕ) → K, cellSum b M f = 0 := by
      intro f
      unfold cellSum
      refine Finset.sum_eq_zero fun o _ => ?_
      refine Finset.sum_eq_zero fun x hx => ?_
      have := Finset.mem_range.1 (Fintype.mem_piFinset.1 hx k)
      omega
    refine ⟨U, fun o _ x hx => ?_, ?_⟩
    · have := hx k; omega
    · unfold outflow
      simp only [h0]
      simp
  have hG' := cellGrid_pos hG hb
  have hM' := cellMesh_tiling hG hb hM
  have step : ∀ o (x : Fin d → ℕ), ∃ a, o ∈ M → (∀ k, x k < b k) →
      updateCell H D G M dt (U o x) ⟨o, x, b, .localToBlock⟩ = some a ∧
      (volume D (cellGrid G b) (cellOct b o x) : K) * a =
        (volume D (cellGrid G b) (cellOct b o x) : K) * U o x -
          dt * ∑ j, (sideFlux H D G M b j 1 o x - sideFlux H D G M b j (-1) o x) := by
    intro o x
    by_cases h : o ∈ M ∧ ∀ k, x k < b k
    · obtain ⟨a, h1⟩ := updateCell_eq hG hM hB hd hD H dt (U o x) ⟨o, x, b, .localToBlock⟩ h.1 h.2 rfl
      exact ⟨a, fun _ _ => h1⟩
    · exact ⟨0, fun h1 h2 => absurd ⟨h1, h2⟩ h⟩
  choose U' hU' using step
  refine ⟨U', fun o ho x hx => (hU' o x ho hx).1, ?_⟩
  rw [cellSum_congr fun o ho x hx => (hU' o x ho hx).2, cellSum_sub, cellSum_mul, cellSum_comm]
  congr 2
  unfold outflow
  rw [cellSum_comm]
  refine Finset.sum_congr rfl fun j _ => ?_
  rw [cellSum_sub, cellSum_sub]
  unfold sideFlux
  rw [cellSum_add, cellSum_add]
  have key := sum_faces hG' hM' j fun c q => (area D (cellGrid G b) j c q : K) *
    pairFlux H D G M b j c q
  have e1 : cellSum b M (fun o x => ∑ q ∈ nbrs (cellGrid G b) (cellMesh b M) (cellOct b o x) j 1,
      (area D (cellGrid G b) j (cellOct b o x) q : K) *
        H.riemann j 1 (faceState H D G M b (cellOct b o x) q j 1)
          (faceState H D G M b q (cellOct b o x) j (-1))) =
      ∑ c ∈ cellMesh b M, ∑ q ∈ nbrs (cellGrid G b) (cellMesh b M) c j 1,
        (area D (cellGrid G b) j c q : K) * pairFlux H D G M b j c q :=
    cellSum_box b fun c => ∑ q ∈ nbrs (cellGrid G b) (cellMesh b M) c j 1,
        (area D (cellGrid G b) j c q : K) * pairFlux H D G M b j c q
  have e2 : cellSum b M (fun o x => ∑ q ∈ nbrs (cellGrid G b) (cellMesh b M) (cellOct b o x) j (-1),
      (area D (cellGrid G b) j (cellOct b o x) q : K) *
        H.riemann j (-1) (faceState H D G M b (cellOct b o x) q j (-1))
          (faceState H D G M b q (cellOct b o x) j (- -1))) =
      ∑ c ∈ cellMesh b M, ∑ q ∈ nbrs (cellGrid G b) (cellMesh b M) c j (-1),
        (area D (cellGrid G b) j q c : K) * pairFlux H D G M b j q c := by
    rw [← cellSum_box b fun c => ∑ q ∈ nbrs (cellGrid G b) (cellMesh b M) c j (-1),
        (area D (cellGrid G b) j q c : K) * pairFlux H D G M b j q c]
    refine cellSum_congr fun o _ x _ => Finset.sum_congr rfl fun q _ => ?_
    rw [area_symm, neg_neg]
    rfl
  rw [e1, e2, key]
  ring

/-- C45 (conservation): on a periodic domain the total of a conserved variable does not change,
whatever the refinement of the mesh, the reconstruction and the Riemann solver. -/
theorem C45_conservation (hG : G.Pos) (hM : Tiling G M) (hB : Balanced G M) (hd : d = 2 ∨ d = 3)
    (hper : ∀ k, G.periodic k = true) {D : Domain d} (hD : Domain.Ok D) (H : Scheme d K S) (dt : K)
    {b : Fin d → ℕ} (U : Oct d → (Fin d → ℕ) → K) :
    ∃ U' : Oct d → (Fin d → ℕ) → K,
      (∀ o ∈ M, ∀ x : Fin d → ℕ, (∀ k, x k < b k) →
        updateCell H D G M dt (U o x) ⟨o, x, b, .localToBlock⟩ = some (U' o x)) ∧
      cellSum b M (fun o x => (volume D (cellGrid G b) (cellOct b o x) : K) * U' o x) =
        cellSum b M (fun o x => (volume D (cellGrid G b) (cellOct b o x) : K) * U o x) := by
  obtain ⟨U', h1, h2⟩ := C45_balance hG hM hB hd hD H dt (b := b) U
  refine ⟨U', h1, ?_⟩
  rw [h2]
  rw [outflow_periodic hper, mul_zero, sub_zero]

/-- Advection of the level of the octant, increased by the place on the face. -/
def exScheme : Scheme 2 ℚ ℚ :=
  ⟨fun o x off size => o.level + x 0 + 2 * off 0 + 3 * off 1 + size 0, fun _ l _ => l, fun _ _ _ _ => 0⟩

/-- The hypotheses hold on a refined mesh, and cells on both sides of the jump in refinement change. -/
example : torus.Pos ∧ Tiling torus quad.toFinset ∧ Balanced torus quad.toFinset ∧
    (∀ k, torus.periodic k = true) ∧ Domain.Ok torusDomain ∧
    updateCell exScheme torusDomain torus quad.toFinset (1 / 2) 7
      ⟨⟨1, ![0, 0]⟩, ![1, 0], ![2, 2], .localToBlock⟩ = some (13 / 2) ∧
    updateCell exScheme torusDomain torus quad.toFinset (1 / 2) 7
      ⟨⟨2, ![2, 0]⟩, ![0, 0], ![2, 2], .localToBlock⟩ = some 3 :=
  ⟨torus_pos, torus_tiling, torus_balanced, torus_periodic, torusDomain_ok, by decide +kernel,
    by decide +kernel⟩

end Verif.Hydro.OneNeighbor
