import Verif.Flux.Area
import Verif.Hydro.OneNeighbor
import Mathlib.Algebra.BigOperators.Fin

/-!
# C53: deposition of particles on the mesh

Model of `core/src/particles/ParticleUpdate_NGP_density.cpp` L26-58 and `ParticleUpdate_CIC_density.cpp` L32-130.
Arithmetic is exact. The mesh is the mesh of all ranks: a rank adds to its own cells and to its copies of cells of other
ranks, and `reduce_ghosts` adds the copies to the owner (`C20_reduce_owner`, `C20_reduce_total`); the ghosts of `rho_g`
are zero before, since the field has just been created (`UserData_fields.h` L107-121).

The model of the cloud in cell scheme is for `ndim = 3`. For `ndim = 2` the code also asks for neighbours in the third
direction (L112-119), which is not modelled.
-/

namespace Verif.Particles

open Verif.Octree Verif.Cells Verif.Flux Verif.Hydro

variable {d : ℕ}

/-! ### Model -/

/-- A particle: position and mass. -/
structure Particle (d : ℕ) where
  pos : Fin d → ℚ
  mass : ℚ

/-- `Vcell`, CIC L64, and the product at NGP L52. -/
def cellVolume (D : Domain d) (G : Grid d) (c : CellIndex d) : ℚ := ∏ k, getCellSize D G c k

/-- NGP L47-55: the addition made for a particle. `none` stands for undefined behaviour here and below. -/
def ngp (D : Domain d) (G : Grid d) (M : Finset (Oct d)) (minLevel maxLevel : ℕ) (b : Fin d → ℕ) (p : Particle d) :
    Option (List (CellIndex d × ℚ)) :=
  (getCellFromPos D G M minLevel maxLevel b p.pos).map fun c => [(c, p.mass / cellVolume D G c)]

/-- CIC L66-70. -/
def relPos (D : Domain d) (G : Grid d) (c : CellIndex d) (x : Fin d → ℚ) (k : Fin d) : ℚ :=
  (x k - getCellCenter D G c k) / getCellSize D G c k

/-- CIC L71. -/
def sgn (x : ℚ) : ℤ := if x ≥ 0 then 1 else -1

/-- CIC L74-83, `volume_fraction`. -/
def fraction (p : Fin d → ℚ) (e : Fin d → ℤ) : ℚ := ∏ k, if e k = 0 then 1 - |p k| else |p k|

/-- CIC L77-110, `apply_rho_contrib`: the additions for one offset. Reading the density of a cell outside of the domain is
out of bounds. -/
def contrib (G : Grid d) (M : Finset (Oct d)) (c : CellIndex d) (mass V : ℚ) (p : Fin d → ℚ) (e : Fin d → ℤ) :
    Option (List (CellIndex d × ℚ)) :=
  (getNeighborGhost G M c e).bind fun r =>
    if r.status = .boundary then none
    else if r.levelDiff ≥ 0 then
      let rho := mass * fraction p e / V
      some [(r, if r.levelDiff = 1 then rho / (2 * 2 * (d - 1)) else rho)]
    else
      let rho := 2 * (mass * fraction p e) / V
      ((foreachSmallerNeighbor true G M r e).mapM id).map fun rs => rs.map fun n => (n, rho)

/-- `ParticleUpdate_CIC_move.cpp` L83-112, `apply_g_contrib`, for one component `g` of the acceleration: what is added for
one offset. Cells outside of the domain cannot be read. -/
def gContrib (G : Grid d) (M : Finset (Oct d)) (c : CellIndex d) (g : Oct d → (Fin d → ℕ) → ℚ) (p : Fin d → ℚ)
    (e : Fin d → ℤ) : Option ℚ :=
  (getNeighborGhost G M c e).bind fun r =>
    if r.status = .boundary then none
    else if r.levelDiff ≥ 0 then some (g r.oct r.idx * fraction p e)
    else
      ((foreachSmallerNeighbor true G M r e).mapM id).map fun rs =>
        (rs.map fun n => g n.oct n.idx * fraction p e / (2 * (d - 1))).sum

/-- CIC L112-119. -/
def offsets (p : Fin d → ℚ) : List (Fin d → ℤ) := loops fun k => [0, sgn (p k)]

/-- CIC L55-121: the additions made for a particle. -/
def cic (D : Domain d) (G : Grid d) (M : Finset (Oct d)) (minLevel maxLevel : ℕ) (b : Fin d → ℕ) (q : Particle d) :
    Option (List (CellIndex d × ℚ)) :=
  (getCellFromPos D G M minLevel maxLevel b q.pos).bind fun c =>
    let p := relPos D G c q.pos
    ((offsets p).mapM (contrib G M c q.mass (cellVolume D G c) p)).map List.flatten

/-- `Kokkos::atomic_add` of one contribution. -/
def addTo (rho : Oct d → (Fin d → ℕ) → ℚ) (w : CellIndex d × ℚ) (o : Oct d) (x : Fin d → ℕ) : ℚ :=
  if w.1.oct = o ∧ w.1.idx = x then rho o x + w.2 else rho o x

/-- The whole kernel: the additions `ws`, in the order in which they happen, to a copy of `rho`. -/
def project (rho : Oct d → (Fin d → ℕ) → ℚ) (ws : List (CellIndex d × ℚ)) : Oct d → (Fin d → ℕ) → ℚ :=
  ws.foldl addTo rho

/-! ### Specification -/

/-- Mass on the mesh: volume times density, summed over all cells. -/
def totalMass (D : Domain d) (G : Grid d) (b : Fin d → ℕ) (M : Finset (Oct d)) (rho : Oct d → (Fin d → ℕ) → ℚ) : ℚ :=
  cellSum b M fun o x => volume D (cellGrid G b) (cellOct b o x) * rho o x

/-- Number of directions in which an offset leaves the cell: 1 for a face, 2 for an edge, 3 for a corner. -/
def moves (e : Fin d → ℤ) : ℕ := (Finset.univ.filter fun k => e k ≠ 0).card

/-- Some mesh cell covers only a part of the cell-sized box at offset `e` of cell `c`: the mesh is finer there. -/
def FinerAt (G : Grid d) (M : Finset (Oct d)) (c : CellIndex d) (e : Fin d → ℤ) : Prop :=
  ∃ P, Wraps (cellGrid G c.b) c.oct.level (target c.b c.oct c.idx e) P ∧
    ∃ q ∈ cellMesh c.b M, Anc ⟨c.oct.level, P⟩ q ∧ c.oct.level < q.level

/-- Fraction of the mass of a particle that is lost: half of what belongs across an edge and three quarters of what
belongs across a corner, where the mesh is finer. -/
noncomputable def lost (G : Grid d) (M : Finset (Oct d)) (c : CellIndex d) (p : Fin d → ℚ) : ℚ :=
  open Classical in
  ((offsets p).map fun e => if FinerAt G M c e then fraction p e * (1 - 2 / 2 ^ moves e) else 0).sum

/-! ### Sums over loops -/

theorem sum_loops {α : Type} : ∀ {d : ℕ} (l : Fin d → List α) (g : Fin d → α → ℚ),
    ((loops l).map fun f => ∏ k, g k (f k)).sum = ∏ k, ((l k).map (g k)).sum
  | 0, l, g => by simp [loops]
  | d + 1, l, g => by
    rw [Fin.prod_univ_castSucc, ← sum_loops (fun i => l i.castSucc) fun i => g i.castSucc]
    have e : loops l = (l (Fin.last d)).flatMap fun z => (loops fun i : Fin d => l i.castSucc).map fun f =>
        Fin.snoc (α := fun _ => α) f z := rfl
    rw [e]
    induction l (Fin.last d) with
    | nil => simp
    | cons z t ih =>
      rw [List.flatMap_cons, List.map_append, List.sum_append, ih, List.map_cons, List.sum_cons, mul_add]
      congr 1
      rw [List.map_map, ← List.sum_map_mul_right]
      congr 1
      apply List.map_congr_left
      intro f _
      simp only [Function.comp_apply]
      rw [Fin.prod_univ_castSucc]
      simp only [Fin.snoc_castSucc, Fin.snoc_last]

theorem sgn_ne (x : ℚ) : sgn x ≠ 0 := by unfold sgn; split <;> decide

/-- The volume fractions of the cells around a particle add up to 1. -/
theorem sum_fraction (p : Fin d → ℚ) : ((offsets p).map (fraction p)).sum = 1 := by
  unfold offsets
  have : fraction p = fun e : Fin d → ℤ => ∏ k, if e k = 0 then 1 - |p k| else |p k| := rfl
  rw [this, sum_loops _ fun k z => if z = 0 then 1 - |p k| else |p k|]
  apply Finset.prod_eq_one
  intro k _
  simp [sgn_ne]

theorem offsets_abs {p : Fin d → ℚ} {e : Fin d → ℤ} (he : e ∈ offsets p) (k : Fin d) : |e k| ≤ 1 := by
  have := (mem_loops _ _).1 he k
  simp only [List.mem_cons, List.not_mem_nil, or_false] at this
  rcases this with h | h <;> rw [h]
  · decide
  · unfold sgn; split <;> decide

/-! ### Additions and the mass on the mesh -/

/-- Mass brought by additions. -/
def brought (D : Domain d) (G : Grid d) (b : Fin d → ℕ) (ws : List (CellIndex d × ℚ)) : ℚ :=
  (ws.map fun w => volume D (cellGrid G b) (cellOct b w.1.oct w.1.idx) * w.2).sum

/-- All additions go to cells of the mesh. -/
def Inside (M : Finset (Oct d)) (b : Fin d → ℕ) (ws : List (CellIndex d × ℚ)) : Prop :=
  ∀ w ∈ ws, w.1.oct ∈ M ∧ ∀ k, w.1.idx k < b k

theorem totalMass_addTo (D : Domain d) (G : Grid d) {b : Fin d → ℕ} {M : Finset (Oct d)} (rho : Oct d → (Fin d → ℕ) → ℚ)
    {w : CellIndex d × ℚ} (hw : w.1.oct ∈ M ∧ ∀ k, w.1.idx k < b k) :
    totalMass D G b M (addTo rho w) =
      totalMass D G b M rho + volume D (cellGrid G b) (cellOct b w.1.oct w.1.idx) * w.2 := by
  have e : totalMass D G b M (addTo rho w) = cellSum b M fun o x =>
      volume D (cellGrid G b) (cellOct b o x) * rho o x +
        if w.1.oct = o ∧ w.1.idx = x then volume D (cellGrid G b) (cellOct b o x) * w.2 else 0 := by
    unfold totalMass
    congr 1
    funext o x
    unfold addTo
    split <;> ring
  rw [e, cellSum_add]
  unfold totalMass
  congr 1
  unfold cellSum
  rw [Finset.sum_eq_single w.1.oct, Finset.sum_eq_single w.1.idx]
  · beta_reduce
    rw [if_pos ⟨rfl, rfl⟩]
  · intro x _ hne
    beta_reduce
    rw [if_neg fun h => hne h.2.symm]
  · intro h
    exact absurd (Fintype.mem_piFinset.2 fun k => Finset.mem_range.2 (hw.2 k)) h
  · intro o _ hne
    apply Finset.sum_eq_zero
    intro x _
    beta_reduce
    rw [if_neg fun h => hne h.1.symm]
  · intro h
    exact absurd hw.1 h

theorem totalMass_project (D : Domain d) (G : Grid d) {b : Fin d → ℕ} {M : Finset (Oct d)} {ws : List (CellIndex d × ℚ)}
    (hw : Inside M b ws) : ∀ rho, totalMass D G b M (project rho ws) = totalMass D G b M rho + brought D G b ws := by
  unfold project brought
  induction ws with
  | nil => intro rho; simp
  | cons w ws ih =>
    intro rho
    rw [List.foldl_cons, ih (fun v hv => hw v (List.mem_cons_of_mem _ hv)), totalMass_addTo D G rho (hw w (by simp)),
      List.map_cons, List.sum_cons, add_assoc]

theorem brought_append (D : Domain d) (G : Grid d) (b : Fin d → ℕ) (v w : List (CellIndex d × ℚ)) :
    brought D G b (v ++ w) = brought D G b v + brought D G b w := by
  unfold brought
  rw [List.map_append, List.sum_append]

theorem brought_flatten (D : Domain d) (G : Grid d) (b : Fin d → ℕ) (l : List (List (CellIndex d × ℚ))) :
    brought D G b l.flatten = (l.map (brought D G b)).sum := by
  induction l with
  | nil => rfl
  | cons a l ih => rw [List.flatten_cons, brought_append, ih, List.map_cons, List.sum_cons]

theorem brought_perm (D : Domain d) (G : Grid d) (b : Fin d → ℕ) {v w : List (CellIndex d × ℚ)} (h : v.Perm w) :
    brought D G b v = brought D G b w := (h.map _).sum_eq

theorem cellVolume_eq {G : Grid d} (hG : G.Pos) (D : Domain d) (c : CellIndex d) (hb : ∀ k, 0 < c.b k) :
    cellVolume D G c = volume D (cellGrid G c.b) (cellOct c.b c.oct c.idx) :=
  Finset.prod_congr rfl fun k _ => getCellSize_eq hG D c hb k

/-- All particles of the kernel, all additions in any order. -/
theorem project_all {D : Domain d} {G : Grid d} {b : Fin d → ℕ} {M : Finset (Oct d)}
    (f : Particle d → Option (List (CellIndex d × ℚ))) (m : Particle d → ℚ) (ps : List (Particle d))
    (h : ∀ p ∈ ps, ∃ ws, f p = some ws ∧ Inside M b ws ∧ brought D G b ws = m p) :
    ∃ ws, ps.mapM f = some ws ∧ ∀ order, order.Perm ws.flatten → ∀ rho,
      totalMass D G b M (project rho order) = totalMass D G b M rho + (ps.map m).sum := by
  suffices H : ∃ ws, ps.mapM f = some ws ∧ Inside M b ws.flatten ∧ brought D G b ws.flatten = (ps.map m).sum by
    obtain ⟨ws, h1, h2, h3⟩ := H
    refine ⟨ws, h1, fun order hp rho => ?_⟩
    rw [totalMass_project D G (fun w hw => h2 w (hp.subset hw)), brought_perm D G b hp, h3]
  induction ps with
  | nil => exact ⟨[], rfl, by intro w hw; simp at hw, rfl⟩
  | cons p ps ih =>
    obtain ⟨w, a1, a2, a3⟩ := h p (by simp)
    obtain ⟨ws, b1, b2, b3⟩ := ih fun q hq => h q (List.mem_cons_of_mem _ hq)
    refine ⟨w :: ws, ?_, ?_, ?_⟩
    · rw [List.mapM_cons, a1, b1]; rfl
    · intro v hv
      rw [List.flatten_cons] at hv
      rcases List.mem_append.1 hv with hv | hv
      · exact a2 v hv
      · exact b2 v hv
    · rw [List.flatten_cons, brought_append, a3, b3, List.map_cons, List.sum_cons]

end Verif.Particles
