import Verif.Particles.Cloud

/-!
# C53: particle deposition and the mass on the mesh
-/

namespace Verif.Particles

open Verif.Octree Verif.Cells Verif.Flux Verif.Hydro

/-! ### Specification -/

/-- Length of the part of the unit interval around `e` that is covered by the unit interval around `p`. -/
def overlap (p : ℚ) (e : ℤ) : ℚ := max 0 (min (p + 1 / 2) (e + 1 / 2) - max (p - 1 / 2) (e - 1 / 2))

/-- Position in the domain. -/
def InBox {d : ℕ} (D : Domain d) (x : Fin d → ℚ) : Prop := ∀ k, D.xmin k ≤ x k ∧ x k < D.xmax k

/-- No cell of the mesh that is smaller than the cell of the particle lies across one of its edges or corners. -/
def NoFinerDiagonal {d : ℕ} (D : Domain d) (G : Grid d) (M : Finset (Oct d)) (b : Fin d → ℕ) (x : Fin d → ℚ) : Prop :=
  ∀ o ∈ M, ∀ i : Fin d → ℕ, (∀ k, i k < b k) → InCell D G b o i x → ∀ e : Fin d → ℤ, (∀ k, |e k| ≤ 1) → 2 ≤ moves e →
    ¬ FinerAt G M ⟨o, i, b, .localToBlock⟩ e

/-! ### Weights -/

variable {d : ℕ}

/-- A particle is at most half a cell away from the centre of its cell. -/
theorem relPos_half {G : Grid d} (hG : G.Pos) {D : Domain d} (hD : Domain.Ok D) {c : CellIndex d} (hb : ∀ k, 0 < c.b k)
    {x : Fin d → ℚ} (hx : InCell D G c.b c.oct c.idx x) (k : Fin d) : |relPos D G c x k| ≤ 1 / 2 := by
  have hs := cellSize_pos (cellGrid_pos hG hb) hD (cellOct c.b c.oct c.idx) k
  unfold relPos
  rw [getCellSize_eq hG D c hb k, C26_center hG D c hb k, abs_le]
  have h := hx k
  have e : cellSize D (cellGrid G c.b) (cellOct c.b c.oct c.idx) k =
      (hi (cellGrid G c.b) (cellOct c.b c.oct c.idx) k - lo (cellGrid G c.b) (cellOct c.b c.oct c.idx) k) *
        (D.xmax k - D.xmin k) := rfl
  rw [le_div_iff₀ hs, div_le_iff₀ hs, e]
  constructor <;> nlinarith [h.1, h.2]

theorem fraction_nonneg {p : Fin d → ℚ} (hp : ∀ k, |p k| ≤ 1 / 2) (e : Fin d → ℤ) : 0 ≤ fraction p e := by
  unfold fraction
  refine Finset.prod_nonneg fun k _ => ?_
  have h1 := hp k
  have h2 := abs_nonneg (p k)
  split <;> linarith

/-- C53 (weights): the share of a neighbour is the volume of the cell-sized cloud around the particle that lies in the
cell-sized box at its place. -/
theorem C53_overlap {p : Fin d → ℚ} (hp : ∀ k, |p k| ≤ 1 / 2) {e : Fin d → ℤ} (he : e ∈ offsets p) :
    fraction p e = ∏ k, overlap (p k) (e k) := by
  unfold fraction
  refine Finset.prod_congr rfl fun k _ => ?_
  have hk := (mem_loops _ _).1 he k
  simp only [List.mem_cons, List.not_mem_nil, or_false] at hk
  have h1 := abs_le.1 (hp k)
  unfold overlap
  rcases hk with hk | hk
  · rw [if_pos hk, hk]
    push_cast
    rcases le_total 0 (p k) with h | h
    · rw [abs_of_nonneg h, min_eq_right (by linarith), max_eq_left (by linarith : (0 : ℚ) - 1 / 2 ≤ p k - 1 / 2),
        max_eq_right (by linarith)]
      ring
    · rw [abs_of_nonpos h, min_eq_left (by linarith), max_eq_right (by linarith : p k - 1 / 2 ≤ (0 : ℚ) - 1 / 2),
        max_eq_right (by linarith)]
      ring
  · rw [if_neg (by rw [hk]; exact sgn_ne _), hk]
    unfold sgn
    rcases le_or_gt 0 (p k) with h | h
    · rw [if_pos h, abs_of_nonneg h]
      push_cast
      rw [min_eq_left (by linarith), max_eq_right (by linarith : p k - 1 / 2 ≤ (1 : ℚ) - 1 / 2),
        max_eq_right (by linarith)]
      ring
    · rw [if_neg (by linarith), abs_of_neg h]
      push_cast
      rw [min_eq_right (by linarith), max_eq_left (by linarith : (-1 : ℚ) - 1 / 2 ≤ p k - 1 / 2),
        max_eq_right (by linarith)]
      ring

/-! ### Mass -/

/-- C53 (nearest grid point): the mass on the mesh grows by the mass of the particles, for all orders of the additions. -/
theorem C53_ngp {G : Grid d} {M : Finset (Oct d)} (hG : G.WF) (hM : Tiling G M) {D : Domain d} (hD : Domain.Ok D)
    (minLevel maxLevel : ℕ) (hlev : ∀ o ∈ M, minLevel ≤ o.level ∧ o.level ≤ maxLevel) {b : Fin d → ℕ}
    (hb : ∀ k, 0 < b k) (ps : List (Particle d)) (hps : ∀ p ∈ ps, InBox D p.pos) :
    ∃ ws, ps.mapM (ngp D G M minLevel maxLevel b) = some ws ∧ ∀ order, order.Perm ws.flatten → ∀ rho,
      totalMass D G b M (project rho order) = totalMass D G b M rho + (ps.map Particle.mass).sum := by
  apply project_all
  intro p hp
  obtain ⟨c, h1, h2, h3, h4, h5, h6, -⟩ := C26_cell_of_pos hG hM D hD minLevel maxLevel hlev b hb p.pos (hps p hp)
  subst h4
  have hGp : G.Pos := hG
  refine ⟨[(c, p.mass / cellVolume D G c)], ?_, ?_, ?_⟩
  · unfold ngp
    rw [h1, Option.map_some]
  · intro w hw
    rw [List.mem_singleton.1 hw]
    exact ⟨h2, h3⟩
  · unfold brought
    rw [cellVolume_eq hGp D c hb, List.map_cons, List.map_nil, List.sum_cons, List.sum_nil]
    have := volume_pos (cellGrid_pos hGp hb) hD (cellOct c.b c.oct c.idx)
    simp only
    field_simp
    ring

/-- C53 (nearest grid point, place): all the mass goes to the cell that contains the particle. -/
theorem C53_ngp_place {G : Grid d} {M : Finset (Oct d)} (hG : G.WF) (hM : Tiling G M) {D : Domain d} (hD : Domain.Ok D)
    (minLevel maxLevel : ℕ) (hlev : ∀ o ∈ M, minLevel ≤ o.level ∧ o.level ≤ maxLevel) {b : Fin d → ℕ}
    (hb : ∀ k, 0 < b k) (p : Particle d) (hp : InBox D p.pos) {o : Oct d} (ho : o ∈ M) {i : Fin d → ℕ}
    (hi : ∀ k, i k < b k) (hin : InCell D G b o i p.pos) :
    ngp D G M minLevel maxLevel b p =
      some [(⟨o, i, b, .localToBlock⟩, p.mass / volume D (cellGrid G b) (cellOct b o i))] := by
  obtain ⟨c, h1, h2, h3, h4, h5, h6, h7⟩ := C26_cell_of_pos hG hM D hD minLevel maxLevel hlev b hb p.pos hp
  obtain ⟨e1, e2⟩ := h7 o ho i hi hin
  have hc : c = ⟨o, i, b, .localToBlock⟩ := by
    cases c
    simp only at h4 h5 e1 e2
    rw [h4, h5, e1, e2]
  have hGp : G.Pos := hG
  unfold ngp
  rw [h1, Option.map_some, hc, cellVolume_eq hGp D _ hb]

theorem sum_map_sub {α : Type} (l : List α) (f g : α → ℚ) :
    (l.map fun a => f a - g a).sum = (l.map f).sum - (l.map g).sum := by
  induction l with
  | nil => simp
  | cons a l ih => simp only [List.map_cons, List.sum_cons, ih]; ring

/-- One particle of the cloud in cell scheme. -/
theorem cic_spec {G : Grid 3} {M : Finset (Oct 3)} (hG : G.WF) (hM : Tiling G M) (hB : Balanced G M)
    (hper : ∀ k, G.periodic k = true) {D : Domain 3} (hD : Domain.Ok D) (minLevel maxLevel : ℕ)
    (hlev : ∀ o ∈ M, minLevel ≤ o.level ∧ o.level ≤ maxLevel) {b : Fin 3 → ℕ} (hb0 : ∀ k, 0 < b k)
    (hb : (∀ k, 2 ∣ b k) ∨ ∀ k, b k = 1) (q : Particle 3) (hq : InBox D q.pos) :
    ∃ c ws, getCellFromPos D G M minLevel maxLevel b q.pos = some c ∧ c.oct ∈ M ∧ (∀ k, c.idx k < b k) ∧ c.b = b ∧
      c.status = .localToBlock ∧ InCell D G b c.oct c.idx q.pos ∧
      cic D G M minLevel maxLevel b q = some ws ∧ Inside M b ws ∧
      brought D G b ws = q.mass * (1 - lost G M c (relPos D G c q.pos)) ∧ (0 ≤ q.mass → ∀ w ∈ ws, 0 ≤ w.2) := by
  classical
  obtain ⟨c, h1, h2, h3, h4, h5, h6, -⟩ := C26_cell_of_pos hG hM D hD minLevel maxLevel hlev b hb0 q.pos hq
  subst h4
  have hGp : G.Pos := hG
  generalize hp : relPos D G c q.pos = p
  have hhalf : ∀ k, |p k| ≤ 1 / 2 := fun k => by
    rw [← hp]
    exact relPos_half hGp hD hb0 h6 k
  have hs := fun e he => contrib_spec hGp hM hB hper hD h2 h3 h5 hb (e := e) (fun k => offsets_abs (p := p) he k) q.mass p
  choose! f hf1 hf2 hf3 hf4 using hs
  refine ⟨c, ((offsets p).map f).flatten, h1, h2, h3, rfl, h5, h6, ?_, ?_, ?_, ?_⟩
  · unfold cic
    rw [h1, Option.bind_some]
    dsimp only
    rw [hp, OneNeighbor.loops_mapM_some _ _ f fun e he => hf1 e he, Option.map_some]
  · intro w hw
    obtain ⟨l, hl, hw⟩ := List.mem_flatten.1 hw
    obtain ⟨e, he, rfl⟩ := List.mem_map.1 hl
    exact hf2 e he w hw
  · rw [brought_flatten, List.map_map, List.map_congr_left (g := fun e => q.mass * (fraction p e -
      if FinerAt G M c e then fraction p e * (1 - 2 / 2 ^ moves e) else 0)), List.sum_map_mul_left, sum_map_sub,
      sum_fraction]
    · rw [hp]
      rfl
    · intro e he
      rw [Function.comp_apply, hf3 e he]
      split <;> ring
  · intro hm w hw
    obtain ⟨l, hl, hw⟩ := List.mem_flatten.1 hw
    obtain ⟨e, he, rfl⟩ := List.mem_map.1 hl
    exact hf4 e he hm (fraction_nonneg hhalf e) w hw

open Classical in
/-- The part of the mass of a particle that is lost, by position. -/
noncomputable def lostAt (D : Domain 3) (G : Grid 3) (M : Finset (Oct 3)) (minLevel maxLevel : ℕ) (b : Fin 3 → ℕ)
    (x : Fin 3 → ℚ) : ℚ :=
  match getCellFromPos D G M minLevel maxLevel b x with
  | some c => lost G M c (relPos D G c x)
  | none => 0

/-- C53 (cloud in cell, balance): the mass on the mesh grows by the mass of the particles less what is lost across edges
and corners behind which the mesh is finer; for all orders of the additions. -/
theorem C53_cic_budget {G : Grid 3} {M : Finset (Oct 3)} (hG : G.WF) (hM : Tiling G M) (hB : Balanced G M)
    (hper : ∀ k, G.periodic k = true) {D : Domain 3} (hD : Domain.Ok D) (minLevel maxLevel : ℕ)
    (hlev : ∀ o ∈ M, minLevel ≤ o.level ∧ o.level ≤ maxLevel) {b : Fin 3 → ℕ} (hb0 : ∀ k, 0 < b k)
    (hb : (∀ k, 2 ∣ b k) ∨ ∀ k, b k = 1) (ps : List (Particle 3)) (hps : ∀ p ∈ ps, InBox D p.pos) :
    ∃ ws, ps.mapM (cic D G M minLevel maxLevel b) = some ws ∧ ∀ order, order.Perm ws.flatten → ∀ rho,
      totalMass D G b M (project rho order) = totalMass D G b M rho +
        (ps.map fun p => p.mass * (1 - lostAt D G M minLevel maxLevel b p.pos)).sum := by
  apply project_all
  intro p hp
  obtain ⟨c, ws, h1, -, -, -, -, -, h7, h8, h9, -⟩ := cic_spec hG hM hB hper hD minLevel maxLevel hlev hb0 hb p (hps p hp)
  refine ⟨ws, h7, h8, ?_⟩
  rw [h9]
  unfold lostAt
  rw [h1]

/-- A cell is not finer than itself. -/
theorem not_finer_self {G : Grid d} {M : Finset (Oct d)} (hG : G.Pos) (hM : Tiling G M) {c : CellIndex d}
    (hc : c.oct ∈ M) (hx : ∀ k, c.idx k < c.b k) {e : Fin d → ℤ} (he : moves e = 0) : ¬ FinerAt G M c e := by
  have hb0 : ∀ k, 0 < c.b k := fun k => by have := hx k; omega
  have hG' := cellGrid_pos hG hb0
  have hM' := cellMesh_tiling hG hb0 hM
  have hcm : cellOct c.b c.oct c.idx ∈ cellMesh c.b M := mem_cellMesh.2 ⟨_, hc, _, hx, rfl⟩
  have he0 : ∀ k, e k = 0 := fun k => by
    have := Finset.card_eq_zero.1 he
    by_contra h
    have hk : k ∈ Finset.univ.filter fun k => e k ≠ 0 := Finset.mem_filter.2 ⟨Finset.mem_univ k, h⟩
    rw [this] at hk
    simp at hk
  rintro ⟨P, hW, q, hq, hA, hlt⟩
  have hP : P = (cellOct c.b c.oct c.idx).pos := by
    funext k
    have ht : target c.b c.oct c.idx e k = ((cellOct c.b c.oct c.idx).pos k : ℤ) := by
      unfold target
      rw [he0 k, add_zero]
      rfl
    have := wraps_inside hW (k := k) (by
      rw [ht]
      exact ⟨by positivity, by exact_mod_cast (hM'.valid _ hcm).2 k⟩)
    rw [ht] at this
    exact_mod_cast this
  subst hP
  have := hM'.eq_of_anc hG' hcm hq hA
  rw [← this] at hlt
  exact lt_irrefl _ hlt

/-- Nothing is lost where no finer cell lies across an edge or corner. -/
theorem lost_zero {G : Grid 3} {M : Finset (Oct 3)} (hG : G.Pos) (hM : Tiling G M) {D : Domain 3} {b : Fin 3 → ℕ}
    {x : Fin 3 → ℚ} (hfine : NoFinerDiagonal D G M b x) {c : CellIndex 3} (h2 : c.oct ∈ M) (h3 : ∀ k, c.idx k < b k)
    (h4 : c.b = b) (h5 : c.status = .localToBlock) (h6 : InCell D G b c.oct c.idx x) (p : Fin 3 → ℚ) :
    lost G M c p = 0 := by
  have hc : c = ⟨c.oct, c.idx, b, .localToBlock⟩ := by
    cases c
    simp only at h4 h5
    rw [h4, h5]
  unfold lost
  apply List.sum_eq_zero
  intro y hy
  obtain ⟨e, he, rfl⟩ := List.mem_map.1 hy
  split
  · next hf =>
    have hm : moves e = 1 := by
      rcases Nat.lt_or_ge (moves e) 2 with h | h
      · rcases Nat.eq_zero_or_pos (moves e) with h0 | h0
        · exact absurd hf (not_finer_self hG hM h2 (by rw [h4]; exact h3) h0)
        · omega
      · rw [hc] at hf
        exact absurd hf (hfine _ h2 _ h3 h6 e (fun k => offsets_abs he k) h)
    rw [hm]
    norm_num
  · rfl

/-- The lost part is not negative. -/
theorem lost_nonneg {G : Grid 3} {M : Finset (Oct 3)} (hG : G.Pos) (hM : Tiling G M) {c : CellIndex 3} (h2 : c.oct ∈ M)
    (h3 : ∀ k, c.idx k < c.b k) {p : Fin 3 → ℚ} (hp : ∀ k, |p k| ≤ 1 / 2) : 0 ≤ lost G M c p := by
  unfold lost
  apply List.sum_nonneg
  intro y hy
  obtain ⟨e, he, rfl⟩ := List.mem_map.1 hy
  split
  · next hf =>
    have hm : 1 ≤ moves e := by
      rcases Nat.eq_zero_or_pos (moves e) with h0 | h0
      · exact absurd hf (not_finer_self hG hM h2 h3 h0)
      · exact h0
    refine mul_nonneg (fraction_nonneg hp e) ?_
    have h2 : (2 : ℚ) ^ 1 ≤ 2 ^ moves e := pow_le_pow_right₀ (by norm_num) hm
    rw [sub_nonneg, div_le_one (by positivity)]
    linarith
  · exact le_rfl

/-- C53 (cloud in cell): the mass on the mesh grows by the mass of the particles if no particle is in a cell across one of
whose edges or corners the mesh is finer. Missing: particles in such cells. -/
theorem C53_cic_partial {G : Grid 3} {M : Finset (Oct 3)} (hG : G.WF) (hM : Tiling G M) (hB : Balanced G M)
    (hper : ∀ k, G.periodic k = true) {D : Domain 3} (hD : Domain.Ok D) (minLevel maxLevel : ℕ)
    (hlev : ∀ o ∈ M, minLevel ≤ o.level ∧ o.level ≤ maxLevel) {b : Fin 3 → ℕ} (hb0 : ∀ k, 0 < b k)
    (hb : (∀ k, 2 ∣ b k) ∨ ∀ k, b k = 1) (ps : List (Particle 3)) (hps : ∀ p ∈ ps, InBox D p.pos)
    (hfine : ∀ p ∈ ps, NoFinerDiagonal D G M b p.pos) :
    ∃ ws, ps.mapM (cic D G M minLevel maxLevel b) = some ws ∧ ∀ order, order.Perm ws.flatten → ∀ rho,
      totalMass D G b M (project rho order) = totalMass D G b M rho + (ps.map Particle.mass).sum := by
  classical
  apply project_all
  intro p hp
  obtain ⟨c, ws, h1, h2, h3, h4, h5, h6, h7, h8, h9, -⟩ :=
    cic_spec hG hM hB hper hD minLevel maxLevel hlev hb0 hb p (hps p hp)
  refine ⟨ws, h7, h8, ?_⟩
  have hlost := lost_zero hG hM (hfine p hp) h2 h3 h4 h5 h6 (relPos D G c p.pos)
  rw [h9, hlost]
  ring

/-- C53 (sign): with masses that are not negative, no density is lowered. -/
theorem C53_cic_nonneg {G : Grid 3} {M : Finset (Oct 3)} (hG : G.WF) (hM : Tiling G M) (hB : Balanced G M)
    (hper : ∀ k, G.periodic k = true) {D : Domain 3} (hD : Domain.Ok D) (minLevel maxLevel : ℕ)
    (hlev : ∀ o ∈ M, minLevel ≤ o.level ∧ o.level ≤ maxLevel) {b : Fin 3 → ℕ} (hb0 : ∀ k, 0 < b k)
    (hb : (∀ k, 2 ∣ b k) ∨ ∀ k, b k = 1) (p : Particle 3) (hp : InBox D p.pos) (hm : 0 ≤ p.mass)
    (rho : Oct 3 → (Fin 3 → ℕ) → ℚ) :
    ∃ ws, cic D G M minLevel maxLevel b p = some ws ∧ ∀ o x, rho o x ≤ project rho ws o x := by
  obtain ⟨c, ws, -, -, -, -, -, -, h7, -, -, h10⟩ := cic_spec hG hM hB hper hD minLevel maxLevel hlev hb0 hb p hp
  refine ⟨ws, h7, ?_⟩
  have hw := h10 hm
  clear h7 h10
  unfold project
  induction ws generalizing rho with
  | nil => exact fun o x => le_rfl
  | cons w ws ih =>
    intro o x
    rw [List.foldl_cons]
    refine le_trans ?_ (ih _ (fun v hv => hw v (List.mem_cons_of_mem _ hv)) o x)
    unfold addTo
    have := hw w (by simp)
    split
    · linarith
    · exact le_rfl

/-! ### Examples and counterexample -/

/-- 2×2×2 coarse octants, periodic. -/
def cube : Grid 3 := ⟨1, ![2, 2, 2], ![true, true, true]⟩

/-- The last one is refined. -/
def cubeMesh : List (Oct 3) :=
  [⟨1, ![0, 0, 0]⟩, ⟨1, ![1, 0, 0]⟩, ⟨1, ![0, 1, 0]⟩, ⟨1, ![1, 1, 0]⟩, ⟨1, ![0, 0, 1]⟩, ⟨1, ![1, 0, 1]⟩, ⟨1, ![0, 1, 1]⟩,
    ⟨2, ![2, 2, 2]⟩, ⟨2, ![3, 2, 2]⟩, ⟨2, ![2, 3, 2]⟩, ⟨2, ![3, 3, 2]⟩, ⟨2, ![2, 2, 3]⟩, ⟨2, ![3, 2, 3]⟩, ⟨2, ![2, 3, 3]⟩,
    ⟨2, ![3, 3, 3]⟩]

def cubeDomain : Domain 3 := ⟨![0, 0, 0], ![1, 1, 1]⟩

theorem cube_wf : cube.WF := ⟨⟨by decide⟩, by decide⟩

theorem cube_tiling : Tiling cube cubeMesh.toFinset := tiling_of_check cube_wf _ 2 (by decide +kernel)

theorem cube_balanced : Balanced cube cubeMesh.toFinset := balanced_of_check cube_wf _ 2 (by decide +kernel)

theorem cube_levels : ∀ o ∈ cubeMesh.toFinset, 1 ≤ o.level ∧ o.level ≤ 2 := by decide +kernel

/-- In the cell next to the refined octant, across a corner. -/
def corner : Particle 3 := ⟨![7 / 16, 7 / 16, 7 / 16], 1⟩

/-- In the refined octant, next to all coarser ones. -/
def fine : Particle 3 := ⟨![33 / 64, 33 / 64, 33 / 64], 1⟩

/-- Disagreement: a cloud that reaches across a corner into a finer octant loses mass: 3/256 of the particle. -/
theorem C53_cic_fails : ∃ ws, cic cubeDomain cube cubeMesh.toFinset 1 2 ![2, 2, 2] corner = some ws ∧
    totalMass cubeDomain cube ![2, 2, 2] cubeMesh.toFinset (project (fun _ _ => 0) ws) =
      totalMass cubeDomain cube ![2, 2, 2] cubeMesh.toFinset (fun _ _ => 0) + corner.mass - 3 / 256 := by
  obtain ⟨c, ws, -, -, -, -, -, -, h7, h8, -, -⟩ := cic_spec cube_wf cube_tiling cube_balanced (by decide)
    (D := cubeDomain) (by unfold Domain.Ok; decide) 1 2 cube_levels (b := ![2, 2, 2]) (by decide) (Or.inl (by decide)) corner
    (by unfold InBox; decide +kernel)
  refine ⟨ws, h7, ?_⟩
  rw [totalMass_project _ _ h8]
  have hv : (cic cubeDomain cube cubeMesh.toFinset 1 2 ![2, 2, 2] corner).map (brought cubeDomain cube ![2, 2, 2]) =
      some (253 / 256) := by decide +kernel
  rw [h7, Option.map_some] at hv
  rw [Option.some.inj hv]
  change _ = _ + 1 - 3 / 256
  ring

/-- The hypotheses of `C53_cic_budget` and `C53_ngp` are met by particles at a change of level. -/
example : (∃ ws, [corner, fine].mapM (cic cubeDomain cube cubeMesh.toFinset 1 2 ![2, 2, 2]) = some ws) ∧
    ∃ ws, [corner, fine].mapM (ngp cubeDomain cube cubeMesh.toFinset 1 2 ![2, 2, 2]) = some ws := by
  have hp : ∀ p ∈ [corner, fine], InBox cubeDomain p.pos := by
    simp only [List.mem_cons, List.not_mem_nil, or_false, forall_eq_or_imp, forall_eq]
    unfold InBox
    decide +kernel
  have hD : Domain.Ok cubeDomain := by unfold Domain.Ok; decide
  obtain ⟨ws, h, -⟩ := C53_cic_budget cube_wf cube_tiling cube_balanced (by decide) hD 1 2 cube_levels
    (b := ![2, 2, 2]) (by decide) (Or.inl (by decide)) [corner, fine] hp
  obtain ⟨ws', h', -⟩ := C53_ngp cube_wf cube_tiling hD 1 2 cube_levels (b := ![2, 2, 2]) (by decide) [corner, fine] hp
  exact ⟨⟨ws, h⟩, ws', h'⟩

/-- By evaluation: in the refined octant nothing is lost. -/
example : (cic cubeDomain cube cubeMesh.toFinset 1 2 ![2, 2, 2] fine).map (brought cubeDomain cube ![2, 2, 2]) = some 1 := by
  decide +kernel

/-- The hypothesis of `C53_cic_partial` is met: nothing is finer than the refined octant. -/
example : NoFinerDiagonal cubeDomain cube cubeMesh.toFinset ![2, 2, 2] fine.pos := by
  intro o ho i hi hin e _ _ hf
  obtain ⟨P, -, q, hq, -, hlt⟩ := hf
  obtain ⟨o', ho', x, -, rfl⟩ := mem_cellMesh.1 hq
  have h1 := (cube_levels o' ho').2
  have h2 : o.level < o'.level := hlt
  have hl : o.level = 1 := by have := (cube_levels o ho).1; omega
  obtain ⟨c, c1, c2, c3, c4, c5, c6, c7⟩ := C26_cell_of_pos cube_wf cube_tiling cubeDomain (by decide) 1 2 cube_levels
    ![2, 2, 2] (by decide) fine.pos (by decide +kernel)
  have e := (c7 o ho i hi hin).1
  have hc : (getCellFromPos cubeDomain cube cubeMesh.toFinset 1 2 ![2, 2, 2] fine.pos).map (fun c => c.oct.level) =
      some 2 := by decide +kernel
  rw [c1, Option.map_some] at hc
  have := Option.some.inj hc
  rw [← e] at this
  omega

end Verif.Particles
