import Verif.Particles.Deposit

/-!
# C53: mass balance of the cloud in cell scheme
-/

namespace Verif.Particles

open Verif.Octree Verif.Cells Verif.Flux Verif.Hydro

variable {d : ℕ} {G : Grid d} {M : Finset (Oct d)}

/-! ### Neighbours in any direction -/

/-- The cells reached from the first smaller neighbour are all smaller cells of the mesh. -/
theorem smaller_cells (hG : G.Pos) (hM : Tiling G M) (hB : Balanced G M) {c : CellIndex d} (hc : c.oct ∈ M)
    (hx : ∀ k, c.idx k < c.b k) (hst : c.status = .localToBlock) (hb : (∀ k, 2 ∣ c.b k) ∨ ∀ k, c.b k = 1)
    {e : Fin d → ℤ} (he : ∀ k, |e k| ≤ 1) {r : CellIndex d} {P : Fin d → ℕ} (h1 : getNeighborGhost G M c e = some r)
    (h2 : r.oct ∈ M) (h3 : ∀ k, r.idx k < c.b k) (h4 : r.b = c.b) (hs : r.status = .smaller)
    (hl : r.oct.level = c.oct.level + 1) (hp : ∀ k, (cellOct c.b r.oct r.idx).pos k =
      2 * P k + if (c.idx k : ℤ) + e k < 0 then 1 else 0)
    {δ : Fin d → ℤ} (hδ : δ ∈ loops fun k => if e k = 0 then [(0 : ℤ), 1] else [0]) :
    ∃ r', getSiblingCell true G M r δ = some r' ∧ r'.oct ∈ M ∧ (∀ k, r'.idx k < c.b k) ∧
      r'.oct.level = c.oct.level + 1 := by
  have hb0 : ∀ k, 0 < c.b k := fun k => by have := hx k; omega
  have hδ1 : ∀ k, (e k = 0 ∧ (δ k = 0 ∨ δ k = 1)) ∨ (e k ≠ 0 ∧ δ k = 0) := fun k => by
    have := (mem_loops _ _).1 hδ k
    split_ifs at this with h
    · simp only [List.mem_cons, List.not_mem_nil, or_false] at this
      exact Or.inl ⟨h, this⟩
    · simp only [List.mem_cons, List.not_mem_nil, or_false] at this
      exact Or.inr ⟨h, this⟩
  have hpe : ∀ k, e k = 0 → r.oct.pos k * c.b k + r.idx k = 2 * P k := fun k hk => by
    have := hp k
    rw [hk, if_neg (by omega)] at this
    exact this
  rcases hb with hev | hone
  · have hlt : ∀ k, 0 ≤ (r.idx k : ℤ) + δ k ∧ (r.idx k : ℤ) + δ k < c.b k := by
      intro k
      have h6 := h3 k
      rcases hδ1 k with ⟨hk, h⟩ | ⟨-, h⟩
      · obtain ⟨m, hm⟩ := hev k
        have hp' := hpe k hk
        have h7 : r.oct.pos k * c.b k = 2 * (r.oct.pos k * m) := by rw [hm]; ring
        rw [h7] at hp'
        omega
      · omega
    refine ⟨{ r with idx := fun k => ((r.idx k : ℤ) + δ k).toNat, status := r.status.keepLocal }, ?_, ?_⟩
    · unfold getSiblingCell
      rw [if_pos rfl, getNeighborGhost_eq_getNeighbor (by rw [h4]; exact hlt)]
    · exact ⟨h2, fun k => by have := hlt k; simp only; omega, hl⟩
  · have hx0 : ∀ k, c.idx k = 0 := fun k => by have := hx k; have := hone k; omega
    by_cases h0 : ∃ k, e k ≠ 0
    · obtain ⟨rs, e1, e2, e3, e4⟩ := C25_face_cells hG hM hB true c hc hx hst (fun h => by cases h) e he h0
        (Or.inr fun k _ => hx0 k)
      have hsm : foreachSmallerNeighbor true G M r e = rs.map some := by
        rw [← e1]
        unfold faceCells
        rw [h1]
        simp only
        rw [if_neg (by rw [hs]; decide), if_pos hs]
      have hmem : getSiblingCell true G M r δ ∈ rs.map some := by
        rw [← hsm]
        exact List.mem_map_of_mem hδ
      obtain ⟨r', hr', heq⟩ := List.mem_map.1 hmem
      obtain ⟨a1, a2⟩ := e2 r' hr'
      refine ⟨r', heq.symm, a1, a2, ?_⟩
      have hG' := cellGrid_pos hG hb0
      have hM' := cellMesh_tiling hG hb0 hM
      have hB' := cellMesh_balanced hG hb0 hB
      obtain ⟨m1, m2⟩ := (e4 _).1 (List.mem_map_of_mem hr')
      have hcm : cellOct c.b c.oct c.idx ∈ cellMesh c.b M := mem_cellMesh.2 ⟨_, hc, _, hx, rfl⟩
      have hrm : cellOct c.b r.oct r.idx ∈ cellMesh c.b M := mem_cellMesh.2 ⟨_, h2, _, h3, rfl⟩
      have hbal : r'.oct.level ≤ c.oct.level + 1 := hB' (cellOct c.b r'.oct r'.idx) m1 (cellOct c.b c.oct c.idx) hcm (m2.touch hG').symm
      -- not coarser: a coarser cell would contain the first smaller cell
      unfold getSiblingCell at heq
      rw [if_pos rfl] at heq
      have hrv := hM'.valid _ hrm
      have hbd : ∀ k, 0 ≤ target c.b r.oct r.idx δ k ∧
          target c.b r.oct r.idx δ k < (cellGrid G c.b).count k r.oct.level := fun k => by
        have hv := hrv.2 k
        have hlm : G.lmin ≤ c.oct.level := (hM.valid _ hc).1
        have hcnt := count_cell_succ (G := G) (b := c.b) hlm k
        change r.oct.pos k * c.b k + r.idx k < (cellGrid G c.b).count k r.oct.level at hv
        unfold target
        push_cast
        rw [hl] at hv ⊢
        rw [hcnt] at hv ⊢
        have hv' : r.oct.pos k * c.b k + r.idx k < 2 * (cellGrid G c.b).count k c.oct.level := hv
        generalize (cellGrid G c.b).count k c.oct.level = N at *
        have hq : ((r.oct.pos k * c.b k + r.idx k : ℕ) : ℤ) = (r.oct.pos k : ℤ) * c.b k + r.idx k := by push_cast; ring
        rw [← hq]
        rcases hδ1 k with ⟨hk, h⟩ | ⟨-, h⟩
        · have := hpe k hk
          push_cast
          omega
        · push_cast
          omega
      have hin : InDomain (cellGrid G c.b) r.oct.level (target c.b r.oct r.idx δ) := fun k => Or.inr (hbd k)
      have hδa : ∀ k, 2 * |δ k| ≤ r.b k + 1 := fun k => by
        rw [h4, hone k]
        rcases hδ1 k with ⟨-, h | h⟩ | ⟨-, h⟩ <;> rw [h] <;> decide
      obtain ⟨r'', Q, b1, b2, b3, b4, bW, b5⟩ := C25_neighbor_cell hG hM hB r h2 (by rw [h4]; exact h3) δ hδa
        (by rw [h4]; exact hin)
      have : r'' = r' := Option.some.inj (b1.symm.trans heq.symm)
      subst this
      rw [h4] at b5 bW
      rcases b5 with ⟨-, b⟩ | ⟨-, b, bA⟩ | ⟨-, b, -⟩
      · have : (cellOct c.b r''.oct r''.idx).level = r.oct.level := by rw [b]
        change r''.oct.level = _ at this
        omega
      · exfalso
        have hQ : ∀ k, (Q k : ℤ) = (r.oct.pos k * c.b k + r.idx k : ℕ) + δ k := fun k => wraps_inside bW (hbd k)
        have hA : Anc (cellOct c.b r''.oct r''.idx) (cellOct c.b r.oct r.idx) := by
          refine ⟨by change r''.oct.level ≤ r.oct.level; omega, fun k => ?_⟩
          rw [← bA.2 k]
          change (r.oct.pos k * c.b k + r.idx k) / 2 ^ (r.oct.level - r''.oct.level) =
            Q k / 2 ^ (r.oct.level - r''.oct.level)
          rw [show r.oct.level - r''.oct.level = 1 by omega, pow_one]
          have q1 := hQ k
          rcases hδ1 k with ⟨hk, h⟩ | ⟨-, h⟩
          · have := hpe k hk
            omega
          · omega
        have : (cellOct c.b r''.oct r''.idx).level = (cellOct c.b r.oct r.idx).level := by
          rw [hM'.eq_of_anc hG' (mem_cellMesh.2 ⟨_, b2, _, by rw [← h4]; exact b3, rfl⟩) hrm hA]
        change r''.oct.level = r.oct.level at this
        omega
      · omega
    · push Not at h0
      exfalso
      have : c.oct = r.oct := by
        rw [getNeighborGhost_eq_getNeighbor (fun k => by rw [h0 k]; have := hx k; omega)] at h1
        rw [← Option.some.inj h1]
      rw [← this] at hl
      omega

theorem volume_level (D : Domain d) {c q : Oct d} (h : q.level = c.level) : volume D G q = volume D G c :=
  Finset.prod_congr rfl fun k _ => by rw [cellSize_eq, cellSize_eq, h]

theorem volume_succ (D : Domain d) {c q : Oct d} (hl : G.lmin ≤ c.level) (h : q.level = c.level + 1) :
    volume D G q = volume D G c / 2 ^ d := by
  unfold volume
  rw [Finset.prod_congr rfl fun k _ => cellSize_succ D hl h k, Finset.prod_div_distrib, Finset.prod_const,
    Finset.card_univ, Fintype.card_fin]

theorem length_smaller (e : Fin d → ℤ) :
    (loops fun k => if e k = 0 then [(0 : ℤ), 1] else [0]).length * 2 ^ moves e = 2 ^ d := by
  have h1 : (loops fun k => if e k = 0 then [(0 : ℤ), 1] else [0]).length = ∏ k, if e k = 0 then 2 else 1 := by
    rw [length_loops]
    exact Finset.prod_congr rfl fun k _ => by split <;> rfl
  have h2 : 2 ^ moves e = ∏ k, if e k ≠ 0 then 2 else 1 := by
    unfold moves
    rw [Finset.prod_ite, Finset.prod_const, Finset.prod_const_one, mul_one]
  rw [h1, h2, ← Finset.prod_mul_distrib, Finset.prod_congr rfl (g := fun _ => 2), Finset.prod_const, Finset.card_univ,
    Fintype.card_fin]
  intro k _
  by_cases h : e k = 0 <;> simp [h]

open Classical in
/-- The shares of a particle that go to the cells at one offset. Deposition and interpolation use the same shares. All of
the volume fraction is shared, except across an edge or a corner where the mesh is finer. -/
theorem shares_spec {G : Grid 3} {M : Finset (Oct 3)} (hG : G.Pos) (hM : Tiling G M) (hB : Balanced G M)
    (hper : ∀ k, G.periodic k = true) {D : Domain 3} (hD : Domain.Ok D) {c : CellIndex 3} (hc : c.oct ∈ M)
    (hx : ∀ k, c.idx k < c.b k) (hst : c.status = .localToBlock) (hb : (∀ k, 2 ∣ c.b k) ∨ ∀ k, c.b k = 1)
    {e : Fin 3 → ℤ} (he : ∀ k, |e k| ≤ 1) (p : Fin 3 → ℚ) :
    ∃ sh : List (CellIndex 3 × ℚ), (∀ mass, contrib G M c mass (cellVolume D G c) p e =
        some (sh.map fun w => (w.1, mass * w.2 / volume D (cellGrid G c.b) (cellOct c.b w.1.oct w.1.idx)))) ∧
      (∀ g, gContrib G M c g p e = some (sh.map fun w => w.2 * g w.1.oct w.1.idx).sum) ∧
      Inside M c.b sh ∧
      (sh.map Prod.snd).sum = fraction p e * (if FinerAt G M c e then 2 / 2 ^ moves e else 1) ∧
      (0 ≤ fraction p e → ∀ w ∈ sh, 0 ≤ w.2) := by
  have hb0 : ∀ k, 0 < c.b k := fun k => by have := hx k; omega
  have hG' := cellGrid_pos hG hb0
  have hM' := cellMesh_tiling hG hb0 hM
  have hlc : G.lmin ≤ c.oct.level := (hM.valid _ hc).1
  have hV := cellVolume_eq hG D c hb0
  have hVp : 0 < volume D (cellGrid G c.b) (cellOct c.b c.oct c.idx) := volume_pos hG' hD _
  obtain ⟨r, P, h1, h2, h3, h4, hW, h5⟩ := C25_neighbor_cell hG hM hB c hc hx e
    (fun k => by have := he k; have := hb0 k; omega) (inDomain_periodic hper _ _ _)
  have hrm : cellOct c.b r.oct r.idx ∈ cellMesh c.b M := mem_cellMesh.2 ⟨_, h2, _, h3, rfl⟩
  have notFiner : Anc (cellOct c.b r.oct r.idx) ⟨c.oct.level, P⟩ → ¬ FinerAt G M c e := by
    rintro hA ⟨P', hW', q, hq, hAq, hlt⟩
    have := wraps_unique hW' hW
    subst this
    have e1 := hM'.eq_of_anc hG' hrm hq (hA.trans hAq)
    have e2 := hA.1
    rw [e1] at e2
    exact absurd e2 (not_le.2 hlt)
  -- one cell
  have one : r.status ≠ .boundary → r.levelDiff ≥ 0 → Anc (cellOct c.b r.oct r.idx) ⟨c.oct.level, P⟩ →
      (∀ rho : ℚ, (if r.levelDiff = 1 then rho / (2 * 2 * (((3 : ℕ) : ℚ) - 1)) else rho) =
        rho * volume D (cellGrid G c.b) (cellOct c.b c.oct c.idx) /
          volume D (cellGrid G c.b) (cellOct c.b r.oct r.idx)) →
      ∃ sh : List (CellIndex 3 × ℚ), (∀ mass, contrib G M c mass (cellVolume D G c) p e =
          some (sh.map fun w => (w.1, mass * w.2 / volume D (cellGrid G c.b) (cellOct c.b w.1.oct w.1.idx)))) ∧
        (∀ g, gContrib G M c g p e = some (sh.map fun w => w.2 * g w.1.oct w.1.idx).sum) ∧
        Inside M c.b sh ∧
        (sh.map Prod.snd).sum = fraction p e * (if FinerAt G M c e then 2 / 2 ^ moves e else 1) ∧
        (0 ≤ fraction p e → ∀ w ∈ sh, 0 ≤ w.2) := by
    intro s1 s2 hA hvol
    refine ⟨[(r, fraction p e)], fun mass => ?_, fun g => ?_, ?_, ?_, ?_⟩
    · unfold contrib
      rw [h1, Option.bind_some, if_neg s1, if_pos s2, hV]
      dsimp only
      rw [hvol]
      simp only [List.map_cons, List.map_nil]
      congr 4
      field_simp
    · unfold gContrib
      rw [h1, Option.bind_some, if_neg s1, if_pos s2]
      simp [mul_comm]
    · intro w hw
      rw [List.mem_singleton.1 hw]
      exact ⟨h2, h3⟩
    · rw [if_neg (notFiner hA)]
      simp
    · intro h w hw
      rw [List.mem_singleton.1 hw]
      exact h
  rcases h5 with ⟨st, e5⟩ | ⟨st, hl, hA⟩ | ⟨st, hl, hp⟩
  · have hst' : r.status = .sameSize ∨ r.status = .localToBlock := by
      rcases st with st | st
      · right; rw [st, hst]; rfl
      · exact Or.inl st
    have hld := (OneNeighbor.levelDiff_cases r).2.2 hst'
    refine one (by rcases hst' with h | h <;> rw [h] <;> decide) (by omega)
      (by rw [e5]; exact ⟨le_rfl, fun k => by simp⟩) fun rho => ?_
    rw [if_neg (by omega), volume_level (G := cellGrid G c.b) D (c := cellOct c.b c.oct c.idx)
      (q := cellOct c.b r.oct r.idx) (by rw [e5]; rfl)]
    field_simp
  · have hld := (OneNeighbor.levelDiff_cases r).2.1 st
    have hv := volume_succ (G := cellGrid G c.b) D (c := cellOct c.b r.oct r.idx) (q := cellOct c.b c.oct c.idx)
      ((hM.valid _ h2).1) hl.symm
    have hv' : volume D (cellGrid G c.b) (cellOct c.b r.oct r.idx) =
        8 * volume D (cellGrid G c.b) (cellOct c.b c.oct c.idx) := by rw [hv]; ring
    refine one (by rw [st]; decide) (by omega) hA fun rho => ?_
    rw [if_pos hld, hv', show (2 * 2 * (((3 : ℕ) : ℚ) - 1)) = 8 by norm_num]
    field_simp
  · have hld := (OneNeighbor.levelDiff_cases r).1 st
    have hf : FinerAt G M c e := by
      refine ⟨P, hW, _, hrm, ⟨by change c.oct.level ≤ r.oct.level; omega, fun k => ?_⟩, by
        change c.oct.level < r.oct.level; omega⟩
      change _ / 2 ^ (r.oct.level - c.oct.level) = P k
      rw [hp k, show r.oct.level - c.oct.level = 1 by omega, pow_one]
      split <;> omega
    have hsib := fun δ hδ => smaller_cells hG hM hB hc hx hst hb he h1 h2 h3 h4 st hl hp (δ := δ) hδ
    have : Nonempty (CellIndex 3) := ⟨r⟩
    choose! f hf1 hf2 hf3 hf4 using hsib
    have hmap : (foreachSmallerNeighbor true G M r e).mapM id =
        some ((loops fun k => if e k = 0 then [(0 : ℤ), 1] else [0]).map f) := by
      unfold foreachSmallerNeighbor
      rw [List.map_congr_left fun δ hδ => hf1 δ hδ]
      generalize (loops fun k => if e k = 0 then [(0 : ℤ), 1] else [0]) = l
      induction l with
      | nil => rfl
      | cons a l ih => rw [List.map_cons, List.mapM_cons, ih]; rfl
    refine ⟨(loops fun k => if e k = 0 then [(0 : ℤ), 1] else [0]).map fun δ => (f δ, fraction p e / 4),
      fun mass => ?_, fun g => ?_, ?_, ?_, ?_⟩
    · unfold contrib
      rw [h1, Option.bind_some, if_neg (by rw [st]; decide), if_neg (by omega), hmap, Option.map_some, hV, List.map_map,
        List.map_map]
      congr 1
      apply List.map_congr_left
      intro δ hδ
      simp only [Function.comp_apply]
      rw [volume_succ (G := cellGrid G c.b) D (c := cellOct c.b c.oct c.idx)
          (q := cellOct c.b (f δ).oct (f δ).idx) hlc (hf4 δ hδ)]
      congr 1
      field_simp
      ring
    · unfold gContrib
      rw [h1, Option.bind_some, if_neg (by rw [st]; decide), if_neg (by omega), hmap, Option.map_some, List.map_map,
        List.map_map]
      congr 2
      apply List.map_congr_left
      intro δ hδ
      simp only [Function.comp_apply]
      rw [show (2 * (((3 : ℕ) : ℚ) - 1)) = 4 by norm_num]
      ring
    · intro w hw
      obtain ⟨δ, hδ, rfl⟩ := List.mem_map.1 hw
      exact ⟨hf2 δ hδ, hf3 δ hδ⟩
    · rw [if_pos hf, List.map_map]
      change (List.map (fun _ => fraction p e / 4) _).sum = _
      rw [List.map_const', List.sum_replicate, nsmul_eq_mul]
      have hlen := length_smaller e
      have hlen' : ((loops fun k => if e k = 0 then [(0 : ℤ), 1] else [0]).length : ℚ) = 2 ^ 3 / 2 ^ moves e := by
        rw [eq_div_iff (by positivity)]
        exact_mod_cast hlen
      rw [hlen']
      field_simp
      ring
    · intro h w hw
      obtain ⟨δ, hδ, rfl⟩ := List.mem_map.1 hw
      simp only
      positivity

open Classical in
/-- What one offset adds to the mesh. -/
theorem contrib_spec {G : Grid 3} {M : Finset (Oct 3)} (hG : G.Pos) (hM : Tiling G M) (hB : Balanced G M)
    (hper : ∀ k, G.periodic k = true) {D : Domain 3} (hD : Domain.Ok D) {c : CellIndex 3} (hc : c.oct ∈ M)
    (hx : ∀ k, c.idx k < c.b k) (hst : c.status = .localToBlock) (hb : (∀ k, 2 ∣ c.b k) ∨ ∀ k, c.b k = 1)
    {e : Fin 3 → ℤ} (he : ∀ k, |e k| ≤ 1) (mass : ℚ) (p : Fin 3 → ℚ) :
    ∃ ws, contrib G M c mass (cellVolume D G c) p e = some ws ∧ Inside M c.b ws ∧
      brought D G c.b ws = mass * (fraction p e * if FinerAt G M c e then 2 / 2 ^ moves e else 1) ∧
      (0 ≤ mass → 0 ≤ fraction p e → ∀ w ∈ ws, 0 ≤ w.2) := by
  have hb0 : ∀ k, 0 < c.b k := fun k => by have := hx k; omega
  have hv := fun q => volume_pos (cellGrid_pos hG hb0) hD q
  obtain ⟨sh, h1, -, h3, h4, h5⟩ := shares_spec hG hM hB hper hD hc hx hst hb he p
  refine ⟨_, h1 mass, ?_, ?_, ?_⟩
  · intro w hw
    obtain ⟨v, hv, rfl⟩ := List.mem_map.1 hw
    exact h3 v hv
  · unfold brought
    rw [List.map_map, ← h4, ← List.sum_map_mul_left]
    congr 1
    apply List.map_congr_left
    intro w _
    have := hv (cellOct c.b w.1.oct w.1.idx)
    simp only [Function.comp_apply]
    field_simp
  · intro a1 a2 w hw
    obtain ⟨v, hv', rfl⟩ := List.mem_map.1 hw
    exact div_nonneg (mul_nonneg a1 (h5 a2 v hv')) (hv _).le

end Verif.Particles
