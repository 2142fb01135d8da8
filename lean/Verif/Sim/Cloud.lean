import Verif.Sim.Blocks
import Verif.Sim.Steps
import Verif.Particles.Move

/-!
# What a particle reads and writes on one rank

A rank that stores the octant of a particle and all leaves touching it finds the same cells as on the whole mesh, and they
are at most one layer away from the octant.
-/

namespace Verif.Sim

open Verif.Octree Verif.Cells Verif.Adapt Verif.Flux Verif.Remap Verif.Particles
open Verif.Partition (Within)

variable {d : ℕ} {G : Grid d} {M Mr : Finset (Oct d)} {b : Fin d → ℕ} {o o' : Oct d} {x : Fin d → ℕ}

/-! ### Cells next to an octant -/

/-- A cell of `o'` that contains half a cell of `o`, or half a cell next to `o`; `Z` counts halves of cells from the lower
end of `o`. The cells of `o'` are `u / 2` times as large as those of `o`. -/
theorem within_of_half (hG : G.Pos) (hb : ∀ k, 0 < b k) (hx : ∀ k, x k < b k) {u : ℕ} (hu : 0 < u)
    (hc : ∀ i, G.count i o'.level * u = 2 * G.count i o.level)
    (h : ∀ i, ∃ s Z : ℤ, Shift G i s ∧ -1 ≤ Z ∧ Z ≤ 2 * b i ∧
      (u : ℤ) * (o'.pos i * b i + x i) ≤ 2 * (o.pos i + s * G.count i o.level) * b i + Z ∧
      2 * (o.pos i + s * G.count i o.level) * b i + Z < (u : ℤ) * (o'.pos i * b i + x i) + u) :
    Within G b 1 o o' x := by
  intro i
  obtain ⟨s, Z, hs, z1, z2, h1, h2⟩ := h i
  have hxi := hx i
  have hbi : (0 : ℤ) < b i := by exact_mod_cast hb i
  have hu0 : (0 : ℤ) < u := by exact_mod_cast hu
  have hux : (0 : ℤ) ≤ u * x i := by positivity
  have hux' : (u : ℤ) * (x i + 1) ≤ u * b i := mul_le_mul_of_nonneg_left (by omega) hu0.le
  have e1 : (u : ℤ) * (o'.pos i * b i + x i) < 2 * (o.pos i + 1 + s * G.count i o.level) * b i + u := by nlinarith
  have e2 : 2 * (o.pos i + s * G.count i o.level) * b i < (u : ℤ) * (o'.pos i * b i + x i + 1) + u := by nlinarith
  have e3 : (u : ℤ) * o'.pos i ≤ 2 * (o.pos i + 1 + s * G.count i o.level) := by
    have : (u : ℤ) * o'.pos i * b i ≤ 2 * (o.pos i + 1 + s * G.count i o.level) * b i := by nlinarith
    exact le_of_mul_le_mul_right this hbi
  have e4 : 2 * (o.pos i + s * G.count i o.level) ≤ (u : ℤ) * (o'.pos i + 1) := by
    have : 2 * (o.pos i + s * G.count i o.level) * b i ≤ (u : ℤ) * (o'.pos i + 1) * b i := by nlinarith
    exact le_of_mul_le_mul_right this hbi
  have c0 : (0 : ℚ) < G.count i o.level := by exact_mod_cast count_pos hG i _
  have c1 : (0 : ℚ) < G.count i o'.level := by exact_mod_cast count_pos hG i _
  have hu' : (0 : ℚ) < u := by exact_mod_cast hu
  have hb' : (0 : ℚ) < b i := by exact_mod_cast hb i
  have hci : (G.count i o'.level : ℚ) * u = 2 * G.count i o.level := by exact_mod_cast hc i
  set q : ℚ := 1 / (2 * G.count i o.level) with hq
  have q0 : 0 < q := by positivity
  have l1 : lo G o i = q * (2 * o.pos i) := by unfold lo; rw [hq]; field_simp
  have l2 : hi G o i = q * (2 * (o.pos i + 1)) := by unfold hi; rw [hq]; field_simp
  have l5 : (s : ℚ) = q * (2 * (s * G.count i o.level)) := by rw [hq]; field_simp
  have l3 : lo G o' i = q * (u * o'.pos i) := by
    unfold lo; rw [hq, ← hci]; field_simp
  have l4 : hi G o' i = q * (u * (o'.pos i + 1)) := by
    unfold hi; rw [hq, ← hci]; field_simp
  have lw : (hi G o' i - lo G o' i) / b i = q / b i * u := by rw [l3, l4]; field_simp; ring
  rw [cell_lo hG hb, cell_hi hG hb, lw]
  have q1 : 0 < q / b i := by positivity
  refine ⟨s, hs, ?_, ?_, ?_, ?_⟩
  · rw [l3, l2, l5, ← mul_add]
    refine mul_le_mul_of_nonneg_left ?_ q0.le
    have : (u : ℚ) * o'.pos i ≤ 2 * (o.pos i + 1 + s * G.count i o.level) := by exact_mod_cast e3
    linarith
  · rw [l1, l4, l5, ← mul_add]
    refine mul_le_mul_of_nonneg_left ?_ q0.le
    have : 2 * (o.pos i + s * G.count i o.level) ≤ (u : ℚ) * (o'.pos i + 1) := by exact_mod_cast e4
    linarith
  · have : (u : ℚ) * (o'.pos i * b i + x i) < 2 * (o.pos i + 1 + s * G.count i o.level) * b i + u := by
      exact_mod_cast e1
    have := mul_lt_mul_of_pos_left this q1
    rw [l3, l2, l5]
    calc _ = q / b i * (u * (o'.pos i * b i + x i)) := by field_simp
      _ < _ := this
      _ = _ := by push_cast; field_simp
  · have : 2 * (o.pos i + s * G.count i o.level) * b i < (u : ℚ) * (o'.pos i * b i + x i + 1) + u := by
      exact_mod_cast e2
    have := mul_lt_mul_of_pos_left this q1
    rw [l3, l1, l5]
    calc _ = q / b i * (2 * (o.pos i + s * G.count i o.level) * b i) := by field_simp
      _ < _ := this
      _ = _ := by push_cast; field_simp; ring

/-- The cells at an offset of at most one cell, on the mesh and on a rank. -/
theorem cloud_cell (h : Around G M Mr o) (hb : ∀ k, 2 ∣ b k) (hx : ∀ k, x k < b k) {e : Fin d → ℤ}
    (he : ∀ k, |e k| ≤ 1) :
    ∃ r, getNeighborGhost G M ⟨o, x, b, .localToBlock⟩ e = some r ∧
      getNeighborGhost G Mr ⟨o, x, b, .localToBlock⟩ e = some r ∧
      (r.status = .boundary ∨ r.status ≠ .boundary ∧
        (r.levelDiff ≥ 0 ∧ r.oct ∈ M ∧ (∀ k, r.idx k < b k) ∧ Within G b 1 o r.oct r.idx ∨
        ¬ r.levelDiff ≥ 0 ∧ ∃ rs : List (CellIndex d), foreachSmallerNeighbor true G M r e = rs.map some ∧
          foreachSmallerNeighbor true G Mr r e = rs.map some ∧
          ∀ n ∈ rs, n.oct ∈ M ∧ (∀ k, n.idx k < b k) ∧ Within G b 1 o n.oct n.idx)) := by
  have hG := h.wf.toPos
  have hM := h.tiling
  have ho := h.sub _ h.mem
  have hb0 : ∀ k, 0 < b k := fun k => by have := hx k; omega
  have hcg := getNeighborGhost_congr h.wf hM h.sub ⟨o, x, b, .localToBlock⟩ ho h.complete e
  rw [hcg]
  by_cases hin : InDomain (cellGrid G b) o.level (target b o x e)
  swap
  · obtain ⟨r, h1, h2, -⟩ := C25_boundary (M := M) hG ⟨o, x, b, .localToBlock⟩ (hM.valid _ ho) hx e
      (fun k => by have := he k; have := hb0 k; simp only; omega) hin
    exact ⟨r, h1, h1, Or.inl h2⟩
  obtain ⟨r, P, h1, h2, h3, h4, h5, h6⟩ := C25_neighbor_cell hG hM h.balanced ⟨o, x, b, .localToBlock⟩ ho hx e
    (fun k => by have := he k; have := hb0 k; simp only; omega) hin
  simp only at h3 h4 h5 h6
  have hlv := (hM.valid o ho).1
  have he' : ∀ k, -1 ≤ e k ∧ e k ≤ 1 := fun k => abs_le.1 (he k)
  have hP : ∀ i, ∃ s : ℤ, Shift G i s ∧ 2 * (P i : ℤ) = 2 * (o.pos i + s * G.count i o.level) * b i + 2 * (x i + e i) := by
    intro i
    obtain ⟨-, s, hs, e'⟩ := h5 i
    refine ⟨-s, ?_, ?_⟩
    · rcases hs with rfl | ⟨hp, hs⟩
      · left; rfl
      · right; exact ⟨hp, by omega⟩
    · rw [count_cell] at e'
      unfold target at e'
      push_cast at e'
      linarith
  refine ⟨r, h1, h1, Or.inr ?_⟩
  rcases h6 with ⟨st, e5⟩ | ⟨st, hl, e5⟩ | ⟨st, hl, e5⟩
  · have hl := congrArg Oct.level e5
    change r.oct.level = o.level at hl
    have st' : r.status = .localToBlock ∨ r.status = .sameSize := st.imp_left fun h => h.trans rfl
    refine ⟨by rcases st' with st | st <;> rw [st] <;> decide, Or.inl ⟨?_, h2, h3, ?_⟩⟩
    · unfold CellIndex.levelDiff; rcases st' with st | st <;> rw [st] <;> decide
    · refine within_of_half hG hb0 h3 (u := 2) (by norm_num) (fun i => by rw [hl]; ring) fun i => ?_
      obtain ⟨s, hs, hPi⟩ := hP i
      have ei : r.oct.pos i * b i + r.idx i = P i := congrFun (congrArg (fun q : Oct d => q.pos) e5) i
      have ei : (r.oct.pos i * b i + r.idx i : ℤ) = P i := by exact_mod_cast ei
      have hi := hx i
      have hei := he' i
      refine ⟨s, if (x i : ℤ) + e i < 0 then -1 else 2 * (x i + e i), hs, ?_, ?_, ?_, ?_⟩ <;> (try rw [ei]) <;>
        push_cast <;> split <;> omega
  · refine ⟨by rw [st]; decide, Or.inl ⟨?_, h2, h3, ?_⟩⟩
    · unfold CellIndex.levelDiff; rw [st]; decide
    · refine within_of_half hG hb0 h3 (u := 4) (by norm_num) (fun i => ?_) fun i => ?_
      · have := count_add G i 1 (hM.valid _ h2).1
        rw [hl] at this
        rw [this]
        ring
      · obtain ⟨s, hs, hPi⟩ := hP i
        have ei := e5.2 i
        have : o.level - r.oct.level = 1 := by omega
        simp only [cellOct, this, pow_one] at ei
        have ei : (r.oct.pos i * b i + r.idx i : ℤ) = (P i / 2 : ℕ) := by exact_mod_cast ei.symm
        have hi := hx i
        have hei := he' i
        refine ⟨s, if (x i : ℤ) + e i < 0 then -1 else 2 * (x i + e i), hs, ?_, ?_, ?_, ?_⟩ <;> (try rw [ei]) <;>
          push_cast <;> split <;> omega
  · refine ⟨by rw [st]; decide, Or.inr ⟨by rw [levelDiff_smaller st]; decide, ?_⟩⟩
    have hev : ∀ k, e k = 0 → r.idx k % 2 = 0 := by
      intro k hk
      have := e5 k
      rw [hk, if_neg (by omega)] at this
      simp only [cellOct] at this
      obtain ⟨m, hm⟩ := hb k
      have h7 : r.oct.pos k * b k = 2 * (r.oct.pos k * m) := by rw [hm]; ring
      rw [h7] at this
      omega
    have hδ : ∀ δ ∈ loops (fun k => if e k = 0 then [(0 : ℤ), 1] else [0]), ∀ k,
        0 ≤ δ k ∧ δ k ≤ 1 ∧ (e k ≠ 0 → δ k = 0) ∧ (r.idx k : ℤ) + δ k < b k := by
      intro δ hδ k
      have hk := (mem_loops _ _).1 hδ k
      have := h3 k
      split_ifs at hk with h0
      · have h8 := hev k h0
        obtain ⟨m, hm⟩ := hb k
        simp only [List.mem_cons, List.not_mem_nil, or_false] at hk
        rcases hk with hk | hk <;> rw [hk] <;> refine ⟨by omega, by omega, fun h => absurd h0 h, by omega⟩
      · simp only [List.mem_cons, List.not_mem_nil, or_false] at hk
        rw [hk]; exact ⟨by omega, by omega, fun _ => rfl, by omega⟩
    have key : ∀ (N : Finset (Oct d)), foreachSmallerNeighbor true G N r e =
        ((loops fun k => if e k = 0 then [(0 : ℤ), 1] else [0]).map fun δ =>
          (⟨r.oct, fun k => ((r.idx k : ℤ) + δ k).toNat, b, r.status.keepLocal⟩ : CellIndex d)).map some := by
      intro N
      unfold foreachSmallerNeighbor
      rw [List.map_map]
      refine List.map_congr_left fun δ hm => ?_
      unfold getSiblingCell
      rw [if_pos rfl, getNeighborGhost_eq_getNeighbor fun k => ?_, h4]
      · rfl
      · have := hδ δ hm k
        rw [h4]
        omega
    refine ⟨_, key M, key Mr, ?_⟩
    intro n hn
    obtain ⟨δ, hm, rfl⟩ := List.mem_map.1 hn
    have hd := hδ δ hm
    have hlt : ∀ k, ((r.idx k : ℤ) + δ k).toNat < b k := fun k => by have := hd k; omega
    refine ⟨h2, hlt, ?_⟩
    refine within_of_half hG hb0 hlt (u := 1) (by norm_num) (fun i => ?_) fun i => ?_
    · simp only
      rw [hl, count_add G i 1 hlv]
      ring
    · obtain ⟨s, hs, hPi⟩ := hP i
      have ei := e5 i
      simp only [cellOct] at ei
      have hi := hx i
      have hei := he' i
      have hdi := hd i
      have ew : (r.oct.pos i : ℤ) * b i + (((r.idx i : ℤ) + δ i).toNat : ℕ) = ((r.oct.pos i * b i + r.idx i : ℕ) : ℤ) + δ i := by
        push_cast; omega
      refine ⟨s, 2 * (x i + e i) + (if (x i : ℤ) + e i < 0 then 1 else 0) + δ i, hs, ?_, ?_, ?_, ?_⟩ <;>
        (try rw [ew, ei]) <;> push_cast <;> split <;> omega

/-! ### Positions -/

/-- A position relative to the domain (`AMRBlockForeachCell.h` L99, `ForeachParticle.h` L82-84). -/
def unit (D : Domain d) (q : Fin d → ℚ) : Fin d → ℚ := fun k => (q k - D.xmin k) / (D.xmax k - D.xmin k)

theorem unit_bounds {D : Domain d} (hD : Domain.Ok D) {q : Fin d → ℚ} (hq : InBox D q) (k : Fin d) :
    0 ≤ unit D q k ∧ unit D q k < 1 := by
  have h0 : 0 < D.xmax k - D.xmin k := sub_pos.2 (hD k)
  exact ⟨div_nonneg (by linarith [(hq k).1]) h0.le, by unfold unit; rw [div_lt_one h0]; linarith [(hq k).2]⟩

/-- A subset of the leaves that has the leaf of a position finds it. -/
theorem located (hG : G.WF) (hM : Tiling G M) (hsub : ∀ c ∈ Mr, c ∈ M) (ho : o ∈ Mr) {minLevel maxLevel : ℕ}
    (hlev : ∀ c ∈ M, minLevel ≤ c.level ∧ c.level ≤ maxLevel) {u : Fin d → ℚ} (hu : ∀ i, 0 ≤ u i ∧ u i < 1)
    (hcov : Covers G o u) : getiOctFromPos G Mr minLevel maxLevel u = some o := by
  have hb := hsub o ho
  have hvx : Covers G ⟨maxLevel, fun i => ⌊u i / (1 / (cellCount G i maxLevel : ℚ))⌋₊⟩ u := by
    intro i
    have h0 : (0 : ℚ) < G.count i maxLevel := by exact_mod_cast count_pos hG i _
    have e : u i / (1 / (cellCount G i maxLevel : ℚ)) = u i * G.count i maxLevel := by
      rw [cellCount_eq]; field_simp
    have hn := mul_nonneg (hu i).1 h0.le
    unfold lo hi
    simp only [e]
    constructor
    · rw [div_le_iff₀ h0]; exact Nat.floor_le hn
    · rw [lt_div_iff₀ h0]; exact_mod_cast Nat.lt_floor_add_one _
  unfold getiOctFromPos
  apply searchUp_spec ho
  · exact anc_of_covers hG (hM.valid o hb) (hlev o hb).2 hcov hvx
  · intro c hc hca
    exact (hM.cover u hu).unique ⟨hsub c hc, hca.covers hG (hM.valid c (hsub c hc)).1 hvx⟩ ⟨hb, hcov⟩
  · have := hlev o hb
    omega

/-- The cell of a position, on the mesh and on a rank. -/
theorem cellFromPos_congr (h : Around G M Mr o) {D : Domain d} (hD : Domain.Ok D) {minLevel maxLevel : ℕ}
    (hlev : ∀ c ∈ M, minLevel ≤ c.level ∧ c.level ≤ maxLevel) (hb : ∀ k, 0 < b k) {q : Fin d → ℚ} (hq : InBox D q)
    (hcov : Covers G o (unit D q)) :
    ∃ x : Fin d → ℕ, (∀ k, x k < b k) ∧
      getCellFromPos D G M minLevel maxLevel b q = some ⟨o, x, b, .localToBlock⟩ ∧
      getCellFromPos D G Mr minLevel maxLevel b q = some ⟨o, x, b, .localToBlock⟩ := by
  obtain ⟨c, h1, -, h3, h4, h5, -, -⟩ := C26_cell_of_pos h.wf h.tiling D hD minLevel maxLevel hlev b hb q hq
  have e1 : getiOctFromPos G M minLevel maxLevel (fun k => (q k - D.xmin k) / (D.xmax k - D.xmin k)) = some o :=
    located h.wf h.tiling (fun _ h => h) (h.sub _ h.mem) hlev (unit_bounds hD hq) hcov
  have e2 : getiOctFromPos G Mr minLevel maxLevel (fun k => (q k - D.xmin k) / (D.xmax k - D.xmin k)) = some o :=
    located h.wf h.tiling h.sub h.mem hlev (unit_bounds hD hq) hcov
  have e3 : getCellFromPos D G Mr minLevel maxLevel b q = getCellFromPos D G M minLevel maxLevel b q := by
    unfold getCellFromPos
    rw [e1, e2]
  have e4 : c.oct = o := by
    unfold getCellFromPos at h1
    rw [e1, Option.map_some] at h1
    rw [← Option.some.inj h1]
  refine ⟨c.idx, h3, ?_, ?_⟩
  · rw [h1, ← e4, ← h4, ← h5]
  · rw [e3, h1, ← e4, ← h4, ← h5]

/-! ### Deposit and interpolation -/

/-- What a particle in octant `o` may write. -/
def Near (G : Grid d) (M : Finset (Oct d)) (b : Fin d → ℕ) (o : Oct d) (ws : List (CellIndex d × ℚ)) : Prop :=
  ∀ w ∈ ws, w.1.oct ∈ M ∧ (∀ k, w.1.idx k < b k) ∧ Within G b 1 o w.1.oct w.1.idx

theorem contrib_congr (h : Around G M Mr o) (hb : ∀ k, 2 ∣ b k) (hx : ∀ k, x k < b k) {e : Fin d → ℤ}
    (he : ∀ k, |e k| ≤ 1) (mass V : ℚ) (p : Fin d → ℚ) :
    contrib G Mr ⟨o, x, b, .localToBlock⟩ mass V p e = contrib G M ⟨o, x, b, .localToBlock⟩ mass V p e ∧
      ∀ ws, contrib G M ⟨o, x, b, .localToBlock⟩ mass V p e = some ws → Near G M b o ws := by
  obtain ⟨r, h1, h2, h3⟩ := cloud_cell h hb hx he
  unfold contrib
  rw [h1, h2, Option.bind_some, Option.bind_some]
  rcases h3 with h3 | ⟨h3, ⟨h4, h5, h6, h7⟩ | ⟨h4, rs, e1, e2, h5⟩⟩
  · rw [if_pos h3, if_pos h3]
    exact ⟨rfl, fun ws hw => by cases hw⟩
  · rw [if_neg h3, if_neg h3, if_pos h4, if_pos h4]
    refine ⟨rfl, fun ws hw => ?_⟩
    cases hw
    intro w hw
    rw [List.mem_singleton] at hw
    subst hw
    exact ⟨h5, h6, h7⟩
  · rw [if_neg h3, if_neg h3, if_neg h4, if_neg h4, e1, e2]
    refine ⟨rfl, fun ws hw => ?_⟩
    rw [mapM_id_some, Option.map_some] at hw
    cases hw
    intro w hw
    obtain ⟨n, hn, rfl⟩ := List.mem_map.1 hw
    exact h5 n hn

theorem gContrib_congr (h : Around G M Mr o) (hb : ∀ k, 2 ∣ b k) (hx : ∀ k, x k < b k) {e : Fin d → ℤ}
    (he : ∀ k, |e k| ≤ 1) {u v : Oct d → (Fin d → ℕ) → ℚ} (huv : AgreeWithin G b 1 M o u v) (p : Fin d → ℚ) :
    gContrib G Mr ⟨o, x, b, .localToBlock⟩ u p e = gContrib G M ⟨o, x, b, .localToBlock⟩ v p e := by
  obtain ⟨r, h1, h2, h3⟩ := cloud_cell h hb hx he
  unfold gContrib
  rw [h1, h2, Option.bind_some, Option.bind_some]
  rcases h3 with h3 | ⟨h3, ⟨h4, h5, h6, h7⟩ | ⟨h4, rs, e1, e2, h5⟩⟩
  · rw [if_pos h3, if_pos h3]
  · rw [if_neg h3, if_neg h3, if_pos h4, if_pos h4, huv.2 _ h5 _ h6 h7]
  · rw [if_neg h3, if_neg h3, if_neg h4, if_neg h4, e1, e2, mapM_id_some, Option.map_some, Option.map_some]
    congr 2
    refine List.map_congr_left fun n hn => ?_
    obtain ⟨g1, g2, g3⟩ := h5 n hn
    rw [huv.2 _ g1 _ g2 g3]

theorem mapM_congr {α β : Type} {l : List α} {f f' : α → Option β} (h : ∀ a ∈ l, f a = f' a) : l.mapM f = l.mapM f' := by
  induction l with
  | nil => rfl
  | cons a l ih => rw [List.mapM_cons, List.mapM_cons, h a (by simp), ih fun x hx => h x (by simp [hx])]

section
variable {D : Domain d} {minLevel maxLevel : ℕ}

/-- NGP deposit of a particle whose octant the rank holds. -/
theorem ngp_congr (h : Around G M Mr o) (hD : Domain.Ok D) (hlev : ∀ c ∈ M, minLevel ≤ c.level ∧ c.level ≤ maxLevel)
    (hb : ∀ k, 0 < b k) {q : Particle d} (hq : InBox D q.pos) (hcov : Covers G o (unit D q.pos)) :
    ngp D G Mr minLevel maxLevel b q = ngp D G M minLevel maxLevel b q ∧
      ∀ ws, ngp D G M minLevel maxLevel b q = some ws → ∀ w ∈ ws, w.1.oct = o := by
  obtain ⟨x, -, h1, h2⟩ := cellFromPos_congr h hD hlev hb hq hcov
  unfold ngp
  rw [h1, h2]
  refine ⟨rfl, fun ws hw w hm => ?_⟩
  rw [Option.map_some] at hw
  cases hw
  rw [List.mem_singleton] at hm
  rw [hm]

/-- CIC deposit of a particle whose octant the rank holds. -/
theorem cic_congr (h : Around G M Mr o) (hD : Domain.Ok D) (hlev : ∀ c ∈ M, minLevel ≤ c.level ∧ c.level ≤ maxLevel)
    (hb0 : ∀ k, 0 < b k) (hb : ∀ k, 2 ∣ b k) {q : Particle d} (hq : InBox D q.pos) (hcov : Covers G o (unit D q.pos)) :
    cic D G Mr minLevel maxLevel b q = cic D G M minLevel maxLevel b q ∧
      ∀ ws, cic D G M minLevel maxLevel b q = some ws → Near G M b o ws := by
  obtain ⟨x, hx, h1, h2⟩ := cellFromPos_congr h hD hlev hb0 hq hcov
  unfold cic
  rw [h1, h2, Option.bind_some, Option.bind_some]
  simp only
  set c : CellIndex d := ⟨o, x, b, .localToBlock⟩ with hc
  set p := relPos D G c q.pos
  have key := fun (e : Fin d → ℤ) (he : e ∈ offsets p) =>
    contrib_congr h hb hx (e := e) (fun k => offsets_abs he k) q.mass (cellVolume D G c) p
  refine ⟨by rw [mapM_congr fun e he => (key e he).1], fun ws hw => ?_⟩
  obtain ⟨wss, hwss, rfl⟩ := Option.map_eq_some_iff.1 hw
  intro w hm
  obtain ⟨l, hl, hm⟩ := List.mem_flatten.1 hm
  have hs := mapM_eq_some.1 hwss
  have : some l ∈ wss.map some := List.mem_map.2 ⟨l, hl, rfl⟩
  rw [← hs] at this
  obtain ⟨e, he, hel⟩ := List.mem_map.1 this
  exact (key e he).2 l hel w hm

/-- Acceleration at a particle whose octant the rank holds. -/
theorem cicAcc_congr (h : Around G M Mr o) (hD : Domain.Ok D) (hlev : ∀ c ∈ M, minLevel ≤ c.level ∧ c.level ≤ maxLevel)
    (hb0 : ∀ k, 0 < b k) (hb : ∀ k, 2 ∣ b k) {u v : Oct d → (Fin d → ℕ) → ℚ} (huv : AgreeWithin G b 1 M o u v)
    {q : Fin d → ℚ} (hq : InBox D q) (hcov : Covers G o (unit D q)) :
    cicAcc D G Mr minLevel maxLevel b u q = cicAcc D G M minLevel maxLevel b v q := by
  obtain ⟨x, hx, h1, h2⟩ := cellFromPos_congr h hD hlev hb0 hq hcov
  unfold cicAcc
  rw [h1, h2, Option.bind_some, Option.bind_some]
  simp only
  rw [mapM_congr fun e he => gContrib_congr h hb hx (fun k => offsets_abs he k) huv _]

/-- NGP move of a particle whose octant the rank holds. -/
theorem ngpMove_congr (h : Around G M Mr o) (hD : Domain.Ok D) (hlev : ∀ c ∈ M, minLevel ≤ c.level ∧ c.level ≤ maxLevel)
    (hb0 : ∀ k, 0 < b k) {u v : Fin d → Oct d → (Fin d → ℕ) → ℚ} (huv : ∀ k, AgreeWithin G b 1 M o (u k) (v k))
    (dt : ℚ) {q : Body d} (hq : InBox D q.pos) (hcov : Covers G o (unit D q.pos)) :
    ngpMove D G Mr minLevel maxLevel b u dt q = ngpMove D G M minLevel maxLevel b v dt q := by
  obtain ⟨x, hx, h1, h2⟩ := cellFromPos_congr h hD hlev hb0 hq hcov
  unfold ngpMove
  rw [h1, h2, Option.map_some, Option.map_some]
  congr 2
  funext k
  exact (huv k).1 x hx

end

/-- CIC move of a particle whose octant the rank holds. -/
theorem cicMove_congr {D : Domain 3} {minLevel maxLevel : ℕ} {G : Grid 3} {M Mr : Finset (Oct 3)} {b : Fin 3 → ℕ} {o : Oct 3}
    (h : Around G M Mr o) (hD : Domain.Ok D) (hlev : ∀ c ∈ M, minLevel ≤ c.level ∧ c.level ≤ maxLevel)
    (hb0 : ∀ k, 0 < b k) (hb : ∀ k, 2 ∣ b k) {u v : Fin 3 → Oct 3 → (Fin 3 → ℕ) → ℚ}
    (huv : ∀ k, AgreeWithin G b 1 M o (u k) (v k)) (dt : ℚ) {q : Body 3} (hq : InBox D q.pos)
    (hcov : Covers G o (unit D q.pos)) :
    cicMove D G Mr minLevel maxLevel b u dt q = cicMove D G M minLevel maxLevel b v dt q := by
  unfold cicMove
  rw [cicAcc_congr h hD hlev hb0 hb (huv 0) hq hcov, cicAcc_congr h hD hlev hb0 hb (huv 1) hq hcov,
    cicAcc_congr h hD hlev hb0 hb (huv 2) hq hcov]

end Verif.Sim
