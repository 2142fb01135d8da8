import Verif.Sim.Steps
import Verif.Hydro.Hancock
import Verif.Hydro.RK2

/-!
# What the patches of a block read

`HydroUpdate_hancock`, `HydroUpdate_euler` and `HydroUpdate_RK2` copy a block with two layers of ghosts
(`CopyGhostBlockCellData.h`) and work on this copy. Which cells of other octants, how far away, determine the results.
-/

namespace Verif.Sim

open Verif.Octree Verif.Cells Verif.Flux Verif.Hydro Verif.Remap
open Verif.Partition (Within)

variable {d : ℕ} {G : Grid d} {M Mr : Finset (Oct d)} {b : Fin d → ℕ} {o o' : Oct d} {x x' : Fin d → ℕ}

/-! ### Distance in layers of cells -/

theorem width_nonneg (hG : G.Pos) (o : Oct d) (i : Fin d) : 0 ≤ (hi G o i - lo G o i) / (b i : ℚ) :=
  div_nonneg (by have := lo_lt_hi hG o i; linarith) (by positivity)

theorem Within.mono (hG : G.Pos) {n m : ℕ} (hnm : n ≤ m) (h : Within G b n o o' x) : Within G b m o o' x := by
  intro i
  obtain ⟨s, h0, h1, h2, h3, h4⟩ := h i
  have hw := width_nonneg (b := b) hG o' i
  have : (n : ℚ) * ((hi G o' i - lo G o' i) / b i) ≤ m * ((hi G o' i - lo G o' i) / b i) :=
    mul_le_mul_of_nonneg_right (by exact_mod_cast hnm) hw
  exact ⟨s, h0, h1, h2, by linarith, by linarith⟩

theorem Within.touch {n : ℕ} (h : Within G b n o o' x) : Touch G o o' := Touch.symm fun i => by
  obtain ⟨t, h1, h2, h3, -, -⟩ := h i
  exact ⟨t, h1, h2, h3⟩

/-- Moving by `m` cells in the same octant. -/
theorem Within.move (hG : G.Pos) (hb : ∀ k, 0 < b k) {n m : ℕ} (h : Within G b n o o' x)
    (hm : ∀ k, (x' k : ℤ) ≤ x k + m ∧ (x k : ℤ) ≤ x' k + m) : Within G b (n + m) o o' x' := by
  intro i
  obtain ⟨s, h0, h1, h2, h3, h4⟩ := h i
  have hw := width_nonneg (b := b) hG o' i
  rw [cell_lo hG hb] at h3 ⊢
  rw [cell_hi hG hb] at h4 ⊢
  generalize (hi G o' i - lo G o' i) / (b i : ℚ) = w at *
  have a1 : (x' i : ℚ) ≤ x i + m := by exact_mod_cast (hm i).1
  have a2 : (x i : ℚ) ≤ x' i + m := by exact_mod_cast (hm i).2
  have a3 := mul_le_mul_of_nonneg_right a1 hw
  have a4 := mul_le_mul_of_nonneg_right a2 hw
  push_cast
  exact ⟨s, h0, h1, h2, by linarith, by linarith⟩

/-- A cell of `o'` that overlaps the place `z`, counted in cells of `o` from its first one, where `z` is at most `t`
layers outside of `o`. The cells of `o'` are `u / 2` times as large as those of `o`. -/
theorem within_of_overlap (hG : G.Pos) (hb : ∀ k, 4 ≤ b k) (hx : ∀ k, x k < b k) {t n u : ℕ} (ht : t ≤ 2) (hu : 0 < u)
    (hn : 2 * t ≤ n * u) (hc : ∀ i, G.count i o'.level * u = 2 * G.count i o.level) {z : Fin d → ℤ}
    (hz : ∀ k, -(t : ℤ) ≤ z k ∧ z k < b k + t)
    (h : ∀ i, ∃ s : ℤ, Shift G i s ∧
      (u : ℤ) * (o'.pos i * b i + x i) < 2 * (o.pos i * b i + z i + s * (G.count i o.level * b i)) + 2 ∧
      2 * (o.pos i * b i + z i + s * (G.count i o.level * b i)) < (u : ℤ) * (o'.pos i * b i + x i) + u) :
    Within G b n o o' x := by
  intro i
  obtain ⟨s, hs, h1, h2⟩ := h i
  have hb4 := hb i
  have hb0 : ∀ k, 0 < b k := fun k => by have := hb k; omega
  have hzi := hz i
  have hxi := hx i
  -- integers, in halves of a cell of `o`
  have e1 : (u : ℤ) * (o'.pos i * b i + x i) < 2 * (o.pos i + 1 + s * G.count i o.level) * b i + n * u := by
    have : (n : ℤ) * u ≥ 2 * t := by exact_mod_cast hn
    nlinarith
  have e2 : 2 * (o.pos i + s * G.count i o.level) * b i < (u : ℤ) * (o'.pos i * b i + x i + 1) + n * u := by
    have : (n : ℤ) * u ≥ 2 * t := by exact_mod_cast hn
    nlinarith
  have e3 : (u : ℤ) * o'.pos i ≤ 2 * (o.pos i + 1 + s * G.count i o.level) := by
    have hux : (0 : ℤ) ≤ u * x i := by positivity
    have : (u : ℤ) * o'.pos i * b i < (2 * (o.pos i + 1 + s * G.count i o.level) + 1) * b i := by nlinarith
    have := lt_of_mul_lt_mul_right this (by positivity)
    omega
  have e4 : 2 * (o.pos i + s * G.count i o.level) ≤ (u : ℤ) * (o'.pos i + 1) := by
    have hux : (u : ℤ) * (x i + 1) ≤ u * b i := mul_le_mul_of_nonneg_left (by omega) (by positivity)
    have : (2 * (o.pos i + s * G.count i o.level) - 1) * b i < (u : ℤ) * (o'.pos i + 1) * b i := by nlinarith
    have := lt_of_mul_lt_mul_right this (by positivity)
    omega
  -- as fractions of the domain
  have c0 : (0 : ℚ) < G.count i o.level := by exact_mod_cast count_pos hG i _
  have c1 : (0 : ℚ) < G.count i o'.level := by exact_mod_cast count_pos hG i _
  have hu' : (0 : ℚ) < u := by exact_mod_cast hu
  have hb' : (0 : ℚ) < b i := by exact_mod_cast hb0 i
  have hci : (G.count i o'.level : ℚ) * u = 2 * G.count i o.level := by exact_mod_cast hc i
  set q : ℚ := 1 / (2 * G.count i o.level) with hq
  have q0 : 0 < q := by positivity
  have l1 : lo G o i = q * (2 * o.pos i) := by unfold lo; rw [hq]; field_simp
  have l2 : hi G o i = q * (2 * (o.pos i + 1)) := by unfold hi; rw [hq]; field_simp
  have l5 : (s : ℚ) = q * (2 * (s * G.count i o.level)) := by rw [hq]; field_simp
  have l3 : lo G o' i = q * (u * o'.pos i) := by
    unfold lo; rw [hq, ← hci]; field_simp
  have l4 : hi G o' i = q * (u * (o'.pos i + 1)) := by
    unfold hi; rw [hq, ← hci]; field_simp
  have lw : (hi G o' i - lo G o' i) / b i = q / b i * u := by rw [l3, l4]; field_simp; ring
  rw [cell_lo hG hb0, cell_hi hG hb0, lw]
  have q1 : 0 < q / b i := by positivity
  refine ⟨s, hs, ?_, ?_, ?_, ?_⟩
  · rw [l3, l2, l5, ← mul_add]
    refine mul_le_mul_of_nonneg_left ?_ q0.le
    have : (u : ℚ) * o'.pos i ≤ 2 * (o.pos i + 1 + s * G.count i o.level) := by exact_mod_cast e3
    linarith
  · rw [l1, l4, l5, ← mul_add]
    refine mul_le_mul_of_nonneg_left ?_ q0.le
    have : 2 * (o.pos i + s * G.count i o.level) ≤ (u : ℚ) * (o'.pos i + 1) := by exact_mod_cast e4
    linarith
  · have : (u : ℚ) * (o'.pos i * b i + x i) < 2 * (o.pos i + 1 + s * G.count i o.level) * b i + n * u := by
      exact_mod_cast e1
    have := mul_lt_mul_of_pos_left this q1
    rw [l3, l2, l5]
    calc _ = q / b i * (u * (o'.pos i * b i + x i)) := by field_simp
      _ < _ := this
      _ = _ := by field_simp
  · have : 2 * (o.pos i + s * G.count i o.level) * b i < (u : ℚ) * (o'.pos i * b i + x i + 1) + n * u := by
      exact_mod_cast e2
    have := mul_lt_mul_of_pos_left this q1
    rw [l3, l1, l5]
    calc _ = q / b i * (2 * (o.pos i + s * G.count i o.level) * b i) := by field_simp
      _ < _ := this
      _ = _ := by field_simp; ring

/-! ### Cells of a patch -/

theorem levelDiff_smaller {r : CellIndex d} (h : r.status = .smaller) : r.levelDiff = -1 := by
  unfold CellIndex.levelDiff; rw [h]; decide

/-- What a cell of a patch is filled from, on the mesh and on a rank. -/
theorem patch_cell (h : Around G M Mr o) (hb : ∀ k, 4 ≤ b k ∧ 2 ∣ b k) {t : ℕ} (ht : t ≤ 2) {z : Fin d → ℤ}
    (hz : ∀ k, -(t : ℤ) ≤ z k ∧ z k < b k + t) :
    ∃ r, convertIndexGhost G M b (patchCell b (fun _ => 2) o fun k => (z k + 2).toNat) = some r ∧
      convertIndexGhost G Mr b (patchCell b (fun _ => 2) o fun k => (z k + 2).toNat) = some r ∧
      (r.status = .boundary ∧ r.oct = o ∨ r.status ≠ .boundary ∧
        (r.levelDiff ≥ 0 ∧ r.oct ∈ M ∧ (∀ k, r.idx k < b k) ∧ Within G b t o r.oct r.idx ∨
        ¬ r.levelDiff ≥ 0 ∧ ∃ rs : List (CellIndex d), foreachSibling true G M r = rs.map some ∧
          foreachSibling true G Mr r = rs.map some ∧
          ∀ n ∈ rs, n.oct ∈ M ∧ (∀ k, n.idx k < b k) ∧ Within G b (2 * t) o n.oct n.idx)) := by
  have hG := h.wf.toPos
  have hM := h.tiling
  have ho := h.sub _ h.mem
  have hb4 : ∀ k, 4 ≤ b k := fun k => (hb k).1
  have hb0 : ∀ k, 0 < b k := fun k => by have := hb4 k; omega
  have hz2 : ∀ k, -2 ≤ z k ∧ z k < b k + 2 := fun k => by have := hz k; omega
  have hy : ∀ k, (z k + 2).toNat < b k + 2 * 2 := fun k => by have := hz2 k; omega
  have hcg : convertIndexGhost G Mr b (patchCell b (fun _ => 2) o fun k => (z k + 2).toNat) =
      convertIndexGhost G M b (patchCell b (fun _ => 2) o fun k => (z k + 2).toNat) := by
    unfold convertIndexGhost convertIndexGhostAux
    simp only
    rw [getNeighborGhost_congr h.wf hM h.sub _ ho h.complete]
  rw [hcg]
  have hpl : patchPos b (fun _ => 2) o (fun k => (z k + 2).toNat) = Hancock.place b o z := Hancock.patchPos_place hz2
  by_cases hin : InDomain (cellGrid G b) o.level (patchPos b (fun _ => 2) o fun k => (z k + 2).toNat)
  swap
  · obtain ⟨r, h1, h2, h3, -⟩ := C24_boundary hG hM ho hb0 (g := fun _ => 2) (fun k => by have := hb4 k; omega) hy hin
    exact ⟨r, h1, h1, Or.inl ⟨h2, h3⟩⟩
  obtain ⟨r, P, h1, h2, h3, h4, h5, h6⟩ := C24_ghost_partial hG hM h.balanced ho hb0 (g := fun _ => 2)
    (fun k => by have := hb4 k; omega) (fun _ _ _ _ k => ⟨by have := hb4 k; omega, (hb k).2⟩) hy hin
  rw [hpl] at h5
  have hlv := (hM.valid o ho).1
  -- the place of the cell, through periodic boundaries
  have hP : ∀ i, ∃ s : ℤ, Shift G i s ∧ (P i : ℤ) = o.pos i * b i + z i + s * (G.count i o.level * b i) := by
    intro i
    obtain ⟨-, s, hs, e⟩ := h5 i
    refine ⟨-s, ?_, ?_⟩
    · rcases hs with rfl | ⟨hp, hs⟩
      · left; rfl
      · right; exact ⟨hp, by omega⟩
    · rw [count_cell] at e
      unfold Hancock.place at e
      push_cast at e
      linarith
  refine ⟨r, h1, h1, Or.inr ?_⟩
  rcases h6 with ⟨st, e⟩ | ⟨st, hl, e⟩ | ⟨st, e⟩
  · have hl : r.oct.level = o.level := by
      have := congrArg (fun q : Oct d => q.level) e
      exact this
    refine ⟨by rcases st with st | st <;> rw [st] <;> decide, Or.inl ⟨?_, h2, h3, ?_⟩⟩
    · unfold CellIndex.levelDiff; rcases st with st | st <;> rw [st] <;> decide
    · refine within_of_overlap hG hb4 h3 (u := 2) ht (by norm_num) (by omega)
        (fun i => by rw [hl]; ring) hz fun i => ?_
      obtain ⟨s, hs, hPi⟩ := hP i
      have ei : r.oct.pos i * b i + r.idx i = P i := congrFun (congrArg (fun q : Oct d => q.pos) e) i
      have ei : (r.oct.pos i * b i + r.idx i : ℤ) = P i := by exact_mod_cast ei
      refine ⟨s, hs, ?_, ?_⟩ <;> rw [ei, ← hPi] <;> push_cast <;> omega
  · refine ⟨by rw [st]; decide, Or.inl ⟨?_, h2, h3, ?_⟩⟩
    · unfold CellIndex.levelDiff; rw [st]; decide
    · refine within_of_overlap hG hb4 h3 (u := 4) ht (by norm_num) (by omega) (fun i => ?_) hz fun i => ?_
      · have := count_add G i 1 (hM.valid _ h2).1
        rw [hl] at this
        rw [this]
        ring
      · obtain ⟨s, hs, hPi⟩ := hP i
        have ei := e.2 i
        have : o.level - r.oct.level = 1 := by omega
        simp only [cellOct, this, pow_one] at ei
        have ei : (r.oct.pos i * b i + r.idx i : ℤ) = (P i / 2 : ℕ) := by exact_mod_cast ei.symm
        refine ⟨s, hs, ?_, ?_⟩ <;> rw [ei, ← hPi] <;> push_cast <;> omega
  · have hlev : r.oct.level = o.level + 1 := congrArg (fun q : Oct d => q.level) e
    refine ⟨by rw [st]; decide, Or.inr ⟨by rw [levelDiff_smaller st]; decide, ?_⟩⟩
    obtain ⟨rs, e1, e2, -, e4⟩ := C25_siblings hG hM h.balanced true r h2 (by rw [h4]; exact h3)
      (fun k => by rw [h4, e]; exact ⟨P k, rfl⟩) (Or.inl fun k => by rw [h4]; exact (hb k).2)
    rw [h4] at e2 e4
    have key : ∀ n ∈ rs, n.oct ∈ M ∧ (∀ k, n.idx k < b k) ∧ n.oct.level = r.oct.level ∧
        Within G b (2 * t) o n.oct n.idx := by
      intro n hn
      have hq := (e4 (cellOct b n.oct n.idx)).1 (List.mem_map.2 ⟨n, hn, rfl⟩)
      have hln : n.oct.level = r.oct.level := hq.1
      refine ⟨(e2 n hn).1, (e2 n hn).2, hln, ?_⟩
      refine within_of_overlap hG hb4 (e2 n hn).2 (u := 1) ht (by norm_num) (by omega) (fun i => ?_) hz fun i => ?_
      · rw [hln, hlev, count_add G i 1 hlv]
        ring
      · obtain ⟨s, hs, hPi⟩ := hP i
        have ei := hq.2 i
        rw [e] at ei
        simp only [cellOct] at ei
        have ew : ((n.oct.pos i * b i + n.idx i : ℕ) : ℤ) = n.oct.pos i * b i + n.idx i := by push_cast; ring
        refine ⟨s, hs, ?_, ?_⟩ <;> rw [← hPi, ← ew] <;>
          generalize n.oct.pos i * b i + n.idx i = w at ei <;> push_cast <;> omega
    refine ⟨rs, e1, ?_, fun n hn => ⟨(key n hn).1, (key n hn).2.1, (key n hn).2.2.2⟩⟩
    rw [← e1]
    unfold foreachSibling
    refine List.map_congr_left fun δ hδ => ?_
    have hm : getSiblingCell true G M r δ ∈ rs.map some := by
      rw [← e1]
      exact List.mem_map.2 ⟨δ, hδ, rfl⟩
    obtain ⟨n, hn, hn'⟩ := List.mem_map.1 hm
    rw [← hn']
    have hn' := hn'.symm
    unfold getSiblingCell at hn' ⊢
    simp only [if_true] at hn' ⊢
    exact getNeighborGhost_same hn' (key n hn).2.2.1 (h.complete _ (key n hn).1 (Within.touch (key n hn).2.2.2))

theorem mapM_id_some {α : Type} (l : List α) : (l.map some).mapM id = some l := by
  induction l with
  | nil => rfl
  | cons a l ih => rw [List.map_cons, List.mapM_cons, ih]; rfl

variable {V : Type} {I I' : Source d V}

/-- Equal on the cells of `o` and on the cells of other leaves at most `n` layers away from it. -/
def AgreeWithin {T : Type} (G : Grid d) (b : Fin d → ℕ) (n : ℕ) (M : Finset (Oct d)) (o : Oct d)
    (F F' : Oct d → (Fin d → ℕ) → T) : Prop :=
  (∀ x : Fin d → ℕ, (∀ k, x k < b k) → F o x = F' o x) ∧
  ∀ o' ∈ M, ∀ x : Fin d → ℕ, (∀ k, x k < b k) → Within G b n o o' x → F o' x = F' o' x

/-- Patches of `o` filled from `I` and `I'`: same values in `n` layers, same values beyond boundaries, same means. -/
structure SameSource (G : Grid d) (b : Fin d → ℕ) (n : ℕ) (M : Finset (Oct d)) (o : Oct d) (I I' : Source d V) : Prop where
  values : AgreeWithin G b n M o I.U I'.U
  bval : ∀ r : CellIndex d, r.status = .boundary → r.oct = o → I.bval r = I'.bval r
  avg : I.avg = I'.avg

/-- A rank fills a patch from the same cells as on the whole mesh. -/
theorem patchRead_mesh (h : Around G M Mr o) (hb : ∀ k, 4 ≤ b k ∧ 2 ∣ b k) (z : Fin d → ℤ) :
    patchRead I G Mr b o z = patchRead I G M b o z := by
  by_cases hz : ∀ k, -((2 : ℕ) : ℤ) ≤ z k ∧ z k < b k + (2 : ℕ)
  · rw [patchRead_eq hz, patchRead_eq hz]
    obtain ⟨r, h1, h2, h3⟩ := patch_cell h hb (le_refl 2) hz
    unfold patchVal
    rw [h1, h2, Option.bind_some, Option.bind_some]
    rcases h3 with ⟨h3, -⟩ | ⟨h3, h4 | ⟨h4, rs, e1, e2, -⟩⟩
    · rw [if_pos h3, if_pos h3]
    · rw [if_neg h3, if_neg h3, if_pos h4.1, if_pos h4.1]
    · rw [if_neg h3, if_neg h3, if_neg h4, if_neg h4, e1, e2]
  · unfold patchRead inBlock
    rw [if_neg]
    · rfl
    · intro h
      refine hz fun k => ?_
      have := h k
      push_cast at this ⊢
      omega

theorem patchVal_read {y : Fin d → ℕ} (hy : ∀ k, y k < b k + 2 * 2) :
    patchVal I G M b o y = patchRead I G M b o fun k => (y k : ℤ) - 2 := by
  rw [patchRead_eq fun k => by have := hy k; omega]
  congr 1
  funext k
  omega

/-- What is in `t` layers of a patch is given by `2 * t` layers of cells around the octant. -/
theorem patchRead_values (h : Around G M M o) (hb : ∀ k, 4 ≤ b k ∧ 2 ∣ b k) {t n : ℕ} (ht : t ≤ 2) (hn : 2 * t ≤ n)
    (hI : SameSource G b n M o I I') {z : Fin d → ℤ} (hz : ∀ k, -(t : ℤ) ≤ z k ∧ z k < b k + t) :
    patchRead I G M b o z = patchRead I' G M b o z := by
  have hz2 : ∀ k, -2 ≤ z k ∧ z k < b k + 2 := fun k => by have := hz k; omega
  rw [patchRead_eq hz2, patchRead_eq hz2]
  obtain ⟨r, h1, -, h3⟩ := patch_cell h hb ht hz
  unfold patchVal
  rw [h1, Option.bind_some, Option.bind_some]
  rcases h3 with ⟨h3, h4⟩ | ⟨h3, ⟨h4, h5, h6, h7⟩ | ⟨h4, rs, e1, -, e3⟩⟩
  · rw [if_pos h3, if_pos h3, hI.bval r h3 h4]
  · rw [if_neg h3, if_neg h3, if_pos h4, if_pos h4, hI.values.2 _ h5 _ h6 (Within.mono h.wf.toPos (by omega) h7)]
  · rw [if_neg h3, if_neg h3, if_neg h4, if_neg h4, e1, mapM_id_some]
    simp only [Option.map_some, Option.some.injEq]
    rw [hI.avg]
    congr 1
    refine List.map_congr_left fun m hm => ?_
    obtain ⟨a1, a2, a3⟩ := e3 m hm
    exact hI.values.2 _ a1 _ a2 (Within.mono h.wf.toPos hn a3)

end Verif.Sim
