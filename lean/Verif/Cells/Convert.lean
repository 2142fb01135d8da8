import Verif.Cells.Sibling

/-!
# C24: conversion of cell indices between arrays with and without ghost layers

A patch array with `g k` ghost layers on each side in direction `k` has blocks of size `b + 2 g`.
Its cell `y` of octant `o` stands for lattice position `o.pos * b + y - g`.
-/

namespace Verif.Cells

open Verif.Octree

variable {d : ℕ} {G : Grid d} {M : Finset (Oct d)}

/-- Cell `y` of octant `o` in a patch array with `g` ghost layers. -/
def patchCell (b g : Fin d → ℕ) (o : Oct d) (y : Fin d → ℕ) : CellIndex d :=
  ⟨o, y, fun k => b k + 2 * g k, .localToBlock⟩

/-- The lattice position it stands for. -/
def patchPos (b g : Fin d → ℕ) (o : Oct d) (y : Fin d → ℕ) (k : Fin d) : ℤ :=
  (o.pos k * b k : ℕ) + (y k : ℤ) - g k

theorem shifted_patch (b g : Fin d → ℕ) (o : Oct d) (y : Fin d → ℕ) (k : Fin d) :
    shifted b (patchCell b g o y) k = (y k : ℤ) - g k := by
  unfold shifted patchCell
  have : ((b k : ℤ) - (b k + 2 * g k : ℕ)) = (-(g k : ℤ)) * 2 := by push_cast; ring
  simp only
  rw [this, Int.mul_tdiv_cancel _ (by norm_num)]
  ring

theorem patch_b_ne {b g : Fin d → ℕ} (h : ∃ k, g k ≠ 0) : (fun k => b k + 2 * g k) ≠ b := by
  obtain ⟨k, hk⟩ := h
  intro e
  have := congrFun e k
  omega

theorem patch_b_eq {b g : Fin d → ℕ} (h : ¬ ∃ k, g k ≠ 0) : (fun k => b k + 2 * g k) = b := by
  push Not at h
  funext k
  rw [h k]; rfl

/-- C24 (interior cells): converting to the array without ghosts gives the cell of the same octant at
the same place, by any of the three functions, and converting back gives the index one started
from. -/
theorem C24_interior (b g : Fin d → ℕ) (o : Oct d) (y : Fin d → ℕ)
    (hy : ∀ k, g k ≤ y k ∧ y k < g k + b k) :
    convertIndex b (patchCell b g o y) = some ⟨o, fun k => y k - g k, b, .localToBlock⟩ ∧
    convertIndexLocalGhost b (patchCell b g o y) = ⟨o, fun k => y k - g k, b, .localToBlock⟩ ∧
    convertIndexGhost G M b (patchCell b g o y) = some ⟨o, fun k => y k - g k, b, .localToBlock⟩ ∧
    convertIndex (fun k => b k + 2 * g k) ⟨o, fun k => y k - g k, b, .localToBlock⟩ =
      some (patchCell b g o y) := by
  by_cases hg : ∃ k, g k ≠ 0
  · have hne := patch_b_ne (b := b) hg
    have hne' : (patchCell b g o y).b ≠ b := hne
    have hin : ∀ k, 0 ≤ shifted b (patchCell b g o y) k ∧ shifted b (patchCell b g o y) k < b k := by
      intro k
      rw [shifted_patch]
      have := hy k
      omega
    have e : (fun k => (shifted b (patchCell b g o y) k).toNat) = fun k => y k - g k := by
      funext k
      rw [shifted_patch]
      have := hy k
      omega
    refine ⟨?_, ?_, ?_, ?_⟩
    · unfold convertIndex
      rw [if_neg hne', inBlock_eq_some hin, e]
      rfl
    · unfold convertIndexLocalGhost
      rw [if_neg hne', inBlock_eq_some hin, e]
      rfl
    · unfold convertIndexGhost convertIndexGhostAux
      rw [if_neg hne']
      simp only
      rw [if_neg (by push Not; exact hin), e]
      simp only [Option.bind_some, lt_irrefl, if_false, ne_eq, not_true, exists_false, and_false]
      rfl
    · unfold convertIndex
      simp only
      rw [if_neg (Ne.symm hne)]
      have hsh : ∀ k, shifted (fun k => b k + 2 * g k)
          (⟨o, fun k => y k - g k, b, .localToBlock⟩ : CellIndex d) k = y k := by
        intro k
        unfold shifted
        simp only
        have : (((b k + 2 * g k : ℕ) : ℤ) - b k) = (g k : ℤ) * 2 := by push_cast; ring
        rw [this, Int.mul_tdiv_cancel _ (by norm_num)]
        have := hy k
        omega
      rw [inBlock_eq_some]
      · simp only [hsh, Int.toNat_natCast, Option.map_some]
        rfl
      · intro k
        rw [hsh]
        have := hy k
        omega
  · have hb := patch_b_eq (b := b) hg
    have hb' : (patchCell b g o y).b = b := hb
    have e : patchCell b g o y = ⟨o, fun k => y k - g k, b, .localToBlock⟩ := by
      push Not at hg
      unfold patchCell
      rw [hb]
      congr 1
      funext k
      rw [hg k]; rfl
    refine ⟨?_, ?_, ?_, ?_⟩
    · unfold convertIndex; rw [if_pos hb', e]
    · unfold convertIndexLocalGhost; rw [if_pos hb', e]
    · unfold convertIndexGhost convertIndexGhostAux
      rw [if_pos hb', e]
      simp
    · unfold convertIndex
      rw [if_pos hb.symm, e]

/-- C24 (cells outside the block, array without ghosts): the index is flagged invalid, never
redirected. -/
theorem C24_local_ghost_invalid (b g : Fin d → ℕ) (o : Oct d) (y : Fin d → ℕ)
    (hy : ∀ k, y k < b k + 2 * g k) (hout : ¬ ∀ k, g k ≤ y k ∧ y k < g k + b k) :
    (convertIndexLocalGhost b (patchCell b g o y)).status = .invalid := by
  have hg : ∃ k, g k ≠ 0 := by
    by_contra h
    push Not at h
    refine hout fun k => ?_
    have := hy k
    rw [h k] at this ⊢
    omega
  unfold convertIndexLocalGhost
  have hne : (patchCell b g o y).b ≠ b := patch_b_ne hg
  rw [if_neg hne]
  have : inBlock b (shifted b (patchCell b g o y)) = none := by
    unfold inBlock
    rw [if_neg]
    intro h
    refine hout fun k => ?_
    have := h k
    rw [shifted_patch] at this
    omega
  rw [this]

theorem clamp_sum {b : ℕ} (hb : 0 < b) (i : ℤ) : (clampIn b i : ℤ) + clampOff b i = i := by
  unfold clampIn clampOff
  split_ifs <;> omega

theorem clampIn_lt {b : ℕ} (hb : 0 < b) (i : ℤ) : clampIn b i < b := by
  unfold clampIn
  split_ifs <;> omega

theorem clampOff_neg (b : ℕ) (i : ℤ) : clampOff b i < 0 ↔ i < 0 := by
  unfold clampOff
  split_ifs <;> omega

section ghost

variable {b g : Fin d → ℕ} {o : Oct d} {y : Fin d → ℕ}

theorem clampOff_abs (hy : ∀ k, y k < b k + 2 * g k) (k : Fin d) :
    |clampOff (b k) (shifted b (patchCell b g o y) k)| ≤ g k := by
  have := hy k
  rw [shifted_patch, abs_le]
  unfold clampOff
  split_ifs <;> omega

theorem target_clamp (hb : ∀ k, 0 < b k) :
    target b o (fun k => clampIn (b k) (shifted b (patchCell b g o y) k))
      (fun k => clampOff (b k) (shifted b (patchCell b g o y) k)) = patchPos b g o y := by
  funext k
  simp only [target, patchPos]
  have := clamp_sum (hb k) (shifted b (patchCell b g o y) k)
  rw [shifted_patch] at this ⊢
  push_cast
  omega

/-- What `convert_index_getNeighbor` returns for any cell of the patch. -/
theorem aux_spec (hG : G.Pos) (hM : Tiling G M) (hB : Balanced G M) (ho : o ∈ M)
    (hb : ∀ k, 0 < b k) (hg : ∀ k, g k ≤ b k)
    (hsm : ∀ n ∈ M, Touch G o n → o.level < n.level → ∀ k, 2 * g k ≤ b k + 1)
    (hy : ∀ k, y k < b k + 2 * g k) (hin : InDomain (cellGrid G b) o.level (patchPos b g o y)) :
    ∃ r P off, convertIndexGhostAux G M b (patchCell b g o y) = some (r, off) ∧ r.oct ∈ M ∧
      (∀ k, r.idx k < b k) ∧ r.b = b ∧ Wraps (cellGrid G b) o.level (patchPos b g o y) P ∧
      ((r.status = .localToBlock ∨ r.status = .sameSize) ∧ cellOct b r.oct r.idx = ⟨o.level, P⟩ ∨
        (r.status = .bigger ∧ G.lmin < o.level ∧
          cellOct b r.oct r.idx = ⟨o.level - 1, fun k => P k / 2⟩) ∨
        (r.status = .smaller ∧ Touch G o r.oct ∧ (∀ k, off k < 0 ↔ (y k : ℤ) - g k < 0) ∧
          cellOct b r.oct r.idx = ⟨o.level + 1, fun k =>
          2 * P k + (if (y k : ℤ) - g k < 0 then 1 else 0)⟩)) := by
  unfold convertIndexGhostAux
  by_cases hg0 : ∃ k, g k ≠ 0
  · have hne : (patchCell b g o y).b ≠ b := patch_b_ne hg0
    rw [if_neg hne]
    simp only
    split_ifs with hout
    · have habs := fun k => clampOff_abs (o := o) hy k
      have hin' : InDomain (cellGrid G b) o.level
          (target b o (fun k => clampIn (b k) (shifted b (patchCell b g o y) k))
            (fun k => clampOff (b k) (shifted b (patchCell b g o y) k))) := by
        rw [target_clamp hb]; exact hin
      obtain ⟨r, h1, h2, h3, h4, h5⟩ := getNeighborGhost_inDomain hG hM hB
        ⟨o, fun k => clampIn (b k) (shifted b (patchCell b g o y) k), b, .localToBlock⟩ ho
        (fun k => clampIn_lt (hb k) _)
        (fun k => clampOff (b k) (shifted b (patchCell b g o y) k))
        (fun k => le_trans (habs k) (by exact_mod_cast hg k))
        (fun n hn ht hl k => by
          have h7 := hsm n hn ht hl k
          have := habs k
          simp only
          omega) hin'
      have hw := samePos_wraps hG (hM.valid o ho) (fun k => clampIn_lt (hb k) _)
        (fun k => le_trans (habs k) (by exact_mod_cast hg k)) hin'
      rw [target_clamp hb] at hw
      refine ⟨r, _, _, by
        rw [show (patchCell b g o y).oct = o from rfl, h1]; rfl, h2, h3, h4, hw, ?_⟩
      simp only at h5
      rcases h5 with ⟨s, e⟩ | ⟨s, hl, e⟩ | ⟨s, ht, e⟩
      · exact Or.inl ⟨s.imp_left And.left, e⟩
      · exact Or.inr (Or.inl ⟨s, hl, e⟩)
      · refine Or.inr (Or.inr ⟨s, ht, fun k => ?_, ?_⟩)
        · rw [clampOff_neg, shifted_patch]
        · rw [e]
          refine Oct.ext' rfl fun k => ?_
          simp only
          have h8 := clamp_sum (hb k) (shifted b (patchCell b g o y) k)
          have h9 := shifted_patch b g o y k
          congr 1
          by_cases hlt : (y k : ℤ) - g k < 0
          · rw [if_pos hlt]
            exact if_pos (by rw [h8, h9]; exact hlt)
          · rw [if_neg hlt]
            exact if_neg (by rw [h8, h9]; exact hlt)
    · push Not at hout
      refine ⟨_, fun k => (patchPos b g o y k).toNat, _, rfl, ho, fun k => ?_, rfl, fun k => ?_,
        Or.inl ⟨Or.inl rfl, Oct.ext' rfl fun k => ?_⟩⟩
      · have := hout k; simp only; omega
      · have h1 := hout k
        have h2 := (hM.valid o ho).2 k
        rw [shifted_patch] at h1
        rw [count_cell]
        have h3 : o.pos k * b k + b k ≤ G.count k o.level * b k := by
          have := Nat.mul_le_mul_right (b k) h2
          rw [Nat.succ_mul] at this
          exact this
        simp only [patchPos]
        generalize o.pos k * b k = q at *
        generalize G.count k o.level * b k = n at *
        refine ⟨by omega, 0, Or.inl rfl, by omega⟩
      · have h1 := hout k
        rw [shifted_patch] at h1
        simp only [cellOct, patchPos, shifted_patch]
        rw [show (patchCell b g o y).oct = o from rfl]
        generalize o.pos k * b k = q at *
        omega
  · have hbe : (patchCell b g o y).b = b := patch_b_eq hg0
    rw [if_pos hbe]
    push Not at hg0
    have hyb : ∀ k, y k < b k := fun k => by have := hy k; rw [hg0 k] at this; omega
    refine ⟨_, fun k => o.pos k * b k + y k, _, rfl, ho, hyb, patch_b_eq (by push Not; exact hg0),
      fun k => ⟨?_, 0, Or.inl rfl, ?_⟩, Or.inl ⟨Or.inl rfl, rfl⟩⟩
    · exact (cell_valid (hM.valid o ho) hyb).2 k
    · unfold patchPos
      rw [hg0 k]
      push_cast
      ring

/-- C24 (partial: next to finer octants the ghost layers are at most half a block wide and the block
sizes even, see `C24_wide_ghosts_undefined`): the cell of the global array for any cell of the patch, ghost layers included, is the cell
of the mesh at the same place: the same cell, or the coarser cell that contains it, or the first of
the finer cells it contains. -/
theorem C24_ghost_partial (hG : G.Pos) (hM : Tiling G M) (hB : Balanced G M) (ho : o ∈ M)
    (hb : ∀ k, 0 < b k) (hg : ∀ k, g k ≤ b k)
    (hsm : ∀ n ∈ M, Touch G o n → o.level < n.level → ∀ k, 2 * g k ≤ b k + 1 ∧ 2 ∣ b k)
    (hy : ∀ k, y k < b k + 2 * g k) (hin : InDomain (cellGrid G b) o.level (patchPos b g o y)) :
    ∃ r P, convertIndexGhost G M b (patchCell b g o y) = some r ∧ r.oct ∈ M ∧
      (∀ k, r.idx k < b k) ∧ r.b = b ∧ Wraps (cellGrid G b) o.level (patchPos b g o y) P ∧
      ((r.status = .localToBlock ∨ r.status = .sameSize) ∧ cellOct b r.oct r.idx = ⟨o.level, P⟩ ∨
        r.status = .bigger ∧ r.oct.level + 1 = o.level ∧
          Anc (cellOct b r.oct r.idx) ⟨o.level, P⟩ ∨
        r.status = .smaller ∧
          cellOct b r.oct r.idx = ⟨o.level + 1, fun k => 2 * P k⟩) := by
  obtain ⟨r, P, off, h1, h2, h3, h4, h5, h6⟩ := aux_spec hG hM hB ho hb hg
    (fun n hn ht hl k => (hsm n hn ht hl k).1) hy hin
  unfold convertIndexGhost
  rw [h1]
  simp only [Option.bind_some]
  rcases h6 with ⟨s, e⟩ | ⟨s, hl, e⟩ | ⟨s, ht, hneg, e⟩
  · have : r.levelDiff ≠ -1 := by
      unfold CellIndex.levelDiff
      rcases s with s | s <;> rw [s] <;> decide
    rw [if_neg (by tauto)]
    exact ⟨r, P, rfl, h2, h3, h4, h5, Or.inl ⟨s, e⟩⟩
  · have : r.levelDiff ≠ -1 := by
      unfold CellIndex.levelDiff
      rw [s]; decide
    rw [if_neg (by tauto)]
    refine ⟨r, P, rfl, h2, h3, h4, h5, Or.inr (Or.inl ⟨s, ?_, ?_⟩)⟩
    · have : r.oct.level = o.level - 1 := congrArg (fun q : Oct d => q.level) e
      omega
    · rw [e]
      have : o.level - (o.level - 1) = 1 := by omega
      exact ⟨Nat.sub_le _ _, fun k => by simp only; rw [this, pow_one]⟩
  · have hld : r.levelDiff = -1 := by
      unfold CellIndex.levelDiff
      rw [s]; decide
    have hrl : r.oct.level = o.level + 1 := congrArg (fun q : Oct d => q.level) e
    have hrp : ∀ k, r.oct.pos k * b k + r.idx k =
        2 * P k + if (y k : ℤ) - g k < 0 then 1 else 0 := fun k =>
      congrFun (congrArg (fun q : Oct d => q.pos) e) k
    split_ifs with hc
    · -- a finer leaf touches the octant
      have hev : ∀ k, 2 ∣ b k := fun k => (hsm r.oct h2 ht (by omega) k).2
      have hodd : ∀ k, (y k : ℤ) - g k < 0 → 1 ≤ r.idx k := by
        intro k hk
        have h7 := hrp k
        rw [if_pos hk] at h7
        obtain ⟨m, hm⟩ := hev k
        have e2 : r.oct.pos k * b k = 2 * (r.oct.pos k * m) := by rw [hm]; ring
        rw [e2] at h7
        omega
      unfold getNeighbor
      rw [inBlock_eq_some]
      · refine ⟨_, P, rfl, h2, fun k => ?_, h4, h5, Or.inr (Or.inr ⟨rfl, Oct.ext' hrl fun k => ?_⟩)⟩
        · have := h3 k
          simp only
          split_ifs with hk
          · have := hodd k ((hneg k).1 hk); omega
          · omega
        · have h7 := hrp k
          simp only [cellOct]
          by_cases hk : off k < 0
          · have h8 := (hneg k).1 hk
            have := hodd k h8
            rw [if_pos h8] at h7
            rw [if_pos hk]
            omega
          · rw [if_neg (mt (hneg k).2 hk)] at h7
            rw [if_neg hk]
            omega
      · intro k
        have := h3 k
        rw [h4]
        simp only
        split_ifs with hk
        · have := hodd k ((hneg k).1 hk); omega
        · omega
    · refine ⟨r, P, rfl, h2, h3, h4, h5, Or.inr (Or.inr ⟨s, ?_⟩)⟩
      rw [e]
      refine Oct.ext' rfl fun k => ?_
      have : ¬ (y k : ℤ) - g k < 0 := by
        intro h
        refine hc ⟨hld, k, ?_⟩
        rw [if_pos ((hneg k).2 h)]
        decide
      simp only
      rw [if_neg this]; rfl

/-- C24 (cells of the patch outside the domain): the index is flagged as boundary. -/
theorem C24_boundary (hG : G.Pos) (hM : Tiling G M) (ho : o ∈ M)
    (hb : ∀ k, 0 < b k) (hg : ∀ k, g k ≤ b k) (hy : ∀ k, y k < b k + 2 * g k)
    (hin : ¬ InDomain (cellGrid G b) o.level (patchPos b g o y)) :
    ∃ r, convertIndexGhost G M b (patchCell b g o y) = some r ∧ r.status = .boundary ∧ r.oct = o ∧
      ∀ k, (r.idx k : ℤ) - b k = (y k : ℤ) - g k := by
  have hv := hM.valid o ho
  have hout : ∃ k, shifted b (patchCell b g o y) k < 0 ∨
      (b k : ℤ) ≤ shifted b (patchCell b g o y) k := by
    by_contra h
    push Not at h
    refine hin fun k => Or.inr ?_
    have h1 := h k
    have h2 := hv.2 k
    rw [shifted_patch] at h1
    rw [count_cell]
    have h3 : o.pos k * b k + b k ≤ G.count k o.level * b k := by
      have := Nat.mul_le_mul_right (b k) h2
      rw [Nat.succ_mul] at this
      exact this
    simp only [patchPos]
    generalize o.pos k * b k = q at *
    generalize G.count k o.level * b k = n at *
    omega
  have hg0 : ∃ k, g k ≠ 0 := by
    by_contra h
    push Not at h
    obtain ⟨k, hk⟩ := hout
    rw [shifted_patch, h k] at hk
    have := hy k
    rw [h k] at this
    omega
  have hne : (patchCell b g o y).b ≠ b := patch_b_ne hg0
  have habs := fun k => clampOff_abs (o := o) hy k
  have e := getNeighborGhost_boundary (M := M) hG
    ⟨o, fun k => clampIn (b k) (shifted b (patchCell b g o y) k), b, .localToBlock⟩ hv
    (fun k => clampIn_lt (hb k) _)
    (fun k => clampOff (b k) (shifted b (patchCell b g o y) k))
    (fun k => le_trans (habs k) (by exact_mod_cast hg k)) (by simp only; rw [target_clamp hb]; exact hin)
  unfold convertIndexGhost convertIndexGhostAux
  rw [if_neg hne]
  simp only
  rw [if_pos hout, show (patchCell b g o y).oct = o from rfl, e]
  simp only [Option.map_some, Option.bind_some]
  rw [if_neg (by rintro ⟨h, -⟩; simp [CellIndex.levelDiff] at h)]
  refine ⟨_, rfl, rfl, rfl, fun k => ?_⟩
  simp only
  rw [clamp_sum (hb k), shifted_patch]
  have := hy k
  have := hg k
  omega

end ghost

/-- A patch with one ghost layer on the coarse octant of `quad` next to the refined one: the ghost
cell on the right becomes the first of the finer cells it covers, the one on the left a boundary
cell, an inner one stays. -/
example : convertIndexGhost quadGrid quad.toFinset ![2, 2] (patchCell ![2, 2] ![1, 1] ⟨1, ![0, 0]⟩ ![3, 2]) =
      some ⟨⟨2, ![2, 1]⟩, ![0, 0], ![2, 2], .smaller⟩ ∧
    convertIndexGhost quadGrid quad.toFinset ![2, 2] (patchCell ![2, 2] ![1, 1] ⟨1, ![0, 0]⟩ ![0, 2]) =
      some ⟨⟨1, ![0, 0]⟩, ![1, 3], ![2, 2], .boundary⟩ ∧
    convertIndexGhost quadGrid quad.toFinset ![2, 2] (patchCell ![2, 2] ![1, 1] ⟨1, ![0, 0]⟩ ![2, 1]) =
      some ⟨⟨1, ![0, 0]⟩, ![1, 0], ![2, 2], .localToBlock⟩ ∧
    convertIndexGhost quadGrid quad.toFinset ![2, 2] (patchCell ![2, 2] ![1, 1] ⟨1, ![1, 1]⟩ ![0, 0]) =
      some ⟨⟨1, ![0, 0]⟩, ![1, 1], ![2, 2], .sameSize⟩ ∧
    convertIndexGhost quadGrid quad.toFinset ![2, 2] (patchCell ![2, 2] ![1, 1] ⟨1, ![1, 1]⟩ ![1, 0]) =
      some ⟨⟨2, ![2, 1]⟩, ![0, 0], ![2, 2], .smaller⟩ := by
  decide +kernel

/-- More ghost layers than half the block next to a finer octant: no suboctant matches and the code
reads `oct_neighbors[-1]`. -/
theorem C24_wide_ghosts_undefined :
    ∃ (G : Grid 2) (M : List (Oct 2)) (o : Oct 2) (b g y : Fin 2 → ℕ),
      G.WF ∧ Tiling G M.toFinset ∧ Balanced G M.toFinset ∧ o ∈ M ∧ (∀ k, g k ≤ b k) ∧
      (∀ k, y k < b k + 2 * g k) ∧ InDomain (cellGrid G b) o.level (patchPos b g o y) ∧
      convertIndexGhost G M.toFinset b (patchCell b g o y) = none := by
  refine ⟨quadGrid, quad, ⟨1, ![0, 0]⟩, ![2, 2], ![2, 0], ![5, 0], ⟨⟨by decide⟩, by decide⟩, quad_tiling,
    quad_balanced, by decide, by decide, by decide, by unfold InDomain; decide, by decide +kernel⟩

end Verif.Cells
