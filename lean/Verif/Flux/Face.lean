import Verif.Flux.Balance
import Verif.Flux.Volume
import Mathlib.Tactic.Linarith
import Mathlib.Tactic.FieldSimp
import Mathlib.Data.Rat.BigOperators

/-!
# Areas of the faces of a cell

The parts of a face shared with the neighbours add up to the whole face, so that a flux that does not depend on the
place cancels in a cell, and bounded fluxes change a cell by a bounded amount.
-/

namespace Verif.Flux

open Verif.Octree Verif.Cells

variable {d : ℕ} {G : Grid d} {M : Finset (Oct d)} {b : Fin d → ℕ}

theorem card_face (j : Fin d) {s : ℤ} (hs : s ≠ 0) :
    (loops fun k => if faceOff j s k = 0 then [(0 : ℤ), 1] else [0]).length = 2 ^ (d - 1) := by
  rw [length_loops, ← Finset.mul_prod_erase Finset.univ _ (Finset.mem_univ j), faceOff_self, if_neg hs,
    Finset.prod_congr rfl (g := fun _ => 2), Finset.prod_const, Finset.card_erase_of_mem (Finset.mem_univ j),
    Finset.card_univ, Fintype.card_fin]
  · simp
  · intro k hk
    rw [faceOff_ne s (Finset.ne_of_mem_erase hk), if_pos rfl]
    rfl

/-- A face inside the domain is covered by the faces shared with the neighbours. -/
theorem sum_area (hG : G.Pos) (hM : Tiling G M) (hB : Balanced G M) {D : Domain d} (hD : Domain.Ok D) {o : Oct d}
    (ho : o ∈ M) {x : Fin d → ℕ} (hx : ∀ k, x k < b k) (j : Fin d) {s : ℤ} (hs : s = 1 ∨ s = -1)
    (hin : ¬ OnBoundary G b o x j s) :
    ∑ q ∈ nbrs (cellGrid G b) (cellMesh b M) (cellOct b o x) j s, area D (cellGrid G b) j (cellOct b o x) q =
      faceArea D (cellGrid G b) j (cellOct b o x) := by
  have hb : ∀ k, 0 < b k := fun k => by have := hx k; omega
  have hG' := cellGrid_pos hG hb
  have hov := hM.valid _ ho
  have hpos := cellSize_pos hG' hD (cellOct b o x) j
  refine mul_right_cancel₀ hpos.ne' ?_
  rw [faceArea_mul]
  obtain ⟨r, -, h2, -, -, hside⟩ := side hG hM hB ⟨o, x, b, .localToBlock⟩ ho hx rfl j hs (not_not.1 hin)
  have hrv := hM.valid _ h2
  cases hside with
  | same st hl hn hp =>
    simp only at hn hl
    rw [hn, Finset.sum_singleton]
    exact area_of_le hG' hD (c := cellOct b o x) (q := cellOct b r.oct r.idx) hrv.1 (Or.inl hl.symm) j
  | bigger st hl hn hp =>
    simp only at hn hl
    rw [hn, Finset.sum_singleton]
    exact area_of_le hG' hD (c := cellOct b o x) (q := cellOct b r.oct r.idx) hrv.1 (Or.inr hl.symm) j
  | smaller st hl f hf hnd hn =>
    simp only at hl hf hnd hn
    have hL := card_face j (s := s) (by omega)
    have he : nbrs (cellGrid G b) (cellMesh b M) (cellOct b o x) j s =
        ((loops (fun k => if faceOff j s k = 0 then [(0 : ℤ), 1] else [0])).map
          fun δ => cellOct b (f δ).oct (f δ).idx).toFinset := by
      ext q
      rw [hn q, List.mem_toFinset]
    have h2d : (0 : ℚ) < 2 ^ (d - 1) := by positivity
    have hw : ∀ q ∈ nbrs (cellGrid G b) (cellMesh b M) (cellOct b o x) j s, area D (cellGrid G b) j (cellOct b o x) q =
        volume D (cellGrid G b) (cellOct b o x) / (cellSize D (cellGrid G b) (cellOct b o x) j * 2 ^ (d - 1)) := by
      intro q hq
      obtain ⟨δ, hδ, rfl⟩ := List.mem_map.1 ((hn q).1 hq)
      obtain ⟨-, -, -, -, a5, -⟩ := hf δ hδ
      rw [← area_of_finer hG' hD (c := cellOct b o x) (q := cellOct b (f δ).oct (f δ).idx) hov.1 a5 j]
      field_simp
    rw [Finset.sum_congr rfl hw, Finset.sum_const, he, List.toFinset_card_of_nodup hnd, List.length_map, hL, nsmul_eq_mul]
    push_cast
    field_simp

/-! ### The boundary of the domain -/

/-- Adjacent boxes touch: in a domain without periodic directions the upper end of a box is the lower end of its upper
neighbours. -/
theorem nbrs_touch {C : Finset (Oct d)} (hG : G.Pos) (hC : Tiling G C) (hopen : ∀ k, G.periodic k = false) {c q : Oct d}
    (hc : c ∈ C) {j : Fin d} (hq : q ∈ nbrs G C c j 1) : lo G q j = hi G c j := by
  obtain ⟨hqC, hadj⟩ := mem_nbrs.1 hq
  have hs : ∀ k s, Shift G k s → s = 0 := by
    intro k s h
    rcases h with h | ⟨h, -⟩
    · exact h
    · rw [hopen k] at h; exact absurd h (by decide)
  have hj : lo G q j ≤ hi G c j ∧ hi G c j < hi G q j := by
    obtain ⟨s, h1, h2⟩ := hadj j
    rw [hs j s h1] at h2
    have e : dirOf (faceOff j 1) j = SignType.pos := by
      unfold dirOf
      rw [faceOff_self]
      decide
    rw [e] at h2
    simpa [SideAdj] using h2
  refine le_antisymm hj.1 (not_lt.1 fun hlt => ?_)
  have hk : ∀ k, lo G q k < hi G c k ∧ lo G c k < hi G q k := by
    intro k
    by_cases h : k = j
    · subst h
      exact ⟨hlt, (lo_lt_hi hG c k).trans hj.2⟩
    · obtain ⟨s, h1, h2⟩ := hadj k
      rw [hs k s h1] at h2
      have e : dirOf (faceOff j 1) k = SignType.zero := by
        unfold dirOf
        rw [faceOff_ne _ h]
        decide
      rw [e] at h2
      simpa [SideAdj] using h2
  have hv := hC.valid _ hc
  obtain ⟨_, -, hu⟩ := hC.cover (fun k => max (lo G c k) (lo G q k)) fun k => by
    have h0 : 0 ≤ lo G c k := by unfold lo; positivity
    have h1 : hi G c k ≤ 1 := by
      have hp : (0 : ℚ) < G.count k c.level := by exact_mod_cast count_pos hG k _
      unfold hi
      rw [div_le_one hp]
      exact_mod_cast hv.2 k
    exact ⟨h0.trans (le_max_left _ _), lt_of_lt_of_le (max_lt (lo_lt_hi hG c k) (hk k).1) h1⟩
  have e1 := hu c ⟨hc, fun k => ⟨le_max_left _ _, max_lt (lo_lt_hi hG c k) (hk k).1⟩⟩
  have e2 := hu q ⟨hqC, fun k => ⟨le_max_right _ _, max_lt (hk k).2 (lo_lt_hi hG q k)⟩⟩
  have : c = q := e1.trans e2.symm
  rw [this] at hj
  exact lt_irrefl _ hj.2

theorem onBoundary_iff (hopen : ∀ k, G.periodic k = false) (hM : Tiling G M) {o : Oct d} (ho : o ∈ M) {x : Fin d → ℕ}
    (hx : ∀ k, x k < b k) (j : Fin d) :
    (OnBoundary G b o x j 1 ↔ o.pos j * b j + x j + 1 = (cellGrid G b).count j o.level) ∧
      (OnBoundary G b o x j (-1) ↔ o.pos j * b j + x j = 0) := by
  have hv := (cell_valid (hM.valid o ho) hx).2
  simp only [cellOct] at hv
  have key : ∀ s, OnBoundary G b o x j s ↔ ¬ (0 ≤ target b o x (faceOff j s) j ∧
      target b o x (faceOff j s) j < (cellGrid G b).count j o.level) := by
    intro s
    unfold OnBoundary InDomain
    rw [not_iff_not]
    constructor
    · intro h
      rcases h j with h | h
      · change G.periodic j = true at h
        rw [hopen j] at h; exact absurd h (by decide)
      · exact h
    · intro h k
      right
      by_cases hk : k = j
      · rw [hk]; exact h
      · unfold target
        rw [faceOff_ne _ hk, add_zero]
        exact ⟨Int.natCast_nonneg _, by exact_mod_cast hv k⟩
  have hj := hv j
  rw [key, key]
  unfold target
  rw [faceOff_self, faceOff_self]
  constructor
  · constructor
    · intro h; omega
    · intro h; omega
  · constructor
    · intro h; omega
    · intro h; omega

open Classical in
/-- The faces of the cells on one end of a domain without periodic directions add up to the whole end. -/
theorem face_total (hG : G.Pos) (hM : Tiling G M) (hB : Balanced G M) {D : Domain d} (hD : Domain.Ok D) (hb : ∀ k, 0 < b k)
    (hopen : ∀ k, G.periodic k = false) (j : Fin d) {s : ℤ} (hs : s = 1 ∨ s = -1) :
    cellSum b M (fun o x => if OnBoundary G b o x j s then faceArea D (cellGrid G b) j (cellOct b o x) else 0) =
      ∏ k ∈ Finset.univ.erase j, (D.xmax k - D.xmin k) := by
  have hG' := cellGrid_pos hG hb
  have hM' := cellMesh_tiling hG hb hM
  -- a face is inside or on the boundary
  have hside : ∀ {s : ℤ}, s = 1 ∨ s = -1 → ∀ o ∈ M, ∀ x : Fin d → ℕ, (∀ k, x k < b k) →
      ∑ q ∈ nbrs (cellGrid G b) (cellMesh b M) (cellOct b o x) j s, area D (cellGrid G b) j (cellOct b o x) q =
        faceArea D (cellGrid G b) j (cellOct b o x) -
          if OnBoundary G b o x j s then faceArea D (cellGrid G b) j (cellOct b o x) else 0 := by
    intro s hs o ho x hx
    by_cases h : OnBoundary G b o x j s
    · obtain ⟨-, -, -, hn⟩ := outside hG hM hB ⟨o, x, b, .localToBlock⟩ ho hx rfl j hs h
      simp only at hn
      rw [hn, Finset.sum_empty, if_pos h, sub_self]
    · rw [if_neg h, sub_zero, sum_area hG hM hB hD ho hx j hs h]
  -- both ends have the same area
  have h1 : cellSum b M (fun o x => if OnBoundary G b o x j 1 then faceArea D (cellGrid G b) j (cellOct b o x) else 0) =
      cellSum b M (fun o x => if OnBoundary G b o x j (-1) then faceArea D (cellGrid G b) j (cellOct b o x) else 0) := by
    have key' : ∑ c ∈ cellMesh b M, ∑ q ∈ nbrs (cellGrid G b) (cellMesh b M) c j 1, area D (cellGrid G b) j c q =
        ∑ c ∈ cellMesh b M, ∑ q ∈ nbrs (cellGrid G b) (cellMesh b M) c j (-1), area D (cellGrid G b) j c q := by
      rw [sum_faces hG' hM' j fun c q => area D (cellGrid G b) j c q]
      exact Finset.sum_congr rfl fun c _ => Finset.sum_congr rfl fun q _ => area_symm _ _ _ _
    rw [← cellSum_box, ← cellSum_box, cellSum_congr (hside (Or.inl rfl)), cellSum_congr (hside (Or.inr rfl)), cellSum_sub,
      cellSum_sub] at key'
    linarith
  -- and the cells between them fill the domain
  have h2 : cellSum b M (fun o x => if OnBoundary G b o x j 1 then faceArea D (cellGrid G b) j (cellOct b o x) else 0) =
      cellSum b M fun o x => (hi (cellGrid G b) (cellOct b o x) j - lo (cellGrid G b) (cellOct b o x) j) *
        faceArea D (cellGrid G b) j (cellOct b o x) := by
    have key' : ∑ c ∈ cellMesh b M, hi (cellGrid G b) c j *
          ∑ q ∈ nbrs (cellGrid G b) (cellMesh b M) c j 1, area D (cellGrid G b) j c q =
        ∑ c ∈ cellMesh b M, lo (cellGrid G b) c j *
          ∑ q ∈ nbrs (cellGrid G b) (cellMesh b M) c j (-1), area D (cellGrid G b) j c q := by
      have := sum_faces hG' hM' j fun c q => hi (cellGrid G b) c j * area D (cellGrid G b) j c q
      simp only [Finset.mul_sum]
      rw [this]
      refine Finset.sum_congr rfl fun c hc => Finset.sum_congr rfl fun q hq => ?_
      have hq' := (nbrs_symm hG' hM' (Or.inl rfl) (mem_nbrs.1 hq).1 hc).2 hq
      rw [nbrs_touch hG' hM' hopen (mem_nbrs.1 hq).1 hq', area_symm]
    rw [← cellSum_box, ← cellSum_box] at key'
    have e1 : cellSum b M (fun o x => hi (cellGrid G b) (cellOct b o x) j *
        ∑ q ∈ nbrs (cellGrid G b) (cellMesh b M) (cellOct b o x) j 1, area D (cellGrid G b) j (cellOct b o x) q) =
      cellSum b M (fun o x => hi (cellGrid G b) (cellOct b o x) j * faceArea D (cellGrid G b) j (cellOct b o x) -
        if OnBoundary G b o x j 1 then faceArea D (cellGrid G b) j (cellOct b o x) else 0) := by
      refine cellSum_congr fun o ho x hx => ?_
      rw [hside (Or.inl rfl) o ho x hx]
      split
      · rename_i h
        have h := (onBoundary_iff hopen hM ho hx j).1.1 h
        have hp : (0 : ℚ) < (cellGrid G b).count j o.level := by exact_mod_cast count_pos hG' j _
        have : hi (cellGrid G b) (cellOct b o x) j = 1 := by
          change (((o.pos j * b j + x j : ℕ) : ℚ) + 1) / ((cellGrid G b).count j o.level : ℚ) = 1
          rw [div_eq_one_iff_eq hp.ne']
          exact_mod_cast h
        rw [this]; ring
      · ring
    have e2 : cellSum b M (fun o x => lo (cellGrid G b) (cellOct b o x) j *
        ∑ q ∈ nbrs (cellGrid G b) (cellMesh b M) (cellOct b o x) j (-1), area D (cellGrid G b) j (cellOct b o x) q) =
      cellSum b M (fun o x => lo (cellGrid G b) (cellOct b o x) j * faceArea D (cellGrid G b) j (cellOct b o x)) := by
      refine cellSum_congr fun o ho x hx => ?_
      rw [hside (Or.inr rfl) o ho x hx]
      split
      · rename_i h
        have h := (onBoundary_iff hopen hM ho hx j).2.1 h
        have : lo (cellGrid G b) (cellOct b o x) j = 0 := by
          unfold lo
          have : (cellOct b o x).pos j = 0 := h
          rw [this]; simp
        rw [this]; ring
      · ring
    rw [e1, e2, cellSum_sub] at key'
    have e3 : cellSum b M (fun o x => (hi (cellGrid G b) (cellOct b o x) j - lo (cellGrid G b) (cellOct b o x) j) *
        faceArea D (cellGrid G b) j (cellOct b o x)) =
        cellSum b M (fun o x => hi (cellGrid G b) (cellOct b o x) j * faceArea D (cellGrid G b) j (cellOct b o x)) -
        cellSum b M (fun o x => lo (cellGrid G b) (cellOct b o x) j * faceArea D (cellGrid G b) j (cellOct b o x)) := by
      rw [← cellSum_sub]
      exact cellSum_congr fun o _ x _ => by ring
    rw [e3]
    linarith
  have hL : 0 < D.xmax j - D.xmin j := sub_pos.2 (hD j)
  have h3 : (cellSum b M fun o x => (hi (cellGrid G b) (cellOct b o x) j - lo (cellGrid G b) (cellOct b o x) j) *
        faceArea D (cellGrid G b) j (cellOct b o x)) = ∏ k ∈ Finset.univ.erase j, (D.xmax k - D.xmin k) := by
    refine mul_right_cancel₀ hL.ne' ?_
    have hv := sum_volume hG' hM' D
    rw [← cellSum_box] at hv
    rw [mul_comm _ (D.xmax j - D.xmin j), mul_comm _ (D.xmax j - D.xmin j),
      Finset.mul_prod_erase Finset.univ (fun k => D.xmax k - D.xmin k) (Finset.mem_univ j), ← hv, ← cellSum_mul]
    refine cellSum_congr fun o _ x _ => ?_
    rw [← faceArea_mul (G := cellGrid G b) D (cellOct b o x) j]
    unfold cellSize
    ring
  rcases hs with rfl | rfl
  · rw [h2, h3]
  · rw [← h1, h2, h3]

/-! ### Bounded fluxes -/

variable {K : Type} [Field K] [LinearOrder K] [IsStrictOrderedRing K]

/-- The whole face of every side of a cell is either shared with neighbours or on the boundary: a flux between `lo` and `hi`
moves at most that much through it. -/
theorem sideSum_bound (hG : G.Pos) (hM : Tiling G M) (hB : Balanced G M) {D : Domain d} (hD : Domain.Ok D) {o : Oct d}
    (ho : o ∈ M) {x : Fin d → ℕ} (hx : ∀ k, x k < b k) (j : Fin d) {s : ℤ} (hs : s = 1 ∨ s = -1)
    {F : Fin d → Oct d → Oct d → K} {bflux : Oct d → (Fin d → ℕ) → Fin d → ℤ → K} {m : K}
    (hF : ∀ c q, |F j c q| ≤ m) (hbf : |bflux o x j s| ≤ m) :
    |sideSum D G M b F bflux j s o x| ≤ (faceArea D (cellGrid G b) j (cellOct b o x) : K) * m := by
  have hb : ∀ k, 0 < b k := fun k => by have := hx k; omega
  have hG' := cellGrid_pos hG hb
  have ha : ∀ q, (0 : K) ≤ (area D (cellGrid G b) j (cellOct b o x) q : K) := fun q => by
    exact_mod_cast (area_pos hG' hD j _ _).le
  have hfa : (0 : K) ≤ (faceArea D (cellGrid G b) j (cellOct b o x) : K) := by
    have h1 := faceArea_mul (G := cellGrid G b) D (cellOct b o x) j
    have h2 := cellSize_pos hG' hD (cellOct b o x) j
    have h3 := volume_pos hG' hD (cellOct b o x)
    rw [← h1] at h3
    exact_mod_cast (pos_of_mul_pos_left h3 h2.le).le
  unfold sideSum
  by_cases hin : OnBoundary G b o x j s
  · obtain ⟨-, -, -, hn⟩ := outside hG hM hB ⟨o, x, b, .localToBlock⟩ ho hx rfl j hs hin
    simp only at hn
    rw [hn, Finset.sum_empty, zero_add, if_pos hin, abs_mul, abs_of_nonneg hfa]
    exact mul_le_mul_of_nonneg_left hbf hfa
  · rw [if_neg hin, add_zero, ← sum_area hG hM hB hD ho hx j hs hin]
    rw [Rat.cast_sum, Finset.sum_mul]
    refine (Finset.abs_sum_le_sum_abs _ _).trans (Finset.sum_le_sum fun q _ => ?_)
    rw [abs_mul, abs_of_nonneg (ha q)]
    refine mul_le_mul_of_nonneg_left ?_ (ha q)
    split
    · exact hF _ _
    · exact hF _ _

end Verif.Flux
