import Verif.Octree.Neighbors
import Mathlib.Algebra.BigOperators.Fin
import Mathlib.Algebra.BigOperators.Group.Finset.Basic
import Mathlib.Algebra.Order.BigOperators.Group.Finset

/-!
# Touching leaves are neighbours; face neighbours are symmetric
-/

namespace Verif.Octree

variable {d : ℕ}

theorem Touch.exists_dirAdj {G : Grid d} (hG : G.Pos) {a b : Oct d} (h : Touch G a b) :
    ∃ off, DirAdj G a off b := by
  have key : ∀ i, ∃ o : SignType, ∃ s, Shift G i s ∧
      SideAdj o (lo G a i) (hi G a i) (lo G b i + s) (hi G b i + s) := by
    intro i
    obtain ⟨s, hs, h1, h2⟩ := h i
    have h3 := lo_lt_hi hG a i
    have h4 := lo_lt_hi hG b i
    rcases lt_or_eq_of_le h2 with h5 | h5
    · rcases lt_or_eq_of_le h1 with h6 | h6
      · exact ⟨SignType.zero, s, hs, h5, h6⟩
      · exact ⟨SignType.neg, s, hs, by linarith, by linarith⟩
    · exact ⟨SignType.pos, s, hs, by linarith, by linarith⟩
  choose off hoff using key
  exact ⟨off, hoff⟩

/-- With the zero offset, adjacency is overlap. -/
theorem eq_of_dirAdj_zero {G : Grid d} (hG : G.Pos) {M : Finset (Oct d)} (hM : Tiling G M)
    {a b : Oct d} (ha : a ∈ M) (hb : b ∈ M) {off : Fin d → SignType} (h0 : ∀ i, off i = 0)
    (h : DirAdj G a off b) : a = b := by
  have hva := hM.valid a ha
  have hvb := hM.valid b hb
  have hs : sameSize G a off = a := by
    refine Oct.ext' rfl (fun i => (neighborPos_cases hva off i).1 (h0 i))
  rcases le_total b.level a.level with hl | hl
  · obtain ⟨-, h3⟩ := (dirAdj_coarse hG hva hvb hl off).1 h
    rw [hs] at h3
    exact (hM.eq_of_anc hG hb ha h3).symm
  · obtain ⟨-, h3⟩ := (dirAdj_fine hG hva hvb hl off).1 h
    apply hM.eq_of_anc hG ha hb
    refine ⟨hl, fun i => ?_⟩
    have h4 := h3 i
    rw [(neighborPos_cases hva off i).1 (h0 i)] at h4
    unfold Layer at h4
    rw [Nat.div_eq_iff (by positivity)]
    omega

/-- Distinct touching leaves are adjacent in a non-zero direction. -/
theorem Tiling.exists_dir {G : Grid d} (hG : G.Pos) {M : Finset (Oct d)} (hM : Tiling G M)
    {a b : Oct d} (ha : a ∈ M) (hb : b ∈ M) (hne : a ≠ b) (h : Touch G a b) :
    ∃ off, (¬ ∀ i, off i = 0) ∧ DirAdj G a off b := by
  obtain ⟨off, hoff⟩ := h.exists_dirAdj hG
  exact ⟨off, fun h0 => hne (eq_of_dirAdj_zero hG hM ha hb h0 hoff), hoff⟩

theorem Shift.neg {G : Grid d} {i : Fin d} {s : ℤ} (h : Shift G i s) : Shift G i (-s) := by
  rcases h with rfl | ⟨hp, rfl | rfl⟩
  · exact Or.inl rfl
  · exact Or.inr ⟨hp, Or.inr rfl⟩
  · exact Or.inr ⟨hp, Or.inl (by norm_num)⟩

/-- Face adjacency is reversed by the opposite direction. -/
theorem dirAdj_face_reverse {G : Grid d} (hG : G.Pos) {M : Finset (Oct d)} (hM : Tiling G M)
    {a b : Oct d} (ha : a ∈ M) (hb : b ∈ M) {off : Fin d → SignType} {j : Fin d}
    (hj : off j ≠ 0) (h0 : ∀ i, i ≠ j → off i = 0) (h : DirAdj G a off b) :
    DirAdj G b (fun i => - off i) a := by
  have hva := hM.valid a ha
  have hvb := hM.valid b hb
  intro i
  by_cases hij : i = j
  · subst hij
    obtain ⟨s, hs, h1⟩ := h i
    have a1 := lo_lt_hi hG a i
    have a2 := lo_lt_hi hG b i
    have a3 := hi_le_one hG hva i
    have a4 := hi_le_one hG hvb i
    have a5 := lo_nonneg (G := G) a i
    have a6 := lo_nonneg (G := G) b i
    -- the two intervals do not overlap: otherwise the leaves are equal
    have hno : ¬ (lo G b i + s < hi G a i ∧ lo G a i < hi G b i + s) ∨ a = b := by
      by_contra hc
      push Not at hc
      obtain ⟨⟨hc1, hc2⟩, hc3⟩ := hc
      apply hc3
      apply eq_of_dirAdj_zero hG hM ha hb (off := fun _ => 0) (fun _ => rfl)
      intro i'
      by_cases hij' : i' = i
      · subst hij'; exact ⟨s, hs, hc1, hc2⟩
      · have := h i'
        rw [h0 i' hij'] at this
        exact this
    refine ⟨-s, hs.neg, ?_⟩
    have hsv : s = 0 ∨ s = 1 ∨ s = -1 := by
      rcases hs with h | ⟨-, h | h⟩
      · exact Or.inl h
      · exact Or.inr (Or.inl h)
      · exact Or.inr (Or.inr h)
    cases ho : off i
    · exact absurd ho hj
    · rw [ho] at h1
      simp only [SideAdj] at h1
      have e : hi G b i + s = lo G a i := by
        rcases hno with hno | hno
        · by_contra hc
          apply hno
          have : lo G a i < hi G b i + s := lt_of_le_of_ne h1.2 (fun h => hc h.symm)
          exact ⟨by linarith [h1.1], this⟩
        · subst hno
          rcases hsv with rfl | rfl | rfl
          · exfalso; have := h1.1; push_cast at this; linarith
          · exfalso; have := h1.1; push_cast at this; linarith
          · have := h1.2; push_cast at this ⊢; linarith
      show SideAdj (- off i) _ _ _ _
      have : (- off i) = SignType.pos := by rw [ho]; rfl
      rw [this]
      simp only [SideAdj]
      push_cast
      exact ⟨by linarith, by linarith⟩
    · rw [ho] at h1
      simp only [SideAdj] at h1
      have e : lo G b i + s = hi G a i := by
        rcases hno with hno | hno
        · by_contra hc
          apply hno
          have : lo G b i + s < hi G a i := lt_of_le_of_ne h1.1 hc
          exact ⟨this, by linarith [h1.2]⟩
        · subst hno
          rcases hsv with rfl | rfl | rfl
          · exfalso; have := h1.2; push_cast at this; linarith
          · have := h1.1; push_cast at this ⊢; linarith
          · exfalso; have := h1.2; push_cast at this; linarith
      show SideAdj (- off i) _ _ _ _
      have : (- off i) = SignType.neg := by rw [ho]; rfl
      rw [this]
      simp only [SideAdj]
      push_cast
      exact ⟨by linarith, by linarith⟩
  · obtain ⟨s, hs, h1⟩ := h i
    have hz := h0 i hij
    refine ⟨-s, hs.neg, ?_⟩
    rw [hz] at h1
    have h1' : lo G b i + s < hi G a i ∧ lo G a i < hi G b i + s := h1
    show SideAdj (- off i) _ _ _ _
    rw [hz]
    show lo G a i + _ < hi G b i ∧ lo G b i < hi G a i + _
    push_cast
    exact ⟨by linarith [h1'.2], by linarith [h1'.1]⟩

theorem length_loops {α : Type} {d : ℕ} (l : Fin d → List α) :
    (loops l).length = ∏ i, (l i).length := by
  induction d with
  | zero => simp [loops]
  | succ d ih =>
    simp only [loops, List.length_flatMap, List.length_map]
    rw [Fin.prod_univ_castSucc]
    simp [ih, Nat.mul_comm]

theorem finer_length (l : ℕ) (p : Fin d → ℕ) (off : Fin d → SignType) (hoff : ¬ ∀ i, off i = 0) :
    (finerNeighbors l p off).length ≤ 2 ^ (d - 1) := by
  unfold finerNeighbors
  rw [List.length_map, length_loops]
  push Not at hoff
  obtain ⟨j, hj⟩ := hoff
  have h1 : ∏ i, (if off i = 0 then [0, 1] else [0] : List ℕ).length ≤
      ∏ i : Fin d, (if i = j then 1 else 2) := by
    apply Finset.prod_le_prod'
    intro i _
    by_cases hij : i = j
    · subst hij; simp [hj]
    · split <;> simp [hij]
  refine le_trans h1 (le_of_eq ?_)
  rw [Finset.prod_ite]
  simp [Finset.filter_ne', Finset.card_erase_of_mem]

end Verif.Octree
