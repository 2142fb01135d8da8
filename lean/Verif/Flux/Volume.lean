import Verif.Flux.Area

/-!
# The volumes of the cells of a mesh add up to the volume of the domain
-/

namespace Verif.Flux

open Verif.Octree Verif.Cells

variable {d : ℕ} {G : Grid d} {C : Finset (Oct d)}

/-- Positions of level `L` inside `c`. -/
def inside (L : ℕ) (c : Oct d) : Finset (Fin d → ℕ) :=
  Fintype.piFinset fun i => Finset.Ico (c.pos i * 2 ^ (L - c.level)) ((c.pos i + 1) * 2 ^ (L - c.level))

theorem mem_inside {L : ℕ} {c : Oct d} (hc : c.level ≤ L) (p : Fin d → ℕ) :
    p ∈ inside L c ↔ Anc c ⟨L, p⟩ := by
  unfold inside Anc
  rw [Fintype.mem_piFinset]
  have h2 : 0 < 2 ^ (L - c.level) := by positivity
  constructor
  · intro h
    refine ⟨hc, fun i => ?_⟩
    have := Finset.mem_Ico.1 (h i)
    exact Nat.div_eq_of_lt_le this.1 this.2
  · intro h i
    rw [Finset.mem_Ico, ← h.2 i]
    exact ⟨Nat.div_mul_le_self _ _, Nat.lt_mul_of_div_lt (Nat.lt_succ_self _) h2⟩

theorem card_inside (L : ℕ) (c : Oct d) : (inside L c).card = (2 ^ (L - c.level)) ^ d := by
  unfold inside
  rw [Fintype.card_piFinset]
  have : ∀ i : Fin d, (Finset.Ico (c.pos i * 2 ^ (L - c.level)) ((c.pos i + 1) * 2 ^ (L - c.level))).card =
      2 ^ (L - c.level) := fun i => by
    rw [Nat.card_Ico, Nat.add_mul, Nat.one_mul, Nat.add_sub_cancel_left]
  rw [Finset.prod_congr rfl fun i _ => this i, Finset.prod_const, Finset.card_univ, Fintype.card_fin]

/-- The cells fill the domain. -/
theorem sum_volume (hG : G.Pos) (hC : Tiling G C) (D : Domain d) :
    ∑ c ∈ C, volume D G c = ∏ k, (D.xmax k - D.xmin k) := by
  obtain ⟨L, hLm, hL⟩ : ∃ L, G.lmin ≤ L ∧ ∀ c ∈ C, c.level ≤ L :=
    ⟨max G.lmin (C.sup Oct.level), le_max_left _ _, fun c hc => le_trans (Finset.le_sup hc) (le_max_right _ _)⟩
  have hpart : (Fintype.piFinset fun i => Finset.range (G.count i L)) = C.biUnion (inside L) := by
    ext p
    rw [Fintype.mem_piFinset, Finset.mem_biUnion]
    constructor
    · intro hp
      have hv : Valid G ⟨L, p⟩ := ⟨hLm, fun i => Finset.mem_range.1 (hp i)⟩
      obtain ⟨c, hc, h⟩ := hC.exists_anc hG hv hL
      exact ⟨c, hc, (mem_inside (hL c hc) p).2 h⟩
    · rintro ⟨c, hc, h⟩ i
      have h1 := ((mem_inside (hL c hc) p).1 h).2 i
      have hv := hC.valid c hc
      have e := count_add G i (L - c.level) hv.1
      rw [Nat.add_sub_cancel' (hL c hc)] at e
      rw [Finset.mem_range, e]
      exact Nat.lt_mul_of_div_lt (by rw [h1]; exact hv.2 i) (by positivity)
  have hdisj : (C : Set (Oct d)).PairwiseDisjoint (inside L) := by
    intro c hc q hq hne
    rw [Function.onFun, Finset.disjoint_left]
    intro p h1 h2
    have a1 := (mem_inside (hL c hc) p).1 h1
    have a2 := (mem_inside (hL q hq) p).1 h2
    rcases le_total c.level q.level with h | h
    · exact hne (hC.eq_of_anc hG hc hq (a1.linear a2 h))
    · exact hne (hC.eq_of_anc hG hq hc (a2.linear a1 h)).symm
  have hcard := congrArg Finset.card hpart
  rw [Fintype.card_piFinset, Finset.card_biUnion hdisj] at hcard
  simp only [Finset.card_range, card_inside] at hcard
  have hN : ∀ i, (0 : ℚ) < G.count i L := fun i => by exact_mod_cast count_pos hG i L
  have hvol : ∀ c ∈ C, volume D G c = (∏ k, (D.xmax k - D.xmin k)) / (∏ k, (G.count k L : ℚ)) *
      (((2 ^ (L - c.level)) ^ d : ℕ) : ℚ) := by
    intro c hc
    unfold volume
    have : (((2 ^ (L - c.level)) ^ d : ℕ) : ℚ) = ∏ _k : Fin d, ((2 ^ (L - c.level) : ℕ) : ℚ) := by
      rw [Finset.prod_const, Finset.card_univ, Fintype.card_fin]; push_cast; rfl
    rw [this, ← Finset.prod_div_distrib, ← Finset.prod_mul_distrib]
    refine Finset.prod_congr rfl fun k _ => ?_
    rw [cellSize_eq]
    have e := count_add G k (L - c.level) (hC.valid c hc).1
    rw [Nat.add_sub_cancel' (hL c hc)] at e
    have h1 : (G.count k c.level : ℚ) ≠ 0 := by exact_mod_cast (count_pos hG k c.level).ne'
    have h2 : ((2 ^ (L - c.level) : ℕ) : ℚ) ≠ 0 := by positivity
    rw [e, Nat.cast_mul]
    field_simp
  rw [Finset.sum_congr rfl hvol, ← Finset.mul_sum, ← Nat.cast_sum, ← hcard, Nat.cast_prod]
  exact div_mul_cancel₀ _ (Finset.prod_pos fun k _ => hN k).ne'

end Verif.Flux
