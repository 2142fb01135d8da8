import Verif.Flux.Graph

/-!
# The cells of a mesh are connected through faces
-/

namespace Verif.Flux

open Verif.Octree Verif.Cells

variable {d : ℕ} {G : Grid d} {C : Finset (Oct d)}

/-- Walking up in direction `j` from a point of `c`: all cells met are reached through faces. -/
theorem walk_up (hC : Tiling G C) {A : Type} (g : Oct d → A) (j : Fin d)
    (h : ∀ c ∈ C, ∀ q ∈ nbrs G C c j 1, g c = g q) (n : ℕ) :
    ∀ c ∈ C, (C.filter fun q => lo G c j < lo G q j).card = n → ∀ x : Fin d → ℚ, (∀ i, 0 ≤ x i ∧ x i < 1) →
      Covers G c x → ∀ t, x j ≤ t → t < 1 → ∀ q ∈ C, Covers G q (Function.update x j t) → g c = g q := by
  induction n using Nat.strong_induction_on with
  | _ n ih =>
    intro c hc hn x hx hcx t ht1 ht2 q hq hqx
    have hdom : ∀ t, 0 ≤ t → t < 1 → ∀ i, 0 ≤ Function.update x j t i ∧ Function.update x j t i < 1 := by
      intro t h0 h1 i
      by_cases hi : i = j
      · subst hi; rw [Function.update_self]; exact ⟨h0, h1⟩
      · rw [Function.update_of_ne hi]; exact hx i
    have hx0 := (hx j).1
    by_cases hlt : t < hi G c j
    · -- still in `c`
      have hct : Covers G c (Function.update x j t) := by
        intro i
        by_cases hi : i = j
        · subst hi; rw [Function.update_self]; exact ⟨le_trans (hcx _).1 ht1, hlt⟩
        · rw [Function.update_of_ne hi]; exact hcx i
      rw [(hC.cover _ (hdom t (by linarith) ht2)).unique ⟨hc, hct⟩ ⟨hq, hqx⟩]
    · -- the next cell
      have hle := not_lt.1 hlt
      have hxh := (hcx j).2
      have hh0 : 0 ≤ hi G c j := by linarith
      have hh1 : hi G c j < 1 := by linarith
      obtain ⟨c', ⟨hc', hcov'⟩, -⟩ := hC.cover _ (hdom _ hh0 hh1)
      have hj := hcov' j
      rw [Function.update_self] at hj
      have hne : ∀ i, i ≠ j → lo G c' i ≤ x i ∧ x i < hi G c' i := fun i hi => by
        have := hcov' i
        rwa [Function.update_of_ne hi] at this
      have hlo : x j < lo G c' j := by
        by_contra hnot
        have hc'x : Covers G c' x := fun i => by
          by_cases hi : i = j
          · subst hi; exact ⟨not_lt.1 hnot, by linarith⟩
          · exact hne i hi
        have := (hC.cover x hx).unique ⟨hc, hcx⟩ ⟨hc', hc'x⟩
        subst this
        exact lt_irrefl _ hj.2
      have hadj : c' ∈ nbrs G C c j 1 := by
        rw [mem_nbrs]
        refine ⟨hc', fun i => ⟨0, Or.inl rfl, ?_⟩⟩
        rw [Int.cast_zero, add_zero, add_zero]
        by_cases hi : i = j
        · subst hi
          have : dirOf (faceOff i 1) i = SignType.pos := by
            unfold dirOf; rw [faceOff_self]; rfl
          rw [this]
          exact ⟨hj.1, hj.2⟩
        · have : dirOf (faceOff j 1) i = SignType.zero := by
            unfold dirOf; rw [faceOff_ne 1 hi]; rfl
          rw [this]
          have h1 := hne i hi
          have h2 := hcx i
          exact ⟨by linarith, by linarith⟩
      rw [h c hc c' hadj]
      refine ih _ ?_ c' hc' rfl (Function.update x j (hi G c j)) (hdom _ hh0 hh1) hcov' t ?_ ht2 q hq ?_
      · rw [← hn]
        refine Finset.card_lt_card ⟨fun q hq => ?_, fun hsub => ?_⟩
        · rw [Finset.mem_filter] at hq ⊢
          exact ⟨hq.1, by have := (hcx j).1; linarith [hq.2]⟩
        · have := hsub (Finset.mem_filter.2 ⟨hc', by have := (hcx j).1; linarith⟩)
          exact lt_irrefl _ (Finset.mem_filter.1 this).2
      · rw [Function.update_self]; exact hle
      · rwa [Function.update_idem]

/-- A function that takes the same value in adjacent cells takes it in all cells. -/
theorem const_of_adj (hG : G.Pos) (hC : Tiling G C) {A : Type} (g : Oct d → A)
    (h : ∀ j, ∀ c ∈ C, ∀ q ∈ nbrs G C c j 1, g c = g q) {c q : Oct d} (hc : c ∈ C) (hq : q ∈ C) : g c = g q := by
  -- from any point to one with some coordinates 0
  have key : ∀ S : Finset (Fin d), ∀ x : Fin d → ℚ, (∀ i, 0 ≤ x i ∧ x i < 1) → ∀ c ∈ C, Covers G c x →
      ∀ q ∈ C, Covers G q (fun i => if i ∈ S then 0 else x i) → g c = g q := by
    intro S
    induction S using Finset.induction_on with
    | empty =>
      intro x hx c hc hcx q hq hqx
      simp only [Finset.notMem_empty, if_false] at hqx
      rw [(hC.cover x hx).unique ⟨hc, hcx⟩ ⟨hq, hqx⟩]
    | insert j S hj ih =>
      intro x hx c hc hcx q hq hqx
      have hy : ∀ i, 0 ≤ (fun i => if i ∈ S then 0 else x i) i ∧ (fun i => if i ∈ S then 0 else x i) i < 1 := by
        intro i
        by_cases hi : i ∈ S
        · simp [hi]
        · simp [hi, hx i]
      have hz : ∀ i, 0 ≤ (fun i => if i ∈ insert j S then 0 else x i) i ∧
          (fun i => if i ∈ insert j S then 0 else x i) i < 1 := by
        intro i
        by_cases hi : i ∈ insert j S
        · simp only [hi, if_true]; norm_num
        · simp only [hi, if_false]; exact hx i
      obtain ⟨m, ⟨hm, hmy⟩, -⟩ := hC.cover _ hy
      rw [ih x hx c hc hcx m hm hmy]
      refine (walk_up hC g j (h j) _ q hq rfl _ hz hqx (x j) ?_ (hx j).2 m hm ?_).symm
      · simp only [Finset.mem_insert_self, if_true]; exact (hx j).1
      · have : Function.update (fun i => if i ∈ insert j S then 0 else x i) j (x j) =
            fun i => if i ∈ S then 0 else x i := by
          funext i
          by_cases hi : i = j
          · subst hi; rw [Function.update_self, if_neg hj]
          · rw [Function.update_of_ne hi]
            simp only [Finset.mem_insert, hi, false_or]
        rwa [this]
  have hpt : ∀ c ∈ C, ∀ i, 0 ≤ lo G c i ∧ lo G c i < 1 := fun c hc i =>
    ⟨lo_nonneg c i, lo_lt_one hG (hC.valid c hc) i⟩
  obtain ⟨m, ⟨hm, hm0⟩, -⟩ := hC.cover (fun _ => 0) (fun _ => ⟨le_rfl, zero_lt_one⟩)
  have e : ∀ c ∈ C, g c = g m := fun c hc =>
    key Finset.univ (lo G c) (hpt c hc) c hc (covers_lo hG c) m hm (by simpa using hm0)
  rw [e c hc, e q hq]

end Verif.Flux
