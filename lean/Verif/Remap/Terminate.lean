import Verif.Remap.Props

/-!
# C30: when remapping ends
-/

namespace Verif.Remap

open Verif.Octree Verif.Cells Verif.Adapt

variable {d P : ℕ} {K : Type} [Field K] {G : Grid d} {M : Finset (Oct d)}

theorem sibling_touch {s a : Oct d} (h : Sibling s a) : Touch G a s := by
  intro i
  have h1 := h.2 i
  refine ⟨0, Or.inl rfl, ?_, ?_⟩ <;>
  · unfold lo hi
    rw [h.1, Int.cast_zero, add_zero]
    refine div_le_div_of_nonneg_right ?_ (by positivity)
    have : a.pos i ≤ s.pos i + 1 ∧ s.pos i ≤ a.pos i + 1 := by omega
    first | exact_mod_cast this.1 | exact_mod_cast this.2

/-- A remapping that ends had a pass in which no cell of any rank counted a ghost. -/
theorem remapAux_count {D : Dist d P} {f : Oct d → ℤ} {b : Fin d → ℕ} {minLevel maxLevel : ℕ}
    {exch : (Fin P → Oct d → (Fin d → ℕ) → K) → Fin P → Oct d → (Fin d → ℕ) → K} {fuel : ℕ}
    {U U' : Fin P → Oct d → (Fin d → ℕ) → K} (h : remapAux G D M f b minLevel maxLevel exch fuel U = some U') :
    ∃ U : Fin P → Oct d → (Fin d → ℕ) → K, ∀ r, ∀ o ∈ rankNew D M f r, ∀ x ∈ block b,
      ∃ v, remapCell G (localMap D M r) (fun o => decide (D.owner o ≠ r)) minLevel maxLevel (U r)
        ⟨o, x, b, .localToBlock⟩ = some (v, 0) := by
  induction fuel generalizing U with
  | zero => cases h
  | succ fuel ih =>
    unfold remapAux at h
    simp only at h
    split at h
    · next hs =>
      split at h
      · next h0 =>
        refine ⟨U, fun r o ho x hx => ?_⟩
        have h1 := Finset.sum_eq_zero_iff.1 h0 r (Finset.mem_univ r)
        have h2 := hs r
        unfold remapPass at h1 h2
        simp only at h1 h2
        split at h2
        · next h3 =>
          simp only [if_pos h3] at h1
          have h4 := Finset.sum_eq_zero_iff.1 (Finset.sum_eq_zero_iff.1 h1 o ho) x hx
          have h5 := h3 o ho x hx
          revert h4 h5
          cases remapCell G (localMap D M r) (fun o => decide (D.owner o ≠ r)) minLevel maxLevel (U r)
            ⟨o, x, b, .localToBlock⟩ with
          | none => intro _ h5; cases h5
          | some p =>
            intro h4 _
            refine ⟨p.1, ?_⟩
            rw [Option.some.injEq]
            exact Prod.ext rfl h4
        · cases h2
      · exact ih h
    · cases h

/-- If remapping ends, families that are coarsened are not spread over several ranks. -/
theorem remapAux_together (hG : G.WF) (hM : Tiling G M) (hB : Balanced G M) (hd : d = 2 ∨ d = 3)
    {D : Dist d P} (hD : GhostComplete G M D.owner D.ghost) {f : Oct d → ℤ} (hA : Admissible G M f)
    (hc : ∀ a ∈ M, f a = -1 → G.lmin < a.level) {minLevel maxLevel : ℕ}
    (hlev : ∀ o ∈ M, minLevel ≤ o.level ∧ o.level ≤ maxLevel) {b : Fin d → ℕ} (hb : ∀ k, 0 < b k)
    {exch : (Fin P → Oct d → (Fin d → ℕ) → K) → Fin P → Oct d → (Fin d → ℕ) → K} {fuel : ℕ}
    {U U' : Fin P → Oct d → (Fin d → ℕ) → K} (h : remapAux G D M f b minLevel maxLevel exch fuel U = some U') :
    Together M f D.owner := by
  obtain ⟨W, hW⟩ := remapAux_count h
  have key : ∀ a ∈ M, f a = -1 → ∀ s, Sibling s a → D.owner s = D.owner (firstSib a) := by
    intro a ha hfa s hs
    obtain ⟨h1, h2⟩ := hA.sib a ha hfa _ (firstSib_sibling a)
    have hl := hc a ha hfa
    have hsf : ∀ c, Sibling c a → Sibling c (firstSib a) := fun c hc' =>
      ⟨hc'.1, fun i => by have := hc'.2 i; simp only [firstSib]; omega⟩
    have hpn : parent a ∈ rankNew D M f (D.owner (firstSib a)) := by
      refine (mem_rankNew _ _ _ _).2 ⟨_, h1, rfl, ?_⟩
      unfold written
      rw [h2, if_neg (by omega), if_neg (by omega), if_pos rfl, if_pos fun i => by simp [firstSib],
        parent_firstSib]
      simp
    have hl' : (parent a).level + 1 = a.level := by simp only [parent]; omega
    have hch : ∀ c : Oct d, c.level = (parent a).level + 1 → (∀ k, c.pos k / 2 = (parent a).pos k) →
        c ∈ localMap D M (D.owner (firstSib a)) := by
      intro c h3 h4
      have hs' : Sibling c a := ⟨by omega, h4⟩
      exact localMap_complete hD h1 rfl c (hA.sib a ha hfa c hs').1 (sibling_touch (hsf c hs'))
    let x : Fin d → ℕ := fun k => s.pos k * b k / 2 - a.pos k / 2 * b k
    have hx : ∀ k, s.pos k * b k / 2 = a.pos k / 2 * b k + x k ∧ x k < b k := by
      intro k
      have h3 := hs.2 k
      have h4 := hb k
      obtain ⟨t, h5⟩ : ∃ t, t = a.pos k / 2 * b k := ⟨_, rfl⟩
      have h6 : s.pos k = 2 * (a.pos k / 2) ∨ s.pos k = 2 * (a.pos k / 2) + 1 := by omega
      have h7 : s.pos k * b k = 2 * t ∨ s.pos k * b k = 2 * t + b k := by
        rcases h6 with h6 | h6
        · left; rw [h6, h5]; ring
        · right; rw [h6, h5]; ring
      simp only [x]
      rw [← h5]
      omega
    obtain ⟨v, hv⟩ := hW _ _ hpn x (by simp only [block, Fintype.mem_piFinset, Finset.mem_range]; exact fun k => (hx k).2)
    obtain ⟨-, n, e1, e2⟩ := remapCell_coarsen_count hG hM hB hd (mem_localMap_sub hD _)
      (fun o => decide (D.owner o ≠ D.owner (firstSib a))) (parent_valid (hM.valid a ha) hl) hch
      (by rw [hl']; exact hlev a ha)
      (fun q => W (D.owner (firstSib a)) ⟨q.level, fun k => q.pos k / b k⟩ fun k => q.pos k % b k)
      (W (D.owner (firstSib a))) b x (fun k => (hx k).2) (fun c h3 h4 y hy => by
        congr 1
        · refine Oct.ext' rfl fun k => ?_
          simp only [cellOct]
          rw [Nat.mul_comm, Nat.mul_add_div (hb k), Nat.div_eq_of_lt (hy k), Nat.add_zero]
        · funext k
          simp only [cellOct]
          rw [Nat.mul_comm, Nat.mul_add_mod, Nat.mod_eq_of_lt (hy k)])
    rw [hv, Option.some.injEq, Prod.mk.injEq] at e1
    have h5 := e2.1 e1.2.symm s (fun _ => 0) (by rw [hs.1, hl']) hb fun k => by
      rw [Nat.add_zero]; exact (hx k).1
    simpa using h5
  intro a ha hfa s hs
  rw [key a ha hfa s hs, key a ha hfa a ⟨rfl, fun _ => rfl⟩]

/-- C30: whatever the exchange does, remapping ends if and only if no family that is coarsened is spread over several
ranks. -/
theorem C30_ends_iff [CharZero K] (hG : G.WF) (hM : Tiling G M) (hB : Balanced G M)
    (hd : d = 2 ∨ d = 3) (D : Dist d P) (hD : GhostComplete G M D.owner D.ghost) (mk f : Oct d → ℤ)
    (hq : Requested G M mk) (innerFuel fuel : ℕ) (h1 : 2 * M.card < innerFuel)
    (h2 : 2 * M.card < fuel) (hf : outerLoop G D M innerFuel fuel mk = some f) (minLevel maxLevel : ℕ)
    (hlev : ∀ o ∈ M, minLevel ≤ o.level ∧ o.level ≤ maxLevel) (b : Fin d → ℕ) (hb : ∀ k, 0 < b k)
    (exch : (Fin P → Oct d → (Fin d → ℕ) → K) → Fin P → Oct d → (Fin d → ℕ) → K)
    (U : Fin P → Oct d → (Fin d → ℕ) → K) :
    (∃ depth U', remapAux G D M f b minLevel maxLevel exch depth U = some U') ↔ Together M f D.owner := by
  obtain ⟨g, e, hR, h3, hA, -⟩ := outerLoop_spec hG hM hB D hD innerFuel h1 fuel mk hq
    (lt_of_le_of_lt (room_le hq) h2)
  rw [hf, Option.some.injEq] at e
  subst e
  constructor
  · rintro ⟨depth, U', h⟩
    exact remapAux_together hG hM hB hd hD hA hR.coarsest hlev hb h
  · intro hT
    obtain ⟨U', h, -⟩ := C30_remap_partial hG hM hB hd D hD mk f hq innerFuel fuel h1 h2 hf hT minLevel maxLevel hlev b
      hb (fun q => U (D.owner ⟨q.level, fun k => q.pos k / b k⟩) ⟨q.level, fun k => q.pos k / b k⟩ fun k => q.pos k % b k)
      U (fun r o _ hr x hx => by
        have e1 : (⟨(cellOct b o x).level, fun k => (cellOct b o x).pos k / b k⟩ : Oct d) = o :=
          Oct.ext' rfl fun k => by
            simp only [cellOct]
            rw [Nat.mul_comm, Nat.mul_add_div (hb k), Nat.div_eq_of_lt (hx k), Nat.add_zero]
        have e2 : (fun k => (cellOct b o x).pos k % b k) = x := by
          funext k
          simp only [cellOct]
          rw [Nat.mul_comm, Nat.mul_add_mod, Nat.mod_eq_of_lt (hx k)]
        rw [e1, e2, hr]) exch 0
    exact ⟨1, U', h⟩

end Verif.Remap
