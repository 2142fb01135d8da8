import Verif.Remap.Model
import Verif.Remap.Spec
import Verif.Adapt.Apply
import Verif.Adapt.Check
import Verif.Octree.Props
import Verif.Cells.Sibling
import Mathlib.Algebra.CharZero.Defs
import Mathlib.Algebra.BigOperators.Ring.Finset

/-!
# The value of one remapped cell
-/

namespace Verif.Remap

open Verif.Octree Verif.Cells Verif.Adapt

variable {d : ℕ} {K : Type} [Field K] {G : Grid d} {M Mr : Finset (Oct d)}

theorem firstOldPos_eq (G : Grid d) (o : Oct d) (k : Fin d) :
    firstOldPos G o k = ((o.pos k : ℚ) + 1 / 4) / G.count k o.level := by
  unfold firstOldPos getCenter getSize
  rw [cellCount_eq]
  ring

theorem covers_self (hG : G.Pos) (o : Oct d) : Covers G o (firstOldPos G o) := by
  intro k
  have h0 : (0 : ℚ) < G.count k o.level := by exact_mod_cast count_pos hG k _
  rw [firstOldPos_eq]
  unfold lo hi
  rw [div_le_div_iff_of_pos_right h0, div_lt_div_iff_of_pos_right h0]
  constructor <;> linarith

/-- The first child contains the first old position. -/
theorem covers_firstChild (hG : G.Pos) {o : Oct d} (ho : G.lmin ≤ o.level) :
    Covers G ⟨o.level + 1, fun k => 2 * o.pos k⟩ (firstOldPos G o) := by
  intro k
  have h0 : (0 : ℚ) < G.count k o.level := by exact_mod_cast count_pos hG k _
  rw [firstOldPos_eq]
  unfold lo hi
  simp only
  rw [count_add G k 1 ho]
  push_cast
  constructor
  · rw [div_le_div_iff₀ (by positivity) h0]
    nlinarith
  · rw [div_lt_div_iff₀ h0 (by positivity)]
    nlinarith

/-- The search on the map of a rank finds the old octant. -/
theorem getiOct_local (hG : G.Pos) (hM : Tiling G M) (hsub : ∀ b ∈ Mr, b ∈ M)
    {minLevel maxLevel : ℕ} {a : Oct d} (ha : a ∈ Mr)
    (hlev : minLevel ≤ a.level ∧ a.level ≤ maxLevel) {x : Fin d → ℚ} (hx : Covers G a x) :
    getiOctFromPos G Mr minLevel maxLevel x = some a := by
  have hva := hM.valid a (hsub a ha)
  have hx0 : ∀ i, 0 ≤ x i := fun i => le_trans (lo_nonneg a i) (hx i).1
  have hvx : Covers G ⟨maxLevel, fun i => ⌊x i / (1 / (cellCount G i maxLevel : ℚ))⌋₊⟩ x := by
    intro i
    have h0 : (0 : ℚ) < G.count i maxLevel := by exact_mod_cast count_pos hG i _
    have e : x i / (1 / (cellCount G i maxLevel : ℚ)) = x i * G.count i maxLevel := by
      rw [cellCount_eq]; field_simp
    have hn := mul_nonneg (hx0 i) h0.le
    unfold lo hi
    simp only [e]
    constructor
    · rw [div_le_iff₀ h0]; exact Nat.floor_le hn
    · rw [lt_div_iff₀ h0]; exact_mod_cast Nat.lt_floor_add_one _
  unfold getiOctFromPos
  apply searchUp_spec ha
  · exact anc_of_covers hG hva hlev.2 hx hvx
  · intro c hc hca
    have h1 := anc_of_covers hG hva hlev.2 hx hvx
    have hcM := hsub c hc
    have haM := hsub a ha
    rcases le_total c.level a.level with h | h
    · exact hM.eq_of_anc hG hcM haM (hca.linear h1 h)
    · exact (hM.eq_of_anc hG haM hcM (h1.linear hca h)).symm
  · omega

/-- Search for a sibling from the first child. -/
theorem findNeighbors_sibling (hG : G.Pos) {o : Oct d} (ho : Valid G o) (e : Fin d → SignType)
    (he : ∀ k, e k = 0 ∨ e k = 1)
    (hs : (⟨o.level + 1, fun k => 2 * o.pos k + if e k = 1 then 1 else 0⟩ : Oct d) ∈ Mr) :
    findNeighbors G Mr ⟨o.level + 1, fun k => 2 * o.pos k⟩ e =
      some [⟨o.level + 1, fun k => 2 * o.pos k + if e k = 1 then 1 else 0⟩] := by
  unfold findNeighbors
  by_cases h0 : ∀ i, e i = 0
  · rw [if_pos h0]
    simp [h0]
  rw [if_neg h0]
  have hc : ∀ k, G.count k (o.level + 1) = 2 * G.count k o.level := fun k => by
    rw [count_add G k 1 ho.1]; ring
  have hv : Valid G (⟨o.level + 1, fun k => 2 * o.pos k⟩ : Oct d) :=
    ⟨by have := ho.1; simp only; omega, fun k => by
      have := ho.2 k; simp only; rw [hc]; omega⟩
  have hb : isBoundary G (⟨o.level + 1, fun k => 2 * o.pos k⟩ : Oct d) e = false := by
    rw [isBoundary_iff hG]
    intro k
    right
    have h1 := ho.2 k
    simp only
    rw [hc]
    rcases he k with h | h <;> rw [h]
    · rw [show ((0 : SignType) : ℤ) = 0 from rfl]; omega
    · rw [show ((1 : SignType) : ℤ) = 1 from rfl]; omega
  rw [if_neg (by rw [hb]; simp)]
  have hp : neighborPos G (⟨o.level + 1, fun k => 2 * o.pos k⟩ : Oct d) e =
      fun k => 2 * o.pos k + if e k = 1 then 1 else 0 := by
    funext k
    obtain ⟨c0, c1, -, -, -⟩ := neighborPos_cases hv e k
    have h1 := ho.2 k
    rcases he k with h | h
    · rw [c0 h, h]; simp
    · rw [c1 h (by simp only; rw [hc]; omega), h]; simp
  simp only [hp]
  rw [if_pos hs]

/-- Neighbour cells depend on the map only through the octants that touch. -/
theorem getNeighborGhost_congr (hG : G.WF) (hM : Tiling G M) (hsub : ∀ b ∈ Mr, b ∈ M)
    (c : CellIndex d) (hc : c.oct ∈ M) (hcomp : ∀ b ∈ M, Touch G c.oct b → b ∈ Mr)
    (off : Fin d → ℤ) : getNeighborGhost G Mr c off = getNeighborGhost G M c off := by
  unfold getNeighborGhost
  simp only [findNeighbors_congr hG hM hsub hc hcomp]

theorem finerNeighbors_level {l : ℕ} {p : Fin d → ℕ} {off : Fin d → SignType} {n : Oct d}
    (h : n ∈ finerNeighbors l p off) : n.level = l + 1 := by
  unfold finerNeighbors at h
  obtain ⟨s, -, rfl⟩ := List.mem_map.1 h
  rfl

theorem findNeighbors_level {a : Oct d} {off : Fin d → SignType} {ns : List (Oct d)}
    (h : findNeighbors G M a off = some ns) {m n : Oct d} (hm : m ∈ ns) (hn : n ∈ ns) : m.level = n.level := by
  unfold findNeighbors at h
  have one : ∀ {x : Oct d}, some [x] = some ns → m.level = n.level := by
    intro x hx
    rw [← Option.some.inj hx, List.mem_singleton] at hm hn
    rw [hm, hn]
  split at h
  · exact one h
  · split at h
    · rw [← Option.some.inj h] at hm
      cases hm
    · simp only at h
      split at h
      · exact one h
      · split at h
        · exact one h
        · split at h
          · rw [← Option.some.inj h] at hm hn
            rw [finerNeighbors_level hm, finerNeighbors_level hn]
          · cases h

/-- A search that ends in an octant of the same level does so on every map that has this octant. -/
theorem findNeighbors_same {a n : Oct d} {off : Fin d → SignType} {ns : List (Oct d)}
    (h : findNeighbors G M a off = some (n :: ns)) (hl : n.level = a.level) (hn : n ∈ Mr) :
    findNeighbors G Mr a off = some (n :: ns) := by
  unfold findNeighbors at h ⊢
  by_cases h0 : ∀ i, off i = 0
  · simp only [if_pos h0] at h ⊢; exact h
  simp only [if_neg h0] at h ⊢
  by_cases h1 : isBoundary G a off = true
  · simp only [if_pos h1] at h ⊢; exact h
  simp only [if_neg h1] at h ⊢
  by_cases h2 : (⟨a.level, neighborPos G a off⟩ : Oct d) ∈ M
  · simp only [if_pos h2, Option.some.injEq, List.cons.injEq] at h ⊢
    rw [h.1, if_pos hn, h.2]
  simp only [if_neg h2] at h
  exfalso
  split at h
  · next h3 =>
    simp only [Option.some.injEq, List.cons.injEq] at h
    have := congrArg Oct.level h.1
    simp only at this
    omega
  · split at h
    · have h4 : n ∈ finerNeighbors a.level (neighborPos G a off) off := by
        rw [Option.some.inj h]; simp
      have := finerNeighbors_level h4
      omega
    · cases h

/-- The same for cells. -/
theorem getNeighborGhost_same {c n : CellIndex d} {off : Fin d → ℤ} (h : getNeighborGhost G M c off = some n)
    (hl : n.oct.level = c.oct.level) (hn : n.oct ∈ Mr) : getNeighborGhost G Mr c off = some n := by
  unfold getNeighborGhost at h ⊢
  simp only at h ⊢
  by_cases h0 : ∀ k, octOffset c.b (fun k => (c.idx k : ℤ) + off k) k = 0
  · rw [if_pos h0] at h ⊢; exact h
  rw [if_neg h0] at h ⊢
  by_cases h1 : ∃ k, 1 < |octOffset c.b (fun k => (c.idx k : ℤ) + off k) k|
  · rw [if_pos h1] at h ⊢; exact h
  rw [if_neg h1] at h ⊢
  by_cases h2 : isBoundary G c.oct (fun k => SignType.sign (octOffset c.b (fun k => (c.idx k : ℤ) + off k) k)) = true
  · rw [if_pos h2] at h ⊢; exact h
  rw [if_neg h2] at h ⊢
  cases hf : findNeighbors G M c.oct (fun k => SignType.sign (octOffset c.b (fun k => (c.idx k : ℤ) + off k) k)) with
  | none => rw [hf] at h; cases h
  | some l =>
    rw [hf] at h
    cases l with
    | nil => cases h
    | cons m ms =>
      simp only at h
      have hm : m.level = c.oct.level ∧ m ∈ Mr := by
        by_cases h3 : m.level = c.oct.level
        · rw [if_pos h3] at h
          obtain ⟨x, -, rfl⟩ := Option.map_eq_some_iff.1 h
          exact ⟨hl, hn⟩
        · exfalso
          rw [if_neg h3] at h
          split at h
          · obtain ⟨x, -, rfl⟩ := Option.map_eq_some_iff.1 h
            exact h3 hl
          · split at h
            · split at h
              · obtain ⟨x, -, h4⟩ := Option.bind_eq_some_iff.1 h
                obtain ⟨m', h5, rfl⟩ := Option.map_eq_some_iff.1 h4
                have h6 := findNeighbors_level hf (List.mem_of_find?_eq_some h5) (List.mem_cons_self ..)
                simp only at hl
                omega
              · cases h
            · cases h
      rw [findNeighbors_same hf hm.1 hm.2]
      exact h

theorem foldlM_values (isGhost : Oct d → Bool) (U : Oct d → (Fin d → ℕ) → K) (n : K) :
    ∀ (rs : List (CellIndex d)) (acc : K × ℕ),
      (rs.map some).foldlM (fun (acc : K × ℕ) (r : Option (CellIndex d)) => r.map fun r =>
        (acc.1 + U r.oct r.idx / n, acc.2 + if isGhost r.oct then 1 else 0)) acc =
      some (acc.1 + (rs.map fun r => U r.oct r.idx).sum / n,
        acc.2 + (rs.map fun r => if isGhost r.oct then 1 else 0).sum) := by
  intro rs
  induction rs with
  | nil => intro acc; simp
  | cons r rs ih =>
    intro acc
    simp only [List.map_cons, List.foldlM_cons, Option.map_some, Option.bind_eq_bind,
      Option.bind_some, List.sum_cons]
    rw [ih]
    simp only [Option.some.injEq, Prod.mk.injEq]
    constructor
    · ring
    · omega

theorem nsubcells_eq (hd : d = 2 ∨ d = 3) : nsubcells d = 2 ^ d := by
  rcases hd with rfl | rfl <;> rfl

/-- The new value of a cell of an octant that was kept. -/
theorem remapCell_keep (hG : G.Pos) (hM : Tiling G M) (hsub : ∀ b ∈ Mr, b ∈ M) (isGhost : Oct d → Bool)
    {minLevel maxLevel : ℕ} {o : Oct d} (ho : o ∈ Mr)
    (hlev : minLevel ≤ o.level ∧ o.level ≤ maxLevel) (U : Oct d → (Fin d → ℕ) → K)
    (b x : Fin d → ℕ) :
    remapCell G Mr isGhost minLevel maxLevel U ⟨o, x, b, .localToBlock⟩ = some (U o x, 0) := by
  unfold remapCell getOldCell
  simp only
  rw [getiOct_local hG hM hsub ho hlev (covers_self hG o)]
  simp [CellIndex.levelDiff]

/-- The new value of a cell of a refined octant. -/
theorem remapCell_refine (hG : G.Pos) (hM : Tiling G M) (hsub : ∀ b ∈ Mr, b ∈ M)
    (isGhost : Oct d → Bool) {minLevel maxLevel : ℕ} {o a : Oct d} (ha : a ∈ Mr)
    (hlev : minLevel ≤ a.level ∧ a.level ≤ maxLevel) (hl : o.level = a.level + 1)
    (hp : ∀ k, o.pos k / 2 = a.pos k) (U : Oct d → (Fin d → ℕ) → K)
    (b x : Fin d → ℕ) (hx : ∀ k, x k < b k) :
    ∃ y : Fin d → ℕ, (∀ k, y k < b k) ∧ Anc (cellOct b a y) (cellOct b o x) ∧
      remapCell G Mr isGhost minLevel maxLevel U ⟨o, x, b, .localToBlock⟩ = some (U a y, 0) := by
  have hva := hM.valid a (hsub a ha)
  have hanc := child_anc hl hp
  have hcen : ∀ k, (getCenter G a k < getCenter G o k ↔ o.pos k % 2 = 1) := by
    intro k
    have h0 : (0 : ℚ) < G.count k a.level := by exact_mod_cast count_pos hG k _
    unfold getCenter getSize
    rw [cellCount_eq, cellCount_eq, hl, count_add G k 1 hva.1]
    push_cast
    rw [mul_one_div, mul_one_div, div_lt_div_iff₀ h0 (by positivity)]
    have h1 := hp k
    have h2 : (o.pos k : ℚ) = 2 * a.pos k + (o.pos k % 2 : ℕ) := by
      exact_mod_cast (by omega : o.pos k = 2 * a.pos k + o.pos k % 2)
    rw [h2]
    rcases Nat.mod_two_eq_zero_or_one (o.pos k) with h | h <;> rw [h]
    · simp only [Nat.cast_zero]
      constructor
      · intro h3; exfalso; nlinarith
      · intro h3; omega
    · simp only [Nat.cast_one]
      constructor
      · intro _; trivial
      · intro _; nlinarith
  let z : Fin d → ℤ := fun k => ((x k : ℤ) +
        b k * (if getCenter G a k < getCenter G o k then 1 else 0)) / 2
  have hz : ∀ k, z k = (((x k + b k * (o.pos k % 2)) / 2 : ℕ) : ℤ) := by
    intro k
    simp only [z]
    rcases Nat.mod_two_eq_zero_or_one (o.pos k) with h | h
    · rw [if_neg (by rw [hcen, h]; omega), h]; push_cast; rfl
    · rw [if_pos (by rw [hcen, h]), h]; push_cast; rfl
  have hzb : ∀ k, 0 ≤ z k ∧ z k < b k := by
    intro k
    rw [hz]
    have := hx k
    rcases Nat.mod_two_eq_zero_or_one (o.pos k) with h | h <;> rw [h] <;> constructor <;> omega
  refine ⟨fun k => (z k).toNat, fun k => ?_, ⟨?_, fun k => ?_⟩, ?_⟩
  · have := hzb k; simp only; omega
  · simp only [cellOct]; omega
  · simp only [cellOct, hz, Int.toNat_natCast]
    rw [hl, show a.level + 1 - a.level = 1 by omega, pow_one]
    have h1 := hp k
    rcases Nat.mod_two_eq_zero_or_one (o.pos k) with h | h
    · rw [h]
      have e : o.pos k * b k = 2 * (a.pos k * b k) := by
        rw [show o.pos k = 2 * a.pos k by omega]; ring
      rw [e]
      omega
    · rw [h]
      have e : o.pos k * b k = 2 * (a.pos k * b k) + b k := by
        rw [show o.pos k = 2 * a.pos k + 1 by omega]; ring
      rw [e]
      omega
  · unfold remapCell getOldCell
    simp only
    rw [getiOct_local hG hM hsub ha hlev (hanc.covers hG hva.1 (covers_self hG o)), Option.bind_some,
      if_neg (by omega), if_pos (by omega), inBlock_eq_some hzb]
    simp [CellIndex.levelDiff]

/-- The new value of a cell of a coarsened octant, and the number of ghosts that are counted. -/
theorem remapCell_coarsen_count (hG : G.WF) (hM : Tiling G M) (hB : Balanced G M) (hd : d = 2 ∨ d = 3)
    (hsub : ∀ b ∈ Mr, b ∈ M) (isGhost : Oct d → Bool) {minLevel maxLevel : ℕ} {o : Oct d}
    (ho : Valid G o) (hch : ∀ c : Oct d, c.level = o.level + 1 → (∀ k, c.pos k / 2 = o.pos k) →
      c ∈ Mr)
    (hlev : minLevel ≤ o.level + 1 ∧ o.level + 1 ≤ maxLevel) (V : Oct d → K)
    (U : Oct d → (Fin d → ℕ) → K)
    (b x : Fin d → ℕ) (hx : ∀ k, x k < b k)
    (hU : ∀ c : Oct d, c.level = o.level + 1 → (∀ k, c.pos k / 2 = o.pos k) →
      ∀ y : Fin d → ℕ, (∀ k, y k < b k) → U c y = V (cellOct b c y)) :
    (∀ s : Fin d → Fin 2, (⟨(cellOct b o x).level + 1, fun k => 2 * (cellOct b o x).pos k + s k⟩ :
      Oct d) ∈ cellMesh b M) ∧
    ∃ n, remapCell G Mr isGhost minLevel maxLevel U ⟨o, x, b, .localToBlock⟩ =
      some ((∑ s : Fin d → Fin 2, V ⟨(cellOct b o x).level + 1,
        fun k => 2 * (cellOct b o x).pos k + s k⟩) / 2 ^ d, n) ∧
      (n = 0 ↔ ∀ (c : Oct d) (y : Fin d → ℕ), c.level = o.level + 1 → (∀ k, y k < b k) →
        (∀ k, (c.pos k * b k + y k) / 2 = o.pos k * b k + x k) → isGhost c = false) := by
  have hGp : G.Pos := hG.toPos
  have hb : ∀ k, 0 < b k := fun k => by have := hx k; omega
  have hfirst : (⟨o.level + 1, fun k => 2 * o.pos k⟩ : Oct d) ∈ Mr :=
    hch _ rfl fun k => by simp
  -- cells of children
  have hmem : ∀ q : Oct d, q.level = o.level + 1 → (∀ k, q.pos k / 2 = o.pos k * b k + x k) →
      ∃ (c : Oct d) (y : Fin d → ℕ), c.level = o.level + 1 ∧ (∀ k, c.pos k / 2 = o.pos k) ∧
        (∀ k, y k < b k) ∧ cellOct b c y = q := by
    intro q h1 h2
    refine ⟨⟨o.level + 1, fun k => q.pos k / b k⟩, fun k => q.pos k % b k, rfl, fun k => ?_,
      fun k => Nat.mod_lt _ (hb k), Oct.ext' h1.symm fun k => ?_⟩
    · simp only
      rw [Nat.div_div_eq_div_mul, Nat.mul_comm, ← Nat.div_div_eq_div_mul, h2 k,
        Nat.mul_comm, Nat.mul_add_div (hb k), Nat.div_eq_of_lt (hx k), Nat.add_zero]
    · simp only [cellOct]
      exact Nat.div_add_mod' _ _
  have hmemM : ∀ q : Oct d, q.level = o.level + 1 → (∀ k, q.pos k / 2 = o.pos k * b k + x k) →
      q ∈ cellMesh b M := by
    intro q h1 h2
    obtain ⟨c, y, c1, c2, c3, c4⟩ := hmem q h1 h2
    exact mem_cellMesh.2 ⟨c, hsub c (hch c c1 c2), y, c3, c4⟩
  refine ⟨fun s => hmemM _ rfl fun k => ?_, ?_⟩
  · have := (s k).2
    simp only [cellOct]
    omega
  -- the first smaller cell
  let e : Fin d → SignType := subOctOffset b x
  have he : ∀ k, e k = 0 ∨ e k = 1 := fun k => by
    simp only [e, subOctOffset]; split
    · exact Or.inr rfl
    · exact Or.inl rfl
  let s0 : Oct d := ⟨o.level + 1, fun k => 2 * o.pos k + if e k = 1 then 1 else 0⟩
  have hs0 : s0 ∈ Mr := hch s0 rfl fun k => by
    simp only [s0]; split <;> omega
  let z : Fin d → ℤ := fun k => (x k : ℤ) * 2 - (e k : ℤ) * b k
  have hz : ∀ k, z k = ((x k * 2 - if e k = 1 then b k else 0 : ℕ) : ℤ) ∧
      (if e k = 1 then b k else 0) ≤ x k * 2 ∧ x k * 2 - (if e k = 1 then b k else 0) < b k := by
    intro k
    have h1 := hx k
    simp only [z, e, subOctOffset]
    split
    · rw [show ((1 : SignType) : ℤ) = 1 from rfl]
      simp only [if_true]
      refine ⟨?_, ?_, ?_⟩ <;> omega
    · rw [show ((0 : SignType) : ℤ) = 0 from rfl]
      simp only [show ((0 : SignType) = 1) = False by simp, if_false]
      refine ⟨?_, ?_, ?_⟩ <;> omega
  have hzb : ∀ k, 0 ≤ z k ∧ z k < b k := fun k => by
    obtain ⟨h1, h2, h3⟩ := hz k; rw [h1]; constructor <;> omega
  let c0 : CellIndex d := ⟨s0, fun k => (z k).toNat, b, .smaller⟩
  have hold : getOldCell G Mr minLevel maxLevel ⟨o, x, b, .localToBlock⟩ = some c0 := by
    unfold getOldCell
    simp only
    rw [getiOct_local hGp hM hsub hfirst hlev (covers_firstChild hGp ho.1), Option.bind_some,
      if_neg (by simp), if_neg (by simp only; omega), if_pos rfl,
      findNeighbors_sibling hGp ho e he hs0]
    simp only [Option.bind_some, List.head?_cons]
    rw [inBlock_eq_some hzb]
    rfl
  have hc0 : ∀ k, (cellOct b s0 c0.idx).pos k = 2 * (o.pos k * b k + x k) := by
    intro k
    obtain ⟨h1, h2, h3⟩ := hz k
    simp only [cellOct, c0, s0, h1, Int.toNat_natCast]
    by_cases h4 : e k = 1
    · simp only [h4, if_true] at h2 ⊢
      have : (2 * o.pos k + 1) * b k = 2 * (o.pos k * b k) + b k := by ring
      omega
    · simp only [h4, if_false] at h2 ⊢
      have : (2 * o.pos k + 0) * b k = 2 * (o.pos k * b k) := by ring
      omega
  obtain ⟨rs, e1, e2, e3, e4⟩ := C25_siblings hGp hM hB true c0 (hsub _ hs0)
    (fun k => by obtain ⟨h1, h2, h3⟩ := hz k; simp only [c0, h1, Int.toNat_natCast]; exact h3)
    (fun k => ⟨o.pos k * b k + x k, hc0 k⟩)
    (Or.inr ⟨rfl, fun q h1 h2 => hmemM q h1 fun k => by
      rw [h2 k]; have := hc0 k; simp only [c0] at this ⊢; rw [this]; omega⟩)
  have e4' : ∀ q : Oct d, q ∈ (rs.map fun r => cellOct b r.oct r.idx) ↔
        q.level = o.level + 1 ∧ ∀ k, q.pos k / 2 = o.pos k * b k + x k := by
    intro q
    rw [e4 q]
    refine and_congr Iff.rfl (forall_congr' fun k => ?_)
    have : (cellOct c0.b c0.oct c0.idx).pos k / 2 = o.pos k * b k + x k := by
      have := hc0 k
      simp only [c0] at this ⊢
      rw [this]; omega
    rw [this]
  -- every visited cell lies in a child of `o`
  have hr : ∀ r ∈ rs, r.oct.level = o.level + 1 ∧ ∀ k, r.oct.pos k / 2 = o.pos k := by
    intro r hr
    obtain ⟨h1, h2⟩ := (e4' _).1 (List.mem_map.2 ⟨r, hr, rfl⟩)
    obtain ⟨c, y, c1, c2, c3, c4⟩ := hmem _ h1 h2
    obtain ⟨h3, -⟩ := cellOct_inj c3 (e2 r hr).2 c4
    exact h3 ▸ ⟨c1, c2⟩
  have hloop : (loops fun _ : Fin d => [(0 : ℤ), 1]).map (getNeighborGhost G Mr c0) = rs.map some := by
    rw [← e1]
    unfold foreachSibling
    refine List.map_congr_left fun off hoff => ?_
    simp only [getSiblingCell, if_true]
    have hmem' : getNeighborGhost G M c0 off ∈ rs.map some := by
      rw [← e1]
      unfold foreachSibling
      refine List.mem_map.2 ⟨off, hoff, ?_⟩
      simp only [getSiblingCell, if_true]
    obtain ⟨r, hr', hre⟩ := List.mem_map.1 hmem'
    rw [← hre]
    exact getNeighborGhost_same hre.symm (hr r hr').1 (hch _ (hr r hr').1 (hr r hr').2)
  unfold remapCell
  rw [hold]
  simp only [Option.bind_some]
  rw [if_neg (by simp [CellIndex.levelDiff, c0]), hloop, foldlM_values]
  refine ⟨(rs.map fun r => if isGhost r.oct then 1 else 0).sum, ?_, ?_⟩
  rotate_left
  · rw [List.sum_eq_zero_iff]
    constructor
    · intro h c y h1 h2 h3
      obtain ⟨r, hr', hre⟩ := List.mem_map.1 ((e4' (cellOct b c y)).2 ⟨h1, h3⟩)
      obtain ⟨h4, -⟩ := cellOct_inj (e2 r hr').2 h2 hre
      have := h _ (List.mem_map.2 ⟨r, hr', rfl⟩)
      rw [h4] at this
      by_contra hg
      rw [Bool.not_eq_false] at hg
      simp [hg] at this
    · intro h n hn
      obtain ⟨r, hr', rfl⟩ := List.mem_map.1 hn
      have h1 := (e4' _).1 (List.mem_map.2 ⟨r, hr', rfl⟩)
      rw [h r.oct r.idx (hr r hr').1 (e2 r hr').2 h1.2]
      rfl
  simp only [Option.some.injEq, Prod.mk.injEq, zero_add, and_true]
  rw [nsubcells_eq hd]
  push_cast
  congr 1
  have h1 : (rs.map fun r => U r.oct r.idx) = (rs.map fun r => cellOct b r.oct r.idx).map V := by
    rw [List.map_map]
    refine List.map_congr_left fun r hr' => ?_
    exact hU _ (hr r hr').1 (hr r hr').2 _ (e2 r hr').2
  rw [h1, ← List.sum_toFinset _ e3]
  symm
  refine Finset.sum_bij (fun s _ => (⟨(cellOct b o x).level + 1,
      fun k => 2 * (cellOct b o x).pos k + s k⟩ : Oct d)) ?_ ?_ ?_ ?_
  · intro s _
    rw [List.mem_toFinset, e4']
    exact ⟨rfl, fun k => by have := (s k).2; simp only [cellOct]; omega⟩
  · intro s _ t _ h
    simp only [Oct.mk.injEq, true_and] at h
    funext k
    have := congrFun h k
    exact Fin.ext (by omega)
  · intro q hq
    rw [List.mem_toFinset, e4'] at hq
    refine ⟨fun k => ⟨q.pos k % 2, Nat.mod_lt _ (by omega)⟩, Finset.mem_univ _,
      Oct.ext' hq.1.symm fun k => ?_⟩
    have := hq.2 k
    simp only [cellOct]
    omega
  · intro s _; rfl

/-- Without ghosts. -/
theorem remapCell_coarsen (hG : G.WF) (hM : Tiling G M) (hB : Balanced G M) (hd : d = 2 ∨ d = 3)
    (hsub : ∀ b ∈ Mr, b ∈ M) (isGhost : Oct d → Bool) {minLevel maxLevel : ℕ} {o : Oct d}
    (ho : Valid G o) (hch : ∀ c : Oct d, c.level = o.level + 1 → (∀ k, c.pos k / 2 = o.pos k) → c ∈ Mr)
    (hlev : minLevel ≤ o.level + 1 ∧ o.level + 1 ≤ maxLevel) (V : Oct d → K)
    (U : Oct d → (Fin d → ℕ) → K)
    (b x : Fin d → ℕ) (hx : ∀ k, x k < b k)
    (hU : ∀ c : Oct d, c.level = o.level + 1 → (∀ k, c.pos k / 2 = o.pos k) →
      ∀ y : Fin d → ℕ, (∀ k, y k < b k) → U c y = V (cellOct b c y))
    (hng : ∀ c : Oct d, c.level = o.level + 1 → (∀ k, c.pos k / 2 = o.pos k) → isGhost c = false) :
    (∀ s : Fin d → Fin 2, (⟨(cellOct b o x).level + 1, fun k => 2 * (cellOct b o x).pos k + s k⟩ :
      Oct d) ∈ cellMesh b M) ∧
    remapCell G Mr isGhost minLevel maxLevel U ⟨o, x, b, .localToBlock⟩ =
      some ((∑ s : Fin d → Fin 2, V ⟨(cellOct b o x).level + 1,
        fun k => 2 * (cellOct b o x).pos k + s k⟩) / 2 ^ d, 0) := by
  obtain ⟨h1, n, h2, h3⟩ := remapCell_coarsen_count hG hM hB hd hsub isGhost ho hch hlev V U b x hx hU
  refine ⟨h1, ?_⟩
  rw [h2, h3.2]
  intro c y h4 h5 h6
  refine hng c h4 fun k => ?_
  have hb : 0 < b k := by have := hx k; omega
  have e1 : c.pos k = (c.pos k * b k + y k) / b k := by
    rw [Nat.mul_comm, Nat.mul_add_div hb, Nat.div_eq_of_lt (h5 k), Nat.add_zero]
  rw [e1, Nat.div_div_eq_div_mul, Nat.mul_comm (b k), ← Nat.div_div_eq_div_mul, h6 k, Nat.mul_comm,
    Nat.mul_add_div hb, Nat.div_eq_of_lt (hx k), Nat.add_zero]

end Verif.Remap
