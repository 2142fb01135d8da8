import Verif.Cells.Grid
import Verif.Cells.Model
import Mathlib.Algebra.Order.Group.Unbundled.Int

/-!
# What `getNeighbor_ghost` returns, in lattice coordinates
-/

namespace Verif.Cells

open Verif.Octree

variable {d : ℕ} {G : Grid d} {M : Finset (Oct d)}

theorem inBlock_eq_some {b : Fin d → ℕ} {i : Fin d → ℤ} (h : ∀ k, 0 ≤ i k ∧ i k < b k) :
    inBlock b i = some (fun k => (i k).toNat) := by
  unfold inBlock; rw [if_pos h]

theorem octOffset_abs {b : Fin d → ℕ} (x : Fin d → ℕ) (off : Fin d → ℤ) (hx : ∀ k, x k < b k)
    (hoff : ∀ k, |off k| ≤ b k) (k : Fin d) : |octOffset b (fun k => (x k : ℤ) + off k) k| ≤ 1 := by
  simp only [octOffset]
  have h1 := hx k
  have h2 := abs_le.1 (hoff k)
  have hb : (0 : ℤ) < b k := by omega
  rw [abs_le]
  constructor
  · rw [Int.le_ediv_iff_mul_le hb]; omega
  · apply Int.le_of_lt_add_one
    rw [Int.ediv_lt_iff_lt_mul hb]; omega

theorem posSame_bounds {b : Fin d → ℕ} (i : Fin d → ℤ) (k : Fin d) (hb : 0 < b k) :
    0 ≤ posSame b i k ∧ posSame b i k < b k := by
  have e : posSame b i k = i k % (b k : ℤ) := by
    unfold posSame octOffset
    have := Int.emod_add_mul_ediv (i k) (b k)
    rw [Int.mul_comm] at this
    omega
  rw [e]
  have : (0 : ℤ) < b k := by exact_mod_cast hb
  exact ⟨Int.emod_nonneg _ (by omega), Int.emod_lt_of_pos _ this⟩

theorem sign_cast_of_abs {z : ℤ} (h : |z| ≤ 1) : ((SignType.sign z : SignType) : ℤ) = z := by
  rw [abs_le] at h
  obtain rfl | rfl | rfl : z = -1 ∨ z = 0 ∨ z = 1 := by omega
  all_goals decide

theorem sign_cases {z : ℤ} (h : |z| ≤ 1) :
    (z = 0 ∧ SignType.sign z = 0) ∨ (z = 1 ∧ SignType.sign z = 1) ∨
      (z = -1 ∧ SignType.sign z = -1) := by
  rw [abs_le] at h
  obtain rfl | rfl | rfl : z = -1 ∨ z = 0 ∨ z = 1 := by omega
  all_goals decide

/-- The wrapped position of the neighbour octant is the requested one up to a period. -/
theorem neighborPos_wraps {o : Oct d} (ho : Valid G o) (s : Fin d → SignType) (k : Fin d)
    (h : InDom G o s k) :
    ∃ t, Shift G k t ∧ (neighborPos G o s k : ℤ) + t * G.count k o.level = o.pos k + (s k : ℤ) := by
  have hp := ho.2 k
  obtain ⟨c0, c1, c2, c3, c4⟩ := neighborPos_cases ho s k
  have hs : s k = 0 ∨ s k = 1 ∨ s k = -1 := by rcases s k with _ | _ | _ <;> decide
  rcases hs with e | e | e
  · refine ⟨0, Or.inl rfl, ?_⟩
    rw [c0 e, e]; simp
  · by_cases hl : o.pos k + 1 < G.count k o.level
    · refine ⟨0, Or.inl rfl, ?_⟩
      rw [c1 e hl, e]; simp
    · have hq : o.pos k + 1 = G.count k o.level := by omega
      refine ⟨1, Or.inr ⟨?_, Or.inl rfl⟩, ?_⟩
      · rcases h with h | h
        · exact h
        · rw [e] at h; simp at h; omega
      · rw [c2 e hq, e]; simp; omega
  · by_cases hl : 1 ≤ o.pos k
    · refine ⟨0, Or.inl rfl, ?_⟩
      rw [c3 e hl, e]; simp; omega
    · have hq : o.pos k = 0 := by omega
      refine ⟨-1, Or.inr ⟨?_, Or.inr rfl⟩, ?_⟩
      · rcases h with h | h
        · exact h
        · rw [e] at h; simp at h; omega
      · rw [c4 e hq, e]
        have : ((-1 : SignType) : ℤ) = -1 := rfl
        rw [this]
        omega

section main

variable {o : Oct d} {x b : Fin d → ℕ} {off : Fin d → ℤ}

theorem target_split (k : Fin d) :
    target b o x off k = ((o.pos k : ℤ) + octOffset b (fun k => (x k : ℤ) + off k) k) * b k +
      posSame b (fun k => (x k : ℤ) + off k) k := by
  unfold target posSame
  push_cast
  ring

/-- A lattice position is in the domain iff the octant it falls in is. -/
theorem inDomain_iff (hx : ∀ k, x k < b k) (hoff : ∀ k, |off k| ≤ b k) :
    InDomain (cellGrid G b) o.level (target b o x off) ↔
      ∀ k, InDom G o (fun k => SignType.sign (octOffset b (fun k => (x k : ℤ) + off k) k)) k := by
  unfold InDomain InDom
  refine forall_congr' fun k => ?_
  have hb : 0 < b k := by have := hx k; omega
  have hb' : (0 : ℤ) < b k := by exact_mod_cast hb
  rw [sign_cast_of_abs (octOffset_abs x off hx hoff k), target_split, count_cell]
  obtain ⟨h0, h1⟩ := posSame_bounds (b := b) (fun k => (x k : ℤ) + off k) k hb
  generalize posSame b (fun k => (x k : ℤ) + off k) k = m at *
  generalize (o.pos k : ℤ) + octOffset b (fun k => (x k : ℤ) + off k) k = q at *
  refine or_congr Iff.rfl (and_congr ?_ ?_)
  · constructor
    · intro h
      by_contra hq
      have : q * b k ≤ -1 * b k := Int.mul_le_mul_of_nonneg_right (by omega) hb'.le
      omega
    · intro h
      have : 0 ≤ q * b k := Int.mul_nonneg h hb'.le
      omega
  · push_cast
    constructor
    · intro h
      by_contra hq
      have : (G.count k o.level : ℤ) * b k ≤ q * b k :=
        Int.mul_le_mul_of_nonneg_right (by omega) hb'.le
      omega
    · intro h
      have : (q + 1) * b k ≤ (G.count k o.level : ℤ) * b k :=
        Int.mul_le_mul_of_nonneg_right (by omega) hb'.le
      rw [Int.add_mul] at this
      omega

/-- Lattice position of the same-size neighbour cell. -/
def samePos (G : Grid d) (o : Oct d) (x b : Fin d → ℕ) (off : Fin d → ℤ) (k : Fin d) : ℕ :=
  neighborPos G o (fun k => SignType.sign (octOffset b (fun k => (x k : ℤ) + off k) k)) k * b k +
    (posSame b (fun k => (x k : ℤ) + off k) k).toNat

theorem samePos_wraps (hG : G.Pos) (ho : Valid G o) (hx : ∀ k, x k < b k)
    (hoff : ∀ k, |off k| ≤ b k)
    (hin : InDomain (cellGrid G b) o.level (target b o x off)) :
    Wraps (cellGrid G b) o.level (target b o x off) (samePos G o x b off) := by
  have hin' := (inDomain_iff hx hoff).1 hin
  intro k
  have hb : 0 < b k := by have := hx k; omega
  obtain ⟨h0, h1⟩ := posSame_bounds (b := b) (fun k => (x k : ℤ) + off k) k hb
  obtain ⟨t, ht, e⟩ := neighborPos_wraps ho _ k (hin' k)
  rw [sign_cast_of_abs (octOffset_abs x off hx hoff k)] at e
  have hlt := neighborPos_lt hG o
    (fun k => SignType.sign (octOffset b (fun k => (x k : ℤ) + off k) k)) k
  rw [target_split, count_cell]
  unfold samePos
  generalize posSame b (fun k => (x k : ℤ) + off k) k = m at *
  generalize neighborPos G o
    (fun k => SignType.sign (octOffset b (fun k => (x k : ℤ) + off k) k)) k = p at *
  constructor
  · have : (p + 1) * b k ≤ G.count k o.level * b k := Nat.mul_le_mul_right _ hlt
    rw [Nat.add_mul] at this
    omega
  · refine ⟨t, ht, ?_⟩
    rw [← e]
    push_cast
    rw [Int.toNat_of_nonneg h0]
    ring

/-- Lattice coordinates in the block of a smaller neighbour. -/
theorem posSmaller_eq (i : Fin d → ℤ) (k : Fin d) :
    posSmaller b i k = 2 * posSame b i k + (if i k < 0 then 1 else 0) := by
  unfold posSmaller posSame
  ring

theorem subOct_eq (hx : ∀ k, x k < b k) (hoff : ∀ k, 2 * |off k| ≤ b k + 1) (k : Fin d) :
    let i := fun k => (x k : ℤ) + off k
    (0 ≤ posSmaller b i k ∧ posSmaller b i k < 2 * b k) ∧
    (octOffset b i k = 1 → subOct b (posSmaller b i) k = 0) ∧
    (octOffset b i k = -1 → subOct b (posSmaller b i) k = 1) := by
  intro i
  have hb : 0 < b k := by have := hx k; omega
  obtain ⟨h0, h1⟩ := posSame_bounds (b := b) i k hb
  have hs := hoff k
  have hxk := hx k
  have e := posSmaller_eq (b := b) i k
  have es : i k = octOffset b i k * b k + posSame b i k := by unfold posSame; ring
  have ei : i k = (x k : ℤ) + off k := rfl
  have ha := le_abs_self (off k)
  have ha' := neg_abs_le (off k)
  unfold subOct
  refine ⟨?_, fun h => ?_, fun h => ?_⟩
  · rw [e]; split <;> omega
  · rw [h] at es
    rw [e, if_neg]
    split <;> omega
  · rw [h] at es
    rw [e, if_pos]
    split <;> omega

/-- Comparing centres tells which half of the searched octant a smaller neighbour is in. -/
theorem thisSubOct_eq (hG : G.Pos) (ho : Valid G o) (oo : Fin d → ℤ) (hoo : ∀ k, |oo k| ≤ 1)
    {m : Oct d} (hm : m.level = o.level + 1) (k : Fin d)
    (hL : Layer (SignType.sign (oo k)) 2 (neighborPos G o (fun k => SignType.sign (oo k)) k)
      (m.pos k)) :
    thisSubOct G o m oo k =
      (m.pos k : ℤ) - 2 * neighborPos G o (fun k => SignType.sign (oo k)) k := by
  have hN : (0 : ℚ) < G.count k o.level := by exact_mod_cast count_pos hG k _
  have key : getCenter G o k + (oo k : ℚ) * getSize G o k < getCenter G m k ↔
      2 * ((o.pos k : ℤ) + oo k) + 1 ≤ m.pos k := by
    unfold getCenter getSize
    rw [cellCount_eq, cellCount_eq, hm, count_add G k 1 ho.1]
    have e1 : ((o.pos k : ℚ) + 1 / 2) * (1 / (G.count k o.level : ℚ)) +
        (oo k : ℚ) * (1 / (G.count k o.level : ℚ)) =
        (2 * (2 * ((o.pos k : ℚ) + oo k) + 1)) / (4 * G.count k o.level) := by
      field_simp; ring
    have e2 : ((m.pos k : ℚ) + 1 / 2) * (1 / ((G.count k o.level * 2 ^ 1 : ℕ) : ℚ)) =
        (2 * m.pos k + 1) / (4 * G.count k o.level) := by
      push_cast; field_simp; ring
    rw [e1, e2, div_lt_div_iff_of_pos_right (by positivity)]
    constructor
    · intro h
      have : 2 * (2 * ((o.pos k : ℤ) + oo k) + 1) < 2 * m.pos k + 1 := by exact_mod_cast h
      omega
    · intro h
      have : 2 * (2 * ((o.pos k : ℤ) + oo k) + 1) < 2 * (m.pos k : ℤ) + 1 := by omega
      exact_mod_cast this
  unfold thisSubOct
  obtain ⟨l1, l2, l3, l4⟩ := hL
  obtain ⟨c0, c1, c2, c3, c4⟩ := neighborPos_cases ho (fun k => SignType.sign (oo k)) k
  have hp := ho.2 k
  generalize neighborPos G o (fun k => SignType.sign (oo k)) k = p at *
  rcases sign_cases (hoo k) with ⟨e, es⟩ | ⟨e, es⟩ | ⟨e, es⟩
  · have := c0 es
    by_cases h : m.pos k = 2 * p
    · rw [if_neg (by rw [key]; omega)]; omega
    · rw [if_pos (by rw [key]; omega)]; omega
  · have h3 := l3 es
    have : p ≤ o.pos k + 1 := by
      by_cases hl : o.pos k + 1 < G.count k o.level
      · have := c1 es hl; omega
      · have := c2 es (by omega); omega
    rw [if_neg (by rw [key]; omega)]; omega
  · have h4 := l4 es
    have : o.pos k ≤ p + 1 := by
      by_cases hl : 1 ≤ o.pos k
      · have := c3 es hl; omega
      · omega
    rw [if_pos (by rw [key]; omega)]; omega

/-- `posLarger` is the position of the coarse cell, relative to the coarse octant. -/
theorem posLarger_eq (hG : G.Pos) (ho : Valid G o) (hx : ∀ k, x k < b k)
    (hoff : ∀ k, |off k| ≤ b k)
    (hin : InDomain (cellGrid G b) o.level (target b o x off)) (hl : G.lmin < o.level) (k : Fin d) :
    let i := fun k => (x k : ℤ) + off k
    let p := neighborPos G o (fun k => SignType.sign (octOffset b i k)) k
    (0 ≤ posLarger G o b i k ∧ posLarger G o b i k < b k) ∧
      p / 2 * b k + (posLarger G o b i k).toNat = samePos G o x b off k / 2 := by
  intro i p
  have hin' := (inDomain_iff hx hoff).1 hin
  have hb : 0 < b k := by have := hx k; omega
  obtain ⟨h0, h1⟩ := posSame_bounds (b := b) i k hb
  obtain ⟨t, ht, e⟩ := neighborPos_wraps ho _ k (hin' k)
  rw [sign_cast_of_abs (octOffset_abs x off hx hoff k)] at e
  have hN : (0 : ℚ) < G.count k o.level := by exact_mod_cast count_pos hG k _
  have hlog : ⌊getCenter G o k / getSize G o k⌋ = (o.pos k : ℤ) := by
    have : getCenter G o k / getSize G o k = (o.pos k : ℚ) + 1 / 2 := by
      unfold getCenter getSize
      rw [cellCount_eq]
      field_simp
    rw [this, Int.floor_eq_iff]
    push_cast
    constructor <;> linarith
  have hev : ∃ n, G.count k o.level = 2 * n := by
    refine ⟨G.count k (o.level - 1), ?_⟩
    have := count_add G k 1 (n := o.level - 1) (by omega)
    rw [show o.level - 1 + 1 = o.level by omega] at this
    rw [this]; omega
  obtain ⟨n, hn⟩ := hev
  have hsub : (if ((o.pos k : ℤ) + octOffset b i k) % 2 ≠ 0 then (1 : ℤ) else 0) = (p % 2 : ℕ) := by
    have e' : (p : ℤ) + t * (2 * n : ℕ) = o.pos k + octOffset b i k := by rw [← hn]; exact e
    have : ((o.pos k : ℤ) + octOffset b i k) % 2 = (p : ℤ) % 2 := by
      rw [← e', show (p : ℤ) + t * (2 * n : ℕ) = p + 2 * (t * n) by push_cast; ring,
        Int.add_mul_emod_self_left]
    rw [this]
    split <;> omega
  unfold posLarger
  simp only
  rw [hlog, hsub]
  have hsame : samePos G o x b off k = p * b k + (posSame b i k).toNat := rfl
  rw [hsame]
  generalize posSame b i k = m at *
  obtain ⟨m', rfl⟩ : ∃ m' : ℕ, m = m' := ⟨m.toNat, by omega⟩
  have hm' : m' < b k := by omega
  have e1 : ((m' : ℤ) + (p % 2 : ℕ) * (b k : ℤ)) / 2 = ((m' + p % 2 * b k) / 2 : ℕ) := by
    push_cast; rfl
  rw [e1]
  simp only [Int.toNat_natCast]
  have e2 : p * b k + m' = 2 * (p / 2 * b k) + (m' + p % 2 * b k) := by
    conv_lhs => rw [← Nat.div_add_mod p 2]
    ring
  rw [e2]
  have hr : p % 2 * b k ≤ b k := by
    calc p % 2 * b k ≤ 1 * b k := Nat.mul_le_mul_right _ (by omega)
      _ = b k := by omega
  refine ⟨⟨by positivity, ?_⟩, ?_⟩
  · have : (m' + p % 2 * b k) / 2 < b k := by omega
    exact_mod_cast this
  · omega

/-- The neighbour of a cell whose lattice position is in the domain. -/
theorem getNeighborGhost_inDomain (hG : G.Pos) (hM : Tiling G M) (hB : Balanced G M)
    (c : CellIndex d) (hc : c.oct ∈ M) (hx : ∀ k, c.idx k < c.b k) (off : Fin d → ℤ)
    (hoff : ∀ k, |off k| ≤ c.b k)
    (hsm : ∀ n ∈ M, Touch G c.oct n → c.oct.level < n.level → ∀ k, 2 * |off k| ≤ c.b k + 1)
    (hin : InDomain (cellGrid G c.b) c.oct.level (target c.b c.oct c.idx off)) :
    ∃ r, getNeighborGhost G M c off = some r ∧ r.oct ∈ M ∧ (∀ k, r.idx k < c.b k) ∧ r.b = c.b ∧
      (((r.status = c.status.keepLocal ∧ r.oct = c.oct ∨ r.status = .sameSize) ∧
          cellOct c.b r.oct r.idx = ⟨c.oct.level, samePos G c.oct c.idx c.b off⟩) ∨
        (r.status = .bigger ∧ G.lmin < c.oct.level ∧ cellOct c.b r.oct r.idx =
          ⟨c.oct.level - 1, fun k => samePos G c.oct c.idx c.b off k / 2⟩) ∨
        (r.status = .smaller ∧ Touch G c.oct r.oct ∧ cellOct c.b r.oct r.idx = ⟨c.oct.level + 1, fun k =>
          2 * samePos G c.oct c.idx c.b off k + (if (c.idx k : ℤ) + off k < 0 then 1 else 0)⟩)) := by
  have ho := hM.valid _ hc
  have hb : ∀ k, 0 < c.b k := fun k => by have := hx k; omega
  have hin' := (inDomain_iff hx hoff).1 hin
  have habs := octOffset_abs c.idx off hx hoff
  obtain ⟨oct, idx, b, st⟩ := c
  simp only at *
  unfold getNeighborGhost
  simp only
  by_cases hz : ∀ k, octOffset b (fun k => (idx k : ℤ) + off k) k = 0
  · rw [if_pos hz]
    have hbd : ∀ k, 0 ≤ (idx k : ℤ) + off k ∧ (idx k : ℤ) + off k < b k := fun k => by
      have h1 := posSame_bounds (b := b) (fun k => (idx k : ℤ) + off k) k (hb k)
      unfold posSame at h1
      rw [hz k] at h1
      simp only [zero_mul, sub_zero] at h1
      exact h1
    refine ⟨⟨oct, fun k => ((idx k : ℤ) + off k).toNat, b, st.keepLocal⟩, ?_, hc, fun k => ?_, rfl,
      Or.inl ⟨Or.inl ⟨rfl, rfl⟩, Oct.ext' rfl fun k => ?_⟩⟩
    · unfold getNeighbor
      rw [inBlock_eq_some hbd]
      rfl
    · have := hbd k; simp only; omega
    · have e := (neighborPos_cases ho
        (fun k => SignType.sign (octOffset b (fun k => (idx k : ℤ) + off k) k)) k).1 (by rw [hz k]; rfl)
      simp only [cellOct, samePos]
      rw [e]
      unfold posSame
      rw [hz k]
      simp
  · rw [if_neg hz, if_neg (by push Not; exact habs)]
    have hbnd : isBoundary G oct
        (fun k => SignType.sign (octOffset b (fun k => (idx k : ℤ) + off k) k)) = false :=
      (isBoundary_iff hG _ _).2 hin'
    rw [hbnd]
    simp only [Bool.false_eq_true, if_false]
    have hs0 : ¬ ∀ k, SignType.sign (octOffset b (fun k => (idx k : ℤ) + off k) k) = 0 := by
      intro h
      exact hz fun k => sign_eq_zero_iff.1 (h k)
    obtain ⟨ns, hns, -, hmem⟩ := findNeighbors_spec hG hM hB hc
      (fun k => SignType.sign (octOffset b (fun k => (idx k : ℤ) + off k) k)) hs0
    have hns' := hns
    unfold findNeighbors at hns'
    rw [if_neg hs0, hbnd] at hns'
    simp only [Bool.false_eq_true, if_false] at hns'
    split_ifs at hns' with c1 c2 c3
    · -- same size
      obtain rfl := Option.some.inj hns'
      rw [hns]
      simp only [if_true]
      have hbd := fun k => posSame_bounds (b := b) (fun k => (idx k : ℤ) + off k) k (hb k)
      rw [inBlock_eq_some hbd]
      refine ⟨_, rfl, c1, fun k => ?_, rfl, Or.inl ⟨Or.inr rfl, Oct.ext' rfl fun k => rfl⟩⟩
      have := hbd k; simp only; omega
    · -- larger
      obtain rfl := Option.some.inj hns'
      rw [hns]
      have hl0 : G.lmin < oct.level := by
        have := (hM.valid _ c2.2).1
        simp only at this
        omega
      simp only
      rw [if_neg (by omega), if_pos (by omega)]
      have hbd := fun k => posLarger_eq hG ho hx hoff hin hl0 k
      rw [inBlock_eq_some fun k => (hbd k).1]
      refine ⟨_, rfl, c2.2, fun k => ?_, rfl, Or.inr (Or.inl ⟨rfl, hl0, Oct.ext' rfl fun k => ?_⟩)⟩
      · have := (hbd k).1; simp only; omega
      · have := (hbd k).2
        simp only [cellOct]
        rw [← this, Nat.shiftRight_eq_div_pow, pow_one]
    · -- smaller
      obtain rfl := Option.some.inj hns'
      rw [hns]
      have hlev : ∀ m ∈ finerNeighbors oct.level (neighborPos G oct
          (fun k => SignType.sign (octOffset b (fun k => (idx k : ℤ) + off k) k)))
          (fun k => SignType.sign (octOffset b (fun k => (idx k : ℤ) + off k) k)),
          m.level = oct.level + 1 := fun m hm => ((finer_mem_iff _ _ _ m).1 hm).1
      -- some smaller neighbour exists, so the offset is small
      have hne : ∃ m, m ∈ finerNeighbors oct.level (neighborPos G oct
          (fun k => SignType.sign (octOffset b (fun k => (idx k : ℤ) + off k) k)))
          (fun k => SignType.sign (octOffset b (fun k => (idx k : ℤ) + off k) k)) := by
        refine ⟨⟨oct.level + 1, fun k => neighborPos G oct
          (fun k => SignType.sign (octOffset b (fun k => (idx k : ℤ) + off k) k)) k * 2 +
            (if SignType.sign (octOffset b (fun k => (idx k : ℤ) + off k) k) = -1 then 1 else 0)⟩, ?_⟩
        rw [finer_mem_iff]
        refine ⟨rfl, fun k => ?_⟩
        unfold Layer
        simp only
        rcases sign_cases (habs k) with ⟨-, es⟩ | ⟨-, es⟩ | ⟨-, es⟩ <;> rw [es] <;> simp
      obtain ⟨m0, hm0⟩ := hne
      have hoff2 : ∀ k, 2 * |off k| ≤ b k + 1 :=
        hsm m0 (c3 m0 hm0) (DirAdj.touch hG ((hmem m0).1 hm0).2) (by rw [hlev m0 hm0]; omega)
      have hsub := subOct_eq hx hoff2
      simp only at hsub
      -- the suboctant
      have hex : ∃ sub : Fin d → ℕ, ∀ k,
          subOct b (posSmaller b fun k => (idx k : ℤ) + off k) k = sub k ∧ sub k ≤ 1 := by
        refine ⟨fun k => if (b k : ℤ) ≤ posSmaller b (fun k => (idx k : ℤ) + off k) k then 1 else 0,
          fun k => ?_⟩
        unfold subOct
        by_cases h : (b k : ℤ) ≤ posSmaller b (fun k => (idx k : ℤ) + off k) k
        · simp [h]
        · simp [h]
      obtain ⟨sub, hsub'⟩ := hex
      have hstar : (⟨oct.level + 1, fun k => neighborPos G oct (fun k => SignType.sign
          (octOffset b (fun k => (idx k : ℤ) + off k) k)) k * 2 + sub k⟩ : Oct d) ∈
          finerNeighbors oct.level (neighborPos G oct
          (fun k => SignType.sign (octOffset b (fun k => (idx k : ℤ) + off k) k)))
          (fun k => SignType.sign (octOffset b (fun k => (idx k : ℤ) + off k) k)) := by
        rw [finer_mem_iff]
        refine ⟨rfl, fun k => ?_⟩
        obtain ⟨-, s1, s2⟩ := hsub k
        obtain ⟨s3, s4⟩ := hsub' k
        unfold Layer
        simp only
        rcases sign_cases (habs k) with ⟨e, es⟩ | ⟨e, es⟩ | ⟨e, es⟩
        · rw [es]; simp; omega
        · have := s1 e; rw [es]; simp; omega
        · have := s2 e; rw [es]; simp; omega
      have hthis : ∀ m ∈ finerNeighbors oct.level (neighborPos G oct
          (fun k => SignType.sign (octOffset b (fun k => (idx k : ℤ) + off k) k)))
          (fun k => SignType.sign (octOffset b (fun k => (idx k : ℤ) + off k) k)),
          ∀ k, thisSubOct G oct m (octOffset b fun k => (idx k : ℤ) + off k) k =
            (m.pos k : ℤ) - 2 * neighborPos G oct
              (fun k => SignType.sign (octOffset b (fun k => (idx k : ℤ) + off k) k)) k := by
        intro m hm k
        obtain ⟨e1, e2⟩ := (finer_mem_iff _ _ _ m).1 hm
        exact thisSubOct_eq hG ho _ habs e1 k (e2 k)
      generalize hp : neighborPos G oct
        (fun k => SignType.sign (octOffset b (fun k => (idx k : ℤ) + off k) k)) = p at *
      generalize hf : finerNeighbors oct.level p
        (fun k => SignType.sign (octOffset b (fun k => (idx k : ℤ) + off k) k)) = f at *
      have hfind : f.find? (fun m => decide (∀ k,
          subOct b (posSmaller b fun k => (idx k : ℤ) + off k) k =
            thisSubOct G oct m (octOffset b fun k => (idx k : ℤ) + off k) k)) =
          some ⟨oct.level + 1, fun k => p k * 2 + sub k⟩ := by
        have hP : ∀ m ∈ f, (∀ k, subOct b (posSmaller b fun k => (idx k : ℤ) + off k) k =
            thisSubOct G oct m (octOffset b fun k => (idx k : ℤ) + off k) k) ↔
              m = ⟨oct.level + 1, fun k => p k * 2 + sub k⟩ := by
          intro m hm
          constructor
          · intro h
            refine Oct.ext' (hlev m hm) fun k => ?_
            have := h k
            rw [hthis m hm k, (hsub' k).1] at this
            simp only
            omega
          · rintro rfl k
            rw [hthis _ hm k, (hsub' k).1]
            push_cast
            ring
        rcases hr : f.find? (fun m => decide (∀ k,
          subOct b (posSmaller b fun k => (idx k : ℤ) + off k) k =
            thisSubOct G oct m (octOffset b fun k => (idx k : ℤ) + off k) k)) with _ | m
        · have := List.find?_eq_none.1 hr _ hstar
          rw [decide_eq_true_iff, hP _ hstar] at this
          exact absurd rfl this
        · have h1 := List.mem_of_find?_eq_some hr
          have h2 := List.find?_some hr
          rw [decide_eq_true_iff, hP _ h1] at h2
          rw [h2]
      have hcase : ∃ n ns', f = n :: ns' := by
        cases f with
        | nil => simp at hm0
        | cons n ns' => exact ⟨n, ns', rfl⟩
      obtain ⟨n, ns', rfl⟩ := hcase
      have hn : n.level = oct.level + 1 := hlev n (by simp)
      simp only
      rw [if_neg (by omega), if_neg (by omega), if_pos hn, if_pos fun k => (hsub k).1]
      have hbd : ∀ k, 0 ≤ posSmaller b (fun k => (idx k : ℤ) + off k) k -
          b k * subOct b (posSmaller b fun k => (idx k : ℤ) + off k) k ∧
          posSmaller b (fun k => (idx k : ℤ) + off k) k -
          b k * subOct b (posSmaller b fun k => (idx k : ℤ) + off k) k < b k := by
        intro k
        obtain ⟨⟨s0, s1⟩, -, -⟩ := hsub k
        unfold subOct
        split <;> omega
      rw [inBlock_eq_some hbd]
      simp only [Option.bind_some]
      rw [hfind]
      refine ⟨_, rfl, c3 _ hstar, fun k => ?_, rfl, Or.inr (Or.inr ⟨rfl,
        DirAdj.touch hG ((hmem _).1 hstar).2, Oct.ext' rfl fun k => ?_⟩)⟩
      · have := hbd k; simp only; omega
      · have h1 := hbd k
        have h2 := posSmaller_eq (b := b) (fun k => (idx k : ℤ) + off k) k
        have h3 := posSame_bounds (b := b) (fun k => (idx k : ℤ) + off k) k (hb k)
        simp only [cellOct, samePos]
        rw [hp]
        rw [(hsub' k).1, h2] at h1 ⊢
        obtain ⟨-, hs1⟩ := hsub' k
        generalize posSame b (fun k => (idx k : ℤ) + off k) k = m at *
        have e3 : (p k * 2 + sub k) * b k = 2 * (p k * b k) + b k * sub k := by ring
        rw [e3]
        generalize p k * b k = pb
        have e4 : ((b k : ℤ)) * (sub k : ℤ) = ((b k * sub k : ℕ) : ℤ) := by push_cast; rfl
        rw [e4] at h1 ⊢
        generalize b k * sub k = bs at *
        split <;> omega

/-- The neighbour of a cell whose lattice position is outside the domain. -/
theorem getNeighborGhost_boundary (hG : G.Pos) 
    (c : CellIndex d) (hc : Valid G c.oct) (hx : ∀ k, c.idx k < c.b k) (off : Fin d → ℤ)
    (hoff : ∀ k, |off k| ≤ c.b k)
    (hin : ¬ InDomain (cellGrid G c.b) c.oct.level (target c.b c.oct c.idx off)) :
    getNeighborGhost G M c off = some ⟨c.oct, fun k => ((c.idx k : ℤ) + off k + c.b k).toNat, c.b,
      .boundary⟩ := by
  have hin' := mt (inDomain_iff hx hoff).2 hin
  have habs := octOffset_abs c.idx off hx hoff
  obtain ⟨oct, idx, b, st⟩ := c
  simp only at *
  unfold getNeighborGhost
  simp only
  have hz : ¬ ∀ k, octOffset b (fun k => (idx k : ℤ) + off k) k = 0 := by
    intro hz
    refine hin' fun k => ?_
    have := hc.2 k
    right
    simp only [hz k, sign_zero, SignType.coe_zero, add_zero]
    omega
  rw [if_neg hz, if_neg (by push Not; exact habs), if_pos]
  rw [← isBoundary_iff hG] at hin'
  simpa using hin'

end main

end Verif.Cells
