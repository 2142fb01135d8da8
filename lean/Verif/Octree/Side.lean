import Verif.Octree.Geom

/-!
# Adjacency in one direction, in integer coordinates
-/

namespace Verif.Octree

variable {d : ℕ}

/-- The same-size neighbour in direction `off` is in the domain, or the direction is periodic. -/
def InDom (G : Grid d) (a : Oct d) (off : Fin d → SignType) (i : Fin d) : Prop :=
  G.periodic i = true ∨
    (0 ≤ (a.pos i : ℤ) + (off i : ℤ) ∧ (a.pos i : ℤ) + (off i : ℤ) < G.count i a.level)

theorem center_add (G : Grid d) (o : Oct d) (off : Fin d → SignType) (i : Fin d) :
    getCenter G o i + ((off i : ℤ) : ℚ) * getSize G o i =
      ((o.pos i : ℚ) + ((off i : ℤ) : ℚ) + 1 / 2) / G.count i o.level := by
  unfold getCenter getSize
  rw [cellCount_eq]
  ring

theorem isBoundary_iff {G : Grid d} (hG : G.Pos) (o : Oct d) (off : Fin d → SignType) :
    isBoundary G o off = false ↔ ∀ i, InDom G o off i := by
  unfold isBoundary
  rw [decide_eq_false_iff_not]
  push Not
  refine forall_congr' fun i => ?_
  unfold InDom
  rw [center_add]
  have h0 : (0 : ℚ) < G.count i o.level := by exact_mod_cast count_pos hG i _
  rw [lt_div_iff₀ h0, div_lt_iff₀ h0, zero_mul, one_mul]
  have e1 : (0 < (o.pos i : ℚ) + ((off i : ℤ) : ℚ) + 1 / 2) ↔ 0 ≤ (o.pos i : ℤ) + (off i : ℤ) := by
    constructor
    · intro h
      by_contra hc
      have : (o.pos i : ℤ) + (off i : ℤ) ≤ -1 := by omega
      have : (o.pos i : ℚ) + ((off i : ℤ) : ℚ) ≤ -1 := by exact_mod_cast this
      linarith
    · intro h
      have : (0 : ℚ) ≤ (o.pos i : ℚ) + ((off i : ℤ) : ℚ) := by exact_mod_cast h
      linarith
  have e2 : ((o.pos i : ℚ) + ((off i : ℤ) : ℚ) + 1 / 2 < G.count i o.level) ↔
      (o.pos i : ℤ) + (off i : ℤ) < G.count i o.level := by
    constructor
    · intro h
      by_contra hc
      have : (G.count i o.level : ℤ) ≤ (o.pos i : ℤ) + (off i : ℤ) := by omega
      have : (G.count i o.level : ℚ) ≤ (o.pos i : ℚ) + ((off i : ℤ) : ℚ) := by exact_mod_cast this
      linarith
    · intro h
      have : (o.pos i : ℤ) + (off i : ℤ) + 1 ≤ G.count i o.level := by omega
      have : (o.pos i : ℚ) + ((off i : ℤ) : ℚ) + 1 ≤ G.count i o.level := by exact_mod_cast this
      linarith
  rw [e1, e2]
  cases G.periodic i <;> simp

/-- The wrapped coordinate, by cases. -/
theorem neighborPos_cases {G : Grid d} {a : Oct d} (ha : Valid G a)
    (off : Fin d → SignType) (i : Fin d) :
    (off i = 0 → neighborPos G a off i = a.pos i) ∧
    (off i = 1 → a.pos i + 1 < G.count i a.level → neighborPos G a off i = a.pos i + 1) ∧
    (off i = 1 → a.pos i + 1 = G.count i a.level → neighborPos G a off i = 0) ∧
    (off i = -1 → 1 ≤ a.pos i → neighborPos G a off i = a.pos i - 1) ∧
    (off i = -1 → a.pos i = 0 → neighborPos G a off i = G.count i a.level - 1) := by
  have hp := ha.2 i
  unfold neighborPos
  rw [cellCount_eq]
  refine ⟨fun h => ?_, fun h h1 => ?_, fun h h1 => ?_, fun h h1 => ?_, fun h h1 => ?_⟩
  · rw [h]
    have : ((a.pos i : ℤ) + (G.count i a.level : ℤ) + ((0 : SignType) : ℤ)).toNat =
      a.pos i + G.count i a.level := by simp; omega
    rw [this, Nat.add_mod_right, Nat.mod_eq_of_lt hp]
  · rw [h]
    have : ((a.pos i : ℤ) + (G.count i a.level : ℤ) + ((1 : SignType) : ℤ)).toNat =
      a.pos i + 1 + G.count i a.level := by simp; omega
    rw [this, Nat.add_mod_right, Nat.mod_eq_of_lt h1]
  · rw [h]
    have : ((a.pos i : ℤ) + (G.count i a.level : ℤ) + ((1 : SignType) : ℤ)).toNat =
      a.pos i + 1 + G.count i a.level := by simp; omega
    rw [this, Nat.add_mod_right, h1, Nat.mod_self]
  · rw [h]
    have : ((a.pos i : ℤ) + (G.count i a.level : ℤ) + ((-1 : SignType) : ℤ)).toNat =
      a.pos i - 1 + G.count i a.level := by simp; omega
    rw [this, Nat.add_mod_right, Nat.mod_eq_of_lt (by omega)]
  · rw [h]
    have : ((a.pos i : ℤ) + (G.count i a.level : ℤ) + ((-1 : SignType) : ℤ)).toNat =
      G.count i a.level - 1 := by simp; omega
    rw [this, Nat.mod_eq_of_lt (by omega)]

theorem neighborPos_lt {G : Grid d} (hG : G.Pos) (a : Oct d)
    (off : Fin d → SignType) (i : Fin d) : neighborPos G a off i < G.count i a.level := by
  unfold neighborPos
  rw [cellCount_eq]
  exact Nat.mod_lt _ (count_pos hG i _)

/-- `SideAdj` with numerators at a common scale `N`. -/
theorem sideAdj_scale (off : SignType) (N : ℚ) (hN : 0 < N) (la ha lb hb s : ℤ) :
    SideAdj off (la / N) (ha / N) (lb / N + s) (hb / N + s) ↔
      SideAdj off la ha (lb + s * N) (hb + s * N) := by
  have e : ∀ x : ℤ, (x : ℚ) / N + s = (x + s * N) / N := by intro x; field_simp
  rw [e, e]
  cases off <;> simp only [SideAdj, div_lt_div_iff_of_pos_right hN, div_le_div_iff_of_pos_right hN]

/-- Integer version of `SideAdj`. -/
def SideAdjZ (off : SignType) (la ha lb hb : ℤ) : Prop :=
  match off with
  | SignType.zero => lb < ha ∧ la < hb
  | SignType.pos => lb ≤ ha ∧ ha < hb
  | SignType.neg => lb < la ∧ la ≤ hb

theorem sideAdj_int (off : SignType) (la ha lb hb : ℤ) :
    SideAdj off la ha lb hb ↔ SideAdjZ off la ha lb hb := by
  cases off <;> simp only [SideAdj, SideAdjZ] <;> norm_cast

/-- Adjacency of two octants in direction `i` with shift `s`, at the scale of the finer one. -/
theorem sideAdj_coarse_int {G : Grid d} (hG : G.Pos) {a b : Oct d}
    (hb : G.lmin ≤ b.level) (hl : b.level ≤ a.level) (off : SignType) (i : Fin d) (s : ℤ) :
    SideAdj off (lo G a i) (hi G a i) (lo G b i + s) (hi G b i + s) ↔
      SideAdjZ off (a.pos i) (a.pos i + 1)
        (((b.pos i * 2 ^ (a.level - b.level) : ℕ) : ℤ) + s * G.count i a.level)
        (((b.pos i * 2 ^ (a.level - b.level) : ℕ) : ℤ) + 2 ^ (a.level - b.level) +
          s * G.count i a.level) := by
  have h0 : (0 : ℚ) < G.count i a.level := by exact_mod_cast count_pos hG i _
  have h2 : b.level + (a.level - b.level) = a.level := by omega
  rw [lo_scale b i (a.level - b.level) hb, hi_scale b i (a.level - b.level) hb, h2]
  unfold lo hi
  have := sideAdj_scale off (G.count i a.level) h0 (a.pos i) (a.pos i + 1)
    ((b.pos i * 2 ^ (a.level - b.level) : ℕ)) (((b.pos i + 1) * 2 ^ (a.level - b.level) : ℕ)) s
  push_cast at this ⊢
  rw [this]
  have e2 := sideAdj_int off (a.pos i) (a.pos i + 1)
    (((b.pos i * 2 ^ (a.level - b.level) : ℕ) : ℤ) + s * G.count i a.level)
    ((((b.pos i + 1) * 2 ^ (a.level - b.level) : ℕ) : ℤ) + s * G.count i a.level)
  push_cast at e2
  rw [e2, add_one_mul]

theorem sideAdj_fine_int {G : Grid d} (hG : G.Pos) {a b : Oct d}
    (ha : G.lmin ≤ a.level) (hl : a.level ≤ b.level) (off : SignType) (i : Fin d) (s : ℤ) :
    SideAdj off (lo G a i) (hi G a i) (lo G b i + s) (hi G b i + s) ↔
      SideAdjZ off ((a.pos i * 2 ^ (b.level - a.level) : ℕ) : ℤ)
        (((a.pos i * 2 ^ (b.level - a.level) : ℕ) : ℤ) + 2 ^ (b.level - a.level))
        (b.pos i + s * G.count i b.level) (b.pos i + 1 + s * G.count i b.level) := by
  have h0 : (0 : ℚ) < G.count i b.level := by exact_mod_cast count_pos hG i _
  have h2 : a.level + (b.level - a.level) = b.level := by omega
  rw [lo_scale a i (b.level - a.level) ha, hi_scale a i (b.level - a.level) ha, h2]
  unfold lo hi
  have := sideAdj_scale off (G.count i b.level) h0 ((a.pos i * 2 ^ (b.level - a.level) : ℕ))
    (((a.pos i + 1) * 2 ^ (b.level - a.level) : ℕ)) (b.pos i) (b.pos i + 1) s
  push_cast at this ⊢
  rw [this]
  have e2 := sideAdj_int off ((a.pos i * 2 ^ (b.level - a.level) : ℕ) : ℤ)
    (((a.pos i + 1) * 2 ^ (b.level - a.level) : ℕ) : ℤ)
    (b.pos i + s * G.count i b.level) (b.pos i + 1 + s * G.count i b.level)
  push_cast at e2
  rw [e2, add_one_mul]

/-- `b` no finer than `a` is adjacent to `a` iff it is the ancestor of the same-size neighbour. -/
theorem side_coarse {G : Grid d} (hG : G.Pos) {a b : Oct d} (ha : Valid G a) (hb : Valid G b)
    (hl : b.level ≤ a.level) (off : Fin d → SignType) (i : Fin d) :
    (∃ s, Shift G i s ∧ SideAdj (off i) (lo G a i) (hi G a i) (lo G b i + s) (hi G b i + s)) ↔
      (InDom G a off i ∧ b.pos i = neighborPos G a off i / 2 ^ (a.level - b.level)) := by
  have hpa := ha.2 i
  have hN : G.count i a.level = G.count i b.level * 2 ^ (a.level - b.level) := by
    rw [← count_add G i _ hb.1]; congr 1; omega
  have hpb : (b.pos i + 1) * 2 ^ (a.level - b.level) ≤ G.count i a.level := by
    rw [hN]; exact Nat.mul_le_mul_right _ (hb.2 i)
  rw [Nat.add_one_mul] at hpb
  have hk : 0 < 2 ^ (a.level - b.level) := by positivity
  simp_rw [sideAdj_coarse_int hG hb.1 hl]
  obtain ⟨c0, c1, c2, c3, c4⟩ := neighborPos_cases ha off i
  have hdiv : b.pos i = neighborPos G a off i / 2 ^ (a.level - b.level) ↔
      (b.pos i * 2 ^ (a.level - b.level) ≤ neighborPos G a off i ∧
        neighborPos G a off i < b.pos i * 2 ^ (a.level - b.level) + 2 ^ (a.level - b.level)) := by
    rw [eq_comm, Nat.div_eq_iff hk]
    constructor <;> rintro ⟨_, _⟩ <;> constructor <;> omega
  rw [hdiv]
  have hkz : ((2 : ℤ) ^ (a.level - b.level)) = ((2 ^ (a.level - b.level) : ℕ) : ℤ) := by
    push_cast; rfl
  rw [hkz]
  generalize b.pos i * 2 ^ (a.level - b.level) = B at *
  generalize 2 ^ (a.level - b.level) = K at *
  generalize neighborPos G a off i = Q at *
  unfold InDom Shift
  generalize G.count i a.level = N at *
  cases hoff : off i
  · -- zero
    have hq := c0 hoff
    simp only [SideAdjZ, SignType.zero_eq_zero, SignType.coe_zero, add_zero]
    constructor
    · rintro ⟨s, hs, h1, h2⟩
      rcases hs with rfl | ⟨hp, rfl | rfl⟩
      · refine ⟨Or.inr ⟨by omega, by omega⟩, by omega, by omega⟩
      · exfalso; omega
      · exfalso; omega
    · rintro ⟨-, h1, h2⟩
      exact ⟨0, Or.inl rfl, by omega, by omega⟩
  · -- neg
    simp only [SideAdjZ, SignType.neg_eq_neg_one, SignType.coe_neg_one]
    constructor
    · rintro ⟨s, hs, h1, h2⟩
      rcases hs with rfl | ⟨hp, rfl | rfl⟩
      · have := c3 hoff (by omega)
        refine ⟨Or.inr ⟨by omega, by omega⟩, by omega, by omega⟩
      · exfalso; omega
      · have := c4 hoff (by omega)
        refine ⟨Or.inl hp, by omega, by omega⟩
    · rintro ⟨hd, h1, h2⟩
      rcases Nat.eq_zero_or_pos (a.pos i) with h | h
      · have := c4 hoff h
        rcases hd with hp | hd
        · exact ⟨-1, Or.inr ⟨hp, Or.inr rfl⟩, by omega, by omega⟩
        · exfalso; omega
      · have := c3 hoff h
        exact ⟨0, Or.inl rfl, by omega, by omega⟩
  · -- pos
    simp only [SideAdjZ, SignType.pos_eq_one, SignType.coe_one]
    constructor
    · rintro ⟨s, hs, h1, h2⟩
      rcases hs with rfl | ⟨hp, rfl | rfl⟩
      · have := c1 hoff (by omega)
        refine ⟨Or.inr ⟨by omega, by omega⟩, by omega, by omega⟩
      · have := c2 hoff (by omega)
        refine ⟨Or.inl hp, by omega, by omega⟩
      · exfalso; omega
    · rintro ⟨hd, h1, h2⟩
      rcases Nat.lt_or_ge (a.pos i + 1) N with h | h
      · have := c1 hoff h
        exact ⟨0, Or.inl rfl, by omega, by omega⟩
      · have := c2 hoff (by omega)
        rcases hd with hp | hd
        · exact ⟨1, Or.inr ⟨hp, Or.inl rfl⟩, by omega, by omega⟩
        · exfalso; omega

/-- Position of a finer octant inside the same-size neighbour `p`, in the layer next to `a`. -/
def Layer (off : SignType) (K p q : ℕ) : Prop :=
  p * K ≤ q ∧ q < p * K + K ∧ (off = 1 → q = p * K) ∧ (off = -1 → q + 1 = p * K + K)

/-- `b` no coarser than `a` is adjacent to `a` iff it lies in the same-size neighbour, in the layer
next to `a`. -/
theorem side_fine {G : Grid d} (hG : G.Pos) {a b : Oct d} (ha : Valid G a) (hb : Valid G b)
    (hl : a.level ≤ b.level) (off : Fin d → SignType) (i : Fin d) :
    (∃ s, Shift G i s ∧ SideAdj (off i) (lo G a i) (hi G a i) (lo G b i + s) (hi G b i + s)) ↔
      (InDom G a off i ∧
        Layer (off i) (2 ^ (b.level - a.level)) (neighborPos G a off i) (b.pos i)) := by
  have hpa := ha.2 i
  have hpb := hb.2 i
  have hN : G.count i b.level = G.count i a.level * 2 ^ (b.level - a.level) := by
    rw [← count_add G i _ ha.1]; congr 1; omega
  have hk : 0 < 2 ^ (b.level - a.level) := by positivity
  have hpa2 : (a.pos i + 1) * 2 ^ (b.level - a.level) ≤ G.count i b.level := by
    rw [hN]; exact Nat.mul_le_mul_right _ hpa
  rw [Nat.add_one_mul] at hpa2
  simp_rw [sideAdj_fine_int hG ha.1 hl]
  obtain ⟨c0, c1, c2, c3, c4⟩ := neighborPos_cases ha off i
  have hkz : ((2 : ℤ) ^ (b.level - a.level)) = ((2 ^ (b.level - a.level) : ℕ) : ℤ) := by
    push_cast; rfl
  rw [hkz]
  unfold InDom Shift Layer
  generalize 2 ^ (b.level - a.level) = K at *
  generalize neighborPos G a off i = Q at *
  generalize G.count i a.level = n at *
  generalize G.count i b.level = N at *
  have mulK : ∀ x y : ℕ, x < y → x * K + K ≤ y * K := by
    intro x y h
    have := Nat.mul_le_mul_right K (Nat.succ_le_of_lt h)
    rwa [Nat.succ_mul] at this
  cases hoff : off i
  · have hq := c0 hoff
    subst hq
    simp only [SideAdjZ, SignType.zero_eq_zero, SignType.coe_zero, add_zero]
    generalize a.pos i * K = A at *
    constructor
    · rintro ⟨s, hs, h1, h2⟩
      rcases hs with rfl | ⟨hp, rfl | rfl⟩
      · refine ⟨Or.inr ⟨by omega, by omega⟩, by omega, by omega, by simp, by simp⟩
      · exfalso; omega
      · exfalso; omega
    · rintro ⟨-, h1, h2, -, -⟩
      exact ⟨0, Or.inl rfl, by omega, by omega⟩
  · simp only [SideAdjZ, SignType.neg_eq_neg_one, SignType.coe_neg_one]
    constructor
    · rintro ⟨s, hs, h1, h2⟩
      rcases hs with rfl | ⟨hp, rfl | rfl⟩
      · have h0 : 1 ≤ a.pos i := by
          rcases Nat.eq_zero_or_pos (a.pos i) with h | h
          · rw [h, Nat.zero_mul] at h1; exfalso; omega
          · exact h
        have hq := c3 hoff h0
        have e : a.pos i * K = Q * K + K := by
          rw [hq, ← Nat.succ_mul]; congr 1; omega
        refine ⟨Or.inr ⟨by omega, by omega⟩, by omega, by omega, by simp, ?_⟩
        intro _; omega
      · exfalso
        have : 0 ≤ a.pos i * K := Nat.zero_le _
        omega
      · have h0 : a.pos i = 0 := by
          rcases Nat.eq_zero_or_pos (a.pos i) with h | h
          · exact h
          · have := mulK 0 (a.pos i) h
            exfalso; omega
        have hq := c4 hoff h0
        have e : N = Q * K + K := by
          rw [hN, ← Nat.succ_mul, hq]; congr 1; omega
        rw [h0, Nat.zero_mul] at h1 h2
        refine ⟨Or.inl hp, by omega, by omega, by simp, ?_⟩
        intro _; omega
    · rintro ⟨hd, h1, h2, -, h3⟩
      have h3 := h3 trivial
      rcases Nat.eq_zero_or_pos (a.pos i) with h | h
      · have hq := c4 hoff h
        have e : N = Q * K + K := by
          rw [hN, ← Nat.succ_mul, hq]; congr 1; omega
        rcases hd with hp | hd
        · refine ⟨-1, Or.inr ⟨hp, Or.inr rfl⟩, ?_⟩
          rw [h, Nat.zero_mul]
          constructor <;> omega
        · exfalso; omega
      · have hq := c3 hoff h
        have e : a.pos i * K = Q * K + K := by
          rw [hq, ← Nat.succ_mul]; congr 1; omega
        exact ⟨0, Or.inl rfl, by omega, by omega⟩
  · simp only [SideAdjZ, SignType.pos_eq_one, SignType.coe_one]
    constructor
    · rintro ⟨s, hs, h1, h2⟩
      rcases hs with rfl | ⟨hp, rfl | rfl⟩
      · have h0 : a.pos i + 1 < n := by
          rcases Nat.lt_or_ge (a.pos i + 1) n with h | h
          · exact h
          · have : n = a.pos i + 1 := by omega
            rw [hN, this, Nat.succ_mul] at hpb
            exfalso; omega
        have hq := c1 hoff h0
        have e : Q * K = a.pos i * K + K := by rw [hq, Nat.succ_mul]
        refine ⟨Or.inr ⟨by omega, by omega⟩, by omega, by omega, ?_, by simp⟩
        intro _; omega
      · have h0 : a.pos i + 1 = n := by
          rcases Nat.lt_or_ge (a.pos i + 1) n with h | h
          · have := mulK _ _ h
            rw [Nat.succ_mul, ← hN] at this
            exfalso; omega
          · omega
        have hq := c2 hoff h0
        have e : Q * K = 0 := by rw [hq, Nat.zero_mul]
        have e2 : N = a.pos i * K + K := by rw [hN, ← h0, Nat.succ_mul]
        refine ⟨Or.inl hp, by omega, by omega, ?_, by simp⟩
        intro _; omega
      · exfalso
        have : 0 ≤ a.pos i * K := Nat.zero_le _
        omega
    · rintro ⟨hd, h1, h2, h3, -⟩
      have h3 := h3 trivial
      rcases Nat.lt_or_ge (a.pos i + 1) n with h | h
      · have hq := c1 hoff h
        have e : Q * K = a.pos i * K + K := by rw [hq, Nat.succ_mul]
        exact ⟨0, Or.inl rfl, by omega, by omega⟩
      · have hq := c2 hoff (by omega)
        have e : Q * K = 0 := by rw [hq, Nat.zero_mul]
        have e2 : N = a.pos i * K + K := by
          rw [hN, show n = a.pos i + 1 by omega, Nat.succ_mul]
        rcases hd with hp | hd
        · exact ⟨1, Or.inr ⟨hp, Or.inl rfl⟩, by omega, by omega⟩
        · exfalso; omega

end Verif.Octree
