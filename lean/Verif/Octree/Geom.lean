import Verif.Octree.Model
import Mathlib.Data.Finset.Lattice.Fold
import Mathlib.Tactic.NormNum
import Mathlib.Tactic.Push

/-!
# Lemmas on octree geometry
-/

namespace Verif.Octree

variable {d : ℕ}

theorem cellCount_eq (G : Grid d) (i : Fin d) (n : ℕ) : cellCount G i n = G.count i n := by
  simp [cellCount, Grid.count, Nat.shiftLeft_eq]

theorem count_pos {G : Grid d} (hG : G.Pos) (i : Fin d) (n : ℕ) : 0 < G.count i n :=
  Nat.mul_pos (hG.pos i) (by positivity)

theorem count_add (G : Grid d) (i : Fin d) {n : ℕ} (k : ℕ) (hn : G.lmin ≤ n) :
    G.count i (n + k) = G.count i n * 2 ^ k := by
  unfold Grid.count
  rw [Nat.mul_assoc, ← pow_add]
  congr 2
  omega

theorem count_le {G : Grid d} (hG : G.WF) (i : Fin d) {n : ℕ} (hn : G.lmin ≤ n) :
    G.count i n ≤ 2 ^ n := by
  calc G.count i n ≤ 2 ^ G.lmin * 2 ^ (n - G.lmin) := Nat.mul_le_mul_right _ (hG.le i)
    _ = 2 ^ n := by rw [← pow_add]; congr 1; omega

/-- Lower face at the scale of `k` levels below. -/
theorem lo_scale {G : Grid d} (o : Oct d) (i : Fin d) (k : ℕ) (ho : G.lmin ≤ o.level) :
    lo G o i = ((o.pos i * 2 ^ k : ℕ) : ℚ) / G.count i (o.level + k) := by
  unfold lo
  rw [count_add G i k ho]
  push_cast
  rw [mul_div_mul_right _ _ (by positivity)]

theorem hi_scale {G : Grid d} (o : Oct d) (i : Fin d) (k : ℕ) (ho : G.lmin ≤ o.level) :
    hi G o i = (((o.pos i + 1) * 2 ^ k : ℕ) : ℚ) / G.count i (o.level + k) := by
  unfold hi
  rw [count_add G i k ho]
  push_cast
  rw [mul_div_mul_right _ _ (by positivity)]

theorem lo_lt_hi {G : Grid d} (hG : G.Pos) (o : Oct d) (i : Fin d) : lo G o i < hi G o i := by
  unfold lo hi
  have : (0 : ℚ) < G.count i o.level := by exact_mod_cast count_pos hG i _
  gcongr
  linarith

theorem lo_nonneg {G : Grid d} (o : Oct d) (i : Fin d) : 0 ≤ lo G o i := by
  unfold lo; positivity

theorem hi_le_one {G : Grid d} (hG : G.Pos) {o : Oct d} (ho : Valid G o) (i : Fin d) :
    hi G o i ≤ 1 := by
  unfold hi
  have h0 : (0 : ℚ) < G.count i o.level := by exact_mod_cast count_pos hG i _
  rw [div_le_one h0]
  exact_mod_cast ho.2 i

theorem lo_lt_one {G : Grid d} (hG : G.Pos) {o : Oct d} (ho : Valid G o) (i : Fin d) :
    lo G o i < 1 := lt_of_lt_of_le (lo_lt_hi hG o i) (hi_le_one hG ho i)

/-! ### Ancestors -/

theorem Anc.refl (a : Oct d) : Anc a a := ⟨le_refl _, fun i => by simp⟩

theorem Anc.trans {a b c : Oct d} (h1 : Anc a b) (h2 : Anc b c) : Anc a c := by
  refine ⟨le_trans h1.1 h2.1, fun i => ?_⟩
  rw [← h1.2 i, ← h2.2 i, Nat.div_div_eq_div_mul, ← pow_add]
  congr 2
  have := h1.1; have := h2.1
  omega

theorem Anc.antisymm {a b : Oct d} (h1 : Anc a b) (h2 : Anc b a) : a = b := by
  have hl : a.level = b.level := le_antisymm h1.1 h2.1
  refine Oct.ext' hl (fun i => ?_)
  have := h1.2 i
  rw [hl] at this
  simpa using this.symm

/-- Two ancestors of the same octant are comparable. -/
theorem Anc.linear {a b c : Oct d} (h1 : Anc a c) (h2 : Anc b c) (h : a.level ≤ b.level) :
    Anc a b := by
  refine ⟨h, fun i => ?_⟩
  rw [← h1.2 i, ← h2.2 i, Nat.div_div_eq_div_mul, ← pow_add]
  congr 2
  have := h2.1
  omega

theorem Anc.eq_of_level {a b : Oct d} (h1 : Anc a b) (h : a.level = b.level) : a = b :=
  h1.antisymm ⟨h ▸ le_refl _, fun i => by
    have := h1.2 i
    rw [h] at this
    rw [h]; simpa using this.symm⟩

theorem Anc.valid {G : Grid d} {a b : Oct d} (h : Anc a b) (hb : Valid G b)
    (ha : G.lmin ≤ a.level) : Valid G a := by
  refine ⟨ha, fun i => ?_⟩
  have h1 := hb.2 i
  have h2 : b.level = a.level + (b.level - a.level) := by have := h.1; omega
  rw [h2, count_add G i _ ha] at h1
  rw [← h.2 i]
  exact Nat.div_lt_of_lt_mul (by rwa [Nat.mul_comm])

/-- The ancestor of `o` at a coarser level. -/
def up (o : Oct d) (l : ℕ) : Oct d := ⟨l, fun i => o.pos i / 2 ^ (o.level - l)⟩

theorem up_anc (o : Oct d) {l : ℕ} (h : l ≤ o.level) : Anc (up o l) o := ⟨h, fun _ => rfl⟩

/-- The boxes of descendants are nested. -/
theorem Anc.lo_le {G : Grid d} (hG : G.Pos) {a b : Oct d} (h : Anc a b) (ha : G.lmin ≤ a.level)
    (i : Fin d) : lo G a i ≤ lo G b i := by
  rw [lo_scale a i (b.level - a.level) ha]
  have h2 : a.level + (b.level - a.level) = b.level := by have := h.1; omega
  rw [h2]
  unfold lo
  have h0 : (0 : ℚ) < G.count i b.level := by exact_mod_cast count_pos hG i _
  rw [div_le_div_iff_of_pos_right h0, ← h.2 i]
  exact_mod_cast Nat.div_mul_le_self _ _

theorem Anc.hi_le {G : Grid d} (hG : G.Pos) {a b : Oct d} (h : Anc a b) (ha : G.lmin ≤ a.level)
    (i : Fin d) : hi G b i ≤ hi G a i := by
  rw [hi_scale a i (b.level - a.level) ha]
  have h2 : a.level + (b.level - a.level) = b.level := by have := h.1; omega
  rw [h2]
  unfold hi
  have h0 : (0 : ℚ) < G.count i b.level := by exact_mod_cast count_pos hG i _
  rw [div_le_div_iff_of_pos_right h0, ← h.2 i]
  have h3 : b.pos i + 1 ≤ (b.pos i / 2 ^ (b.level - a.level) + 1) * 2 ^ (b.level - a.level) := by
    rw [Nat.add_one_mul]
    have := Nat.div_add_mod (b.pos i) (2 ^ (b.level - a.level))
    have h4 := Nat.mod_lt (b.pos i) (y := 2 ^ (b.level - a.level)) (by positivity)
    rw [Nat.mul_comm] at this
    omega
  exact_mod_cast h3

theorem Anc.covers {G : Grid d} (hG : G.Pos) {a b : Oct d} (h : Anc a b) (ha : G.lmin ≤ a.level)
    {x : Fin d → ℚ} (hx : Covers G b x) : Covers G a x := fun i =>
  ⟨le_trans (h.lo_le hG ha i) (hx i).1, lt_of_lt_of_le (hx i).2 (h.hi_le hG ha i)⟩

theorem covers_lo {G : Grid d} (hG : G.Pos) (o : Oct d) : Covers G o (lo G o) := fun i =>
  ⟨le_refl _, lo_lt_hi hG o i⟩

/-- An octant that contains the lower corner of a finer one is its ancestor. -/
theorem anc_of_covers_lo {G : Grid d} (hG : G.Pos) {a b : Oct d} (ha : G.lmin ≤ a.level)
    (hl : a.level ≤ b.level) (hx : Covers G a (lo G b)) : Anc a b := by
  refine ⟨hl, fun i => ?_⟩
  have h0 : (0 : ℚ) < G.count i b.level := by exact_mod_cast count_pos hG i _
  have h2 : a.level + (b.level - a.level) = b.level := by omega
  obtain ⟨h3, h4⟩ := hx i
  rw [lo_scale a i (b.level - a.level) ha, h2] at h3
  rw [hi_scale a i (b.level - a.level) ha, h2] at h4
  unfold lo at h3 h4
  rw [div_le_div_iff_of_pos_right h0] at h3
  rw [div_lt_div_iff_of_pos_right h0] at h4
  have h5 : a.pos i * 2 ^ (b.level - a.level) ≤ b.pos i := by exact_mod_cast h3
  have h6 : b.pos i < (a.pos i + 1) * 2 ^ (b.level - a.level) := by exact_mod_cast h4
  rw [Nat.div_eq_iff (by positivity)]
  rw [Nat.add_one_mul] at h6
  constructor
  · exact h5
  · omega

/-- Octants whose boxes share a point are comparable. -/
theorem anc_of_covers {G : Grid d} (hG : G.Pos) {a b : Oct d} (ha : Valid G a)
    (hl : a.level ≤ b.level) {x : Fin d → ℚ} (hxa : Covers G a x) (hxb : Covers G b x) :
    Anc a b := by
  apply anc_of_covers_lo hG ha.1 hl
  intro i
  have h0 : (0 : ℚ) < G.count i b.level := by exact_mod_cast count_pos hG i _
  have h2 : a.level + (b.level - a.level) = b.level := by omega
  obtain ⟨h3, h4⟩ := hxa i
  obtain ⟨h5, h6⟩ := hxb i
  rw [lo_scale a i (b.level - a.level) ha.1, h2] at h3 ⊢
  rw [hi_scale a i (b.level - a.level) ha.1, h2] at h4 ⊢
  unfold lo at h5 ⊢
  unfold hi at h6
  have h7 := lt_of_le_of_lt h3 h6
  have h8 := lt_of_le_of_lt h5 h4
  rw [div_lt_div_iff_of_pos_right h0] at h7 h8
  have h9 : a.pos i * 2 ^ (b.level - a.level) < b.pos i + 1 := by exact_mod_cast h7
  rw [div_le_div_iff_of_pos_right h0, div_lt_div_iff_of_pos_right h0]
  exact ⟨by exact_mod_cast Nat.lt_succ_iff.1 h9, h8⟩

/-! ### Tilings -/

/-- Two comparable leaves of a tiling are equal. -/
theorem Tiling.eq_of_anc {G : Grid d} (hG : G.Pos) {M : Finset (Oct d)} (hM : Tiling G M)
    {a b : Oct d} (ha : a ∈ M) (hb : b ∈ M) (h : Anc a b) : a = b := by
  have hvb := hM.valid b hb
  obtain ⟨c, -, hu⟩ := hM.cover (lo G b) (fun i => ⟨lo_nonneg b i, lo_lt_one hG hvb i⟩)
  rw [hu a ⟨ha, h.covers hG (hM.valid a ha).1 (covers_lo hG b)⟩, hu b ⟨hb, covers_lo hG b⟩]

/-- Every valid octant is below or above some leaf, and the leaf can be chosen to contain the
lower corner. -/
theorem Tiling.exists_leaf {G : Grid d} (hG : G.Pos) {M : Finset (Oct d)} (hM : Tiling G M)
    {v : Oct d} (hv : Valid G v) : ∃ b ∈ M, Anc b v ∨ Anc v b := by
  obtain ⟨b, ⟨hb, hc⟩, -⟩ := hM.cover (lo G v) (fun i => ⟨lo_nonneg v i, lo_lt_one hG hv i⟩)
  refine ⟨b, hb, ?_⟩
  rcases le_total b.level v.level with h | h
  · exact Or.inl (anc_of_covers hG (hM.valid b hb) h hc (covers_lo hG v))
  · exact Or.inr (anc_of_covers hG hv h (covers_lo hG v) hc)

/-- A valid octant at least as fine as every leaf lies in a leaf. -/
theorem Tiling.exists_anc {G : Grid d} (hG : G.Pos) {M : Finset (Oct d)} (hM : Tiling G M)
    {v : Oct d} (hv : Valid G v) (hl : ∀ b ∈ M, b.level ≤ v.level) : ∃ b ∈ M, Anc b v := by
  obtain ⟨b, hb, h | h⟩ := hM.exists_leaf hG hv
  · exact ⟨b, hb, h⟩
  · have : v = b := h.eq_of_level (le_antisymm h.1 (hl b hb))
    exact ⟨b, hb, this ▸ Anc.refl _⟩

/-- Conversely, a set of valid octants such that every valid fine octant has exactly one ancestor
in it is a tiling. -/
theorem tiling_of_anc {G : Grid d} (hG : G.Pos) {M : Finset (Oct d)}
    (hv : ∀ o ∈ M, Valid G o) (L : ℕ) (hLmin : G.lmin ≤ L) (hL : ∀ o ∈ M, o.level ≤ L)
    (h : ∀ v, Valid G v → v.level = L → ∃! b, b ∈ M ∧ Anc b v) : Tiling G M := by
  refine ⟨hv, fun x hx => ?_⟩
  -- the fine cell that contains x
  let v : Oct d := ⟨L, fun i => ⌊x i * G.count i L⌋₊⟩
  have hvv : Valid G v := by
    refine ⟨hLmin, fun i => ?_⟩
    have h0 : (0 : ℚ) < G.count i L := by exact_mod_cast count_pos hG i _
    have h1 : x i * G.count i L < G.count i L := by nlinarith [(hx i).2]
    exact (Nat.floor_lt (mul_nonneg (hx i).1 h0.le)).2 h1
  have hvx : Covers G v x := by
    intro i
    have h0 : (0 : ℚ) < G.count i L := by exact_mod_cast count_pos hG i _
    have hn := mul_nonneg (hx i).1 h0.le
    unfold lo hi
    constructor
    · rw [div_le_iff₀ h0]; exact Nat.floor_le hn
    · rw [lt_div_iff₀ h0]; exact_mod_cast Nat.lt_floor_add_one _
  obtain ⟨b, ⟨hb, hba⟩, hu⟩ := h v hvv rfl
  refine ⟨b, ⟨hb, hba.covers hG (hv b hb).1 hvx⟩, ?_⟩
  rintro c ⟨hc, hcx⟩
  exact hu c ⟨hc, anc_of_covers hG (hv c hc) (hL c hc) hcx hvx⟩

end Verif.Octree
