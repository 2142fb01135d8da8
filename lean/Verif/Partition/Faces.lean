import Verif.Partition.Ghost
import Verif.Cells.Grid

/-!
# Face masks of ghosts

Which faces `discover_ghosts` puts in the mask of a ghost, and which cells are near these faces.
-/

namespace Verif.Partition

open Verif.Octree Verif.Adapt Verif.Cells

variable {d : ℕ} {G : Grid d}

/-- The octants `a` and `b` touch, and the cell `y` of `b` is separated from `a` by fewer than `n` of its own sizes in
every direction. -/
def Within (G : Grid d) (blk : Fin d → ℕ) (n : ℕ) (a b : Oct d) (y : Fin d → ℕ) : Prop :=
  ∀ i, ∃ s, Shift G i s ∧ lo G b i ≤ hi G a i + s ∧ lo G a i + s ≤ hi G b i ∧
    lo (cellGrid G blk) (cellOct blk b y) i < hi G a i + s + n * ((hi G b i - lo G b i) / blk i) ∧
    lo G a i + s < hi (cellGrid G blk) (cellOct blk b y) i + n * ((hi G b i - lo G b i) / blk i)

theorem faceOf_isSome {off : Fin d → SignType} (h : ¬ ∀ i, off i = 0) :
    ∃ j, off j ≠ 0 ∧ faceOf off = some (j, decide (off j = 1)) := by
  unfold faceOf
  cases hf : (List.finRange d).find? fun j => decide (off j ≠ 0) with
  | none =>
    exfalso
    apply h
    intro i
    have := List.find?_eq_none.1 hf i (List.mem_finRange i)
    simpa using this
  | some j =>
    have := List.find?_some hf
    exact ⟨j, by simpa using this, rfl⟩

/-- For a face direction it is this face. -/
theorem faceOf_single {off : Fin d → SignType} {j : Fin d} (hj : off j ≠ 0) (h0 : ∀ i, i ≠ j → off i = 0) :
    faceOf off = some (j, decide (off j = 1)) := by
  obtain ⟨k, h1, h2⟩ := faceOf_isSome (off := off) fun h => hj (h j)
  have : k = j := by
    by_contra hk
    exact h1 (h0 k hk)
  rw [h2, this]

/-- The faces of the mask with which `a` is sent to rank `s`. -/
theorem mem_faceMask (hG : G.WF) {M : Finset (Oct d)} (hM : Tiling G M)
    (hB : Balanced G M) {e L P : ℕ} (hde : d ≤ e) (hL : ∀ b ∈ M, b.level ≤ L) {I : ℕ → ℕ}
    (hc : Cuts e L M P I) {a : Oct d} (ha : a ∈ M) {r s : ℕ} (hs : s < P) (hrs : s ≠ r) (f : Face d) :
    f ∈ faceMask e L G I P r a s ↔
      ∃ off, (¬ ∀ i, off i = 0) ∧ faceOf off = some f ∧ ∃ b ∈ M, DirAdj G a off b ∧ Owns I s (okey e L b) := by
  unfold faceMask
  rw [if_neg hrs, List.mem_filterMap]
  constructor
  · rintro ⟨off, h1, h2⟩
    split at h2
    · next h3 =>
      obtain ⟨t, ht, e1, b, hb, h4, h5⟩ := (registerDir_iff hG hM hB hde hL hc ha off _).1 h3
      have : s = t := by exact_mod_cast e1
      exact ⟨off, (mem_directions _).1 h1, h2, b, hb, h4, this ▸ h5⟩
    · exact absurd h2 (by simp)
  · rintro ⟨off, h1, h2, b, hb, h3, h4⟩
    refine ⟨off, (mem_directions _).2 h1, ?_⟩
    rw [if_pos ((registerDir_iff hG hM hB hde hL hc ha off _).2 ⟨s, hs, rfl, b, hb, h3, h4⟩)]
    exact h2

/-- A cell within `n` layers of another leaf is within `n` layers of the face registered for one of the directions to
that leaf. -/
theorem within_face (hG : G.Pos) {M : Finset (Oct d)} (hM : Tiling G M) {blk : Fin d → ℕ} (hb : ∀ k, 0 < blk k)
    {a b : Oct d} (ha : a ∈ M) (hbM : b ∈ M) (hne : a ≠ b) {n : ℕ} {y : Fin d → ℕ} (h : Within G blk n a b y) :
    ∃ off, (¬ ∀ i, off i = 0) ∧ DirAdj G b off a ∧ ∃ f, faceOf off = some f ∧
      if f.2 = true then blk f.1 ≤ y f.1 + n else y f.1 < n := by
  choose s hs h1 h2 h3 h4 using h
  set off : Fin d → SignType := fun i =>
    if lo G a i + s i < hi G b i then if lo G b i < hi G a i + s i then SignType.zero else SignType.neg else SignType.pos
    with hoff
  have hadj : DirAdj G b off a := by
    intro i
    refine ⟨s i, hs i, ?_⟩
    have l1 := lo_lt_hi hG a i
    have l2 := lo_lt_hi hG b i
    have e1 := h1 i
    have e2 := h2 i
    simp only [hoff]
    split
    · next h5 =>
      split
      · next h6 => exact ⟨h5, h6⟩
      · next h6 => exact ⟨by linarith, by linarith⟩
    · next h5 => exact ⟨by linarith, by linarith⟩
  have hnz : ¬ ∀ i, off i = 0 := fun h0 => hne (eq_of_dirAdj_zero hG hM hbM ha h0 hadj).symm
  obtain ⟨j, hj, hf⟩ := faceOf_isSome hnz
  refine ⟨off, hnz, hadj, _, hf, ?_⟩
  have hpos : (0 : ℚ) < blk j := by exact_mod_cast hb j
  have l2 := lo_lt_hi hG b j
  have hh : 0 < (hi G b j - lo G b j) / blk j := div_pos (by linarith) hpos
  have hfull : (blk j : ℚ) * ((hi G b j - lo G b j) / blk j) = hi G b j - lo G b j := by field_simp
  have k3 := h3 j
  have k4 := h4 j
  rw [cell_lo hG hb] at k3
  rw [cell_hi hG hb] at k4
  set q := (hi G b j - lo G b j) / blk j with hq
  by_cases h5 : lo G a j + s j < hi G b j
  · by_cases h6 : lo G b j < hi G a j + s j
    · exact absurd (show off j = SignType.zero by simp only [hoff, if_pos h5, if_pos h6]) hj
    · have e : off j = SignType.neg := by simp only [hoff, if_pos h5, if_neg h6]
      simp only [e, show decide (SignType.neg = 1) = false by decide, Bool.false_eq_true, if_false]
      have : (y j : ℚ) * q < n * q := by linarith
      exact_mod_cast lt_of_mul_lt_mul_right this hh.le
  · have e : off j = SignType.pos := by simp only [hoff, if_neg h5]
    simp only [e, show decide (SignType.pos = 1) = true by decide, if_true]
    have : (blk j : ℚ) * q < (y j + 1 + n) * q := by linarith
    have : (blk j : ℚ) < y j + 1 + n := lt_of_mul_lt_mul_right this hh.le
    have : blk j < y j + 1 + n := by exact_mod_cast this
    omega

/-- A cell next to a cell of `a`, in any of the face, edge and corner directions, is within one layer of `a`. -/
theorem within_of_dirAdj (hG : G.Pos) {blk : Fin d → ℕ} (hb : ∀ k, 0 < blk k) {a b : Oct d} {x y : Fin d → ℕ}
    (hx : ∀ k, x k < blk k) (hy : ∀ k, y k < blk k)
    (h : Touch (cellGrid G blk) (cellOct blk a x) (cellOct blk b y)) :
    Within G blk 1 a b y := by
  intro i
  obtain ⟨s, hs, h1, h2⟩ := h i
  have hs' : Shift G i s := hs
  have hpos : (0 : ℚ) < blk i := by exact_mod_cast hb i
  have hh : 0 < (hi G b i - lo G b i) / blk i := div_pos (by linarith [lo_lt_hi hG b i]) hpos
  have a1 := cell_lo_ge hG hb a x i
  have a2 := cell_hi_le hG hb a x i (hx i)
  have b1 := cell_lo_ge hG hb b y i
  have b2 := cell_hi_le hG hb b y i (hy i)
  refine ⟨-s, hs'.neg, ?_, ?_, ?_, ?_⟩ <;> push_cast <;> linarith

end Verif.Partition
