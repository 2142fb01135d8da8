import Verif.Legacy.Cover
import Verif.Cells.Neighbor
import Verif.Octree.Neighbors

/-!
# The value fetched for a ghost cell
-/

namespace Verif.Legacy

open Verif.Octree Verif.Cells Verif.Legacy.Spec

variable {d : ℕ}

/-- Periodic directions are those whose two boundaries are. -/
def PeriodicOk (P : Par d) : Prop :=
  ∀ i, (P.bcMin i = .periodic ↔ P.G.periodic i = true) ∧
    (P.bcMax i = .periodic ↔ P.G.periodic i = true)

section geom

variable {P : Par d} {o : Oct d} {p : Fin d → ℤ}

theorem pos_split (hw : ∀ i, P.w ≤ P.b i)
    (hp : ∀ i, -(P.w : ℤ) ≤ p i ∧ p i < P.b i + P.w) (i : Fin d) :
    (0 ≤ inNeighborOf P p i ∧ inNeighborOf P p i < P.b i) ∧
      lattice P.b o p i = ((o.pos i : ℤ) + (neighborOf P p i : ℤ)) * P.b i + inNeighborOf P p i := by
  have h1 := hw i
  have h2 := hp i
  unfold lattice neighborOf inNeighborOf
  split_ifs
  · refine ⟨by omega, ?_⟩
    have : ((-1 : SignType) : ℤ) = -1 := rfl
    rw [this]; ring
  · refine ⟨by omega, ?_⟩
    have : ((1 : SignType) : ℤ) = 1 := rfl
    rw [this]; ring
  · refine ⟨by omega, ?_⟩
    have : ((0 : SignType) : ℤ) = 0 := rfl
    rw [this]; ring

theorem inDomain_iff' (hw : ∀ i, P.w ≤ P.b i) (hb : ∀ i, 0 < P.b i)
    (hp : ∀ i, -(P.w : ℤ) ≤ p i ∧ p i < P.b i + P.w) :
    InDomain (cellGrid P.G P.b) o.level (lattice P.b o p) ↔
      ∀ i, InDom P.G o (neighborOf P p) i := by
  unfold InDomain InDom
  refine forall_congr' fun k => ?_
  have hb' : (0 : ℤ) < P.b k := by exact_mod_cast hb k
  obtain ⟨⟨h0, h1⟩, e⟩ := pos_split (o := o) hw hp k
  rw [e, count_cell]
  generalize inNeighborOf P p k = m at *
  generalize (o.pos k : ℤ) + (neighborOf P p k : ℤ) = q at *
  refine or_congr Iff.rfl (and_congr ?_ ?_)
  · constructor
    · intro h
      by_contra hq
      have : q * P.b k ≤ -1 * P.b k := Int.mul_le_mul_of_nonneg_right (by omega) hb'.le
      omega
    · intro h
      have : 0 ≤ q * P.b k := Int.mul_nonneg h hb'.le
      omega
  · push_cast
    constructor
    · intro h
      by_contra hq
      have : (P.G.count k o.level : ℤ) * P.b k ≤ q * P.b k :=
        Int.mul_le_mul_of_nonneg_right (by omega) hb'.le
      omega
    · intro h
      have : (q + 1) * P.b k ≤ (P.G.count k o.level : ℤ) * P.b k :=
        Int.mul_le_mul_of_nonneg_right (by omega) hb'.le
      rw [Int.add_mul] at this
      omega

/-- Lattice position of the ghost cell in the domain. -/
def wrapped (P : Par d) (o : Oct d) (p : Fin d → ℤ) (i : Fin d) : ℕ :=
  neighborPos P.G o (neighborOf P p) i * P.b i + (inNeighborOf P p i).toNat

theorem wrapped_wraps (hG : P.G.Pos) (ho : Valid P.G o) (hw : ∀ i, P.w ≤ P.b i)
    (hb : ∀ i, 0 < P.b i) (hp : ∀ i, -(P.w : ℤ) ≤ p i ∧ p i < P.b i + P.w)
    (hin : InDomain (cellGrid P.G P.b) o.level (lattice P.b o p)) :
    Wraps (cellGrid P.G P.b) o.level (lattice P.b o p) (wrapped P o p) := by
  have hin' := (inDomain_iff' hw hb hp).1 hin
  intro k
  obtain ⟨⟨h0, h1⟩, e'⟩ := pos_split (o := o) hw hp k
  obtain ⟨t, ht, e⟩ := neighborPos_wraps ho _ k (hin' k)
  have hlt := neighborPos_lt hG o (neighborOf P p) k
  rw [e', count_cell]
  unfold wrapped
  generalize inNeighborOf P p k = m at *
  generalize neighborPos P.G o (neighborOf P p) k = q at *
  constructor
  · have : (q + 1) * P.b k ≤ P.G.count k o.level * P.b k := Nat.mul_le_mul_right _ hlt
    rw [Nat.add_mul] at this
    omega
  · refine ⟨t, ht, ?_⟩
    rw [← e]
    push_cast
    rw [Int.toNat_of_nonneg h0]
    ring

/-- Centre of a cell in terms of its lattice position. -/
theorem cellPos_eq (hG : P.G.Pos) (hb : ∀ i, 0 < P.b i) (i : Fin d) :
    cellPos P o p i = ((lattice P.b o p i : ℤ) + 1 / 2 : ℚ) / ((cellGrid P.G P.b).count i o.level : ℕ) := by
  have hN : (0 : ℚ) < P.G.count i o.level := by exact_mod_cast count_pos hG i _
  have hB : (0 : ℚ) < P.b i := by exact_mod_cast hb i
  rw [count_cell]
  unfold cellPos lattice getCorner getSize
  rw [cellCount_eq]
  push_cast
  field_simp

theorem cell_count_pos (hG : P.G.Pos) (hb : ∀ i, 0 < P.b i) (i : Fin d) (l : ℕ) :
    0 < (cellGrid P.G P.b).count i l := by
  rw [count_cell]
  exact Nat.mul_pos (count_pos hG i l) (hb i)

theorem half_lt_zero {X : ℤ} {N : ℕ} (hN : 0 < N) : (X + 1 / 2 : ℚ) / N < 0 ↔ X < 0 := by
  have hN' : (0 : ℚ) < N := by exact_mod_cast hN
  rw [div_lt_iff₀ hN', zero_mul]
  constructor
  · intro h
    have : (X : ℚ) < 0 := by linarith
    exact_mod_cast this
  · intro h
    have : X ≤ -1 := by omega
    have : (X : ℚ) ≤ -1 := by exact_mod_cast this
    linarith

theorem one_lt_half {X : ℤ} {N : ℕ} (hN : 0 < N) : 1 < (X + 1 / 2 : ℚ) / N ↔ (N : ℤ) ≤ X := by
  have hN' : (0 : ℚ) < N := by exact_mod_cast hN
  rw [lt_div_iff₀ hN', one_mul]
  constructor
  · intro h
    by_contra hc
    have : X + 1 ≤ (N : ℤ) := by omega
    have : (X : ℚ) + 1 ≤ N := by exact_mod_cast this
    linarith
  · intro h
    have : (N : ℚ) ≤ X := by exact_mod_cast h
    linarith

/-- The shift brings the centre of a ghost cell to its image in the domain. -/
theorem shift_eq (hG : P.G.Pos) (hb : ∀ i, 0 < P.b i) (hper : PeriodicOk P)
    {W : Fin d → ℕ} (h : Wraps (cellGrid P.G P.b) o.level (lattice P.b o p) W) (i : Fin d) :
    shiftPeriodic P (cellPos P o p) i =
      ((W i : ℤ) + 1 / 2 : ℚ) / ((cellGrid P.G P.b).count i o.level : ℕ) := by
  obtain ⟨hlt, t, ht, e⟩ := h i
  obtain ⟨p1, p2⟩ := hper i
  have hN := cell_count_pos hG hb i o.level
  unfold shiftPeriodic
  rw [cellPos_eq hG hb i, ← e]
  have ht' : t = 0 ∨ P.G.periodic i = true ∧ (t = 1 ∨ t = -1) := ht
  generalize (cellGrid P.G P.b).count i o.level = N at *
  have hN' : (0 : ℚ) < N := by exact_mod_cast hN
  simp only [half_lt_zero hN]
  rcases ht' with rfl | ⟨hp, rfl | rfl⟩
  · have h1 : ¬ (P.bcMin i = .periodic ∧ (W i : ℤ) + 0 * N < 0) := by intro h; omega
    have h2 : ¬ (P.bcMax i = .periodic ∧ (N : ℤ) ≤ (W i : ℤ) + 0 * N) := by intro h; omega
    simp only [if_neg h1, one_lt_half hN, if_neg h2]
    simp
  · have h1 : ¬ (P.bcMin i = .periodic ∧ (W i : ℤ) + 1 * N < 0) := by intro h; omega
    have h2 : P.bcMax i = .periodic ∧ (N : ℤ) ≤ (W i : ℤ) + 1 * N := ⟨p2.2 hp, by omega⟩
    simp only [if_neg h1, one_lt_half hN, if_pos h2]
    push_cast
    field_simp
    ring
  · have h1 : P.bcMin i = .periodic ∧ (W i : ℤ) + -1 * N < 0 := ⟨p1.2 hp, by omega⟩
    have h2 : ¬ (P.bcMax i = .periodic ∧ (N : ℤ) ≤ (W i : ℤ)) := by intro h; omega
    have e2 : (((W i : ℤ) + -1 * (N : ℤ) : ℤ) + 1 / 2 : ℚ) / N + 1 = ((W i : ℤ) + 1 / 2 : ℚ) / N := by
      push_cast
      field_simp
      ring
    simp only [if_pos h1, e2, one_lt_half hN, if_neg h2]

theorem shift_inside (hG : P.G.Pos) (hb : ∀ i, 0 < P.b i) (hper : PeriodicOk P)
    {W : Fin d → ℕ} (h : Wraps (cellGrid P.G P.b) o.level (lattice P.b o p) W) :
    ¬ ∃ i, shiftPeriodic P (cellPos P o p) i < 0 ∨ 1 < shiftPeriodic P (cellPos P o p) i := by
  rintro ⟨i, hi⟩
  have hN := cell_count_pos hG hb i o.level
  rw [shift_eq hG hb hper h i, half_lt_zero hN, one_lt_half hN] at hi
  have := (h i).1
  omega

theorem shift_outside (hG : P.G.Pos) (hb : ∀ i, 0 < P.b i) (hper : PeriodicOk P)
    (h : ¬ InDomain (cellGrid P.G P.b) o.level (lattice P.b o p)) :
    ∃ i, shiftPeriodic P (cellPos P o p) i < 0 ∨ 1 < shiftPeriodic P (cellPos P o p) i := by
  unfold InDomain at h
  push Not at h
  obtain ⟨i, hp, hi⟩ := h
  obtain ⟨p1, p2⟩ := hper i
  have hp' : ¬ P.G.periodic i = true := hp
  have hN := cell_count_pos hG hb i o.level
  refine ⟨i, ?_⟩
  unfold shiftPeriodic
  simp only
  rw [if_neg (fun h => hp' (p2.1 h.1)), if_neg (fun h => hp' (p1.1 h.1)), cellPos_eq hG hb i,
    half_lt_zero hN, one_lt_half hN]
  by_cases h0 : lattice P.b o p i < 0
  · exact Or.inl h0
  · exact Or.inr (hi (by omega))

end geom

/-! ### The three kinds of neighbours -/

theorem isMean_single {b : Fin d → ℕ} {M : Finset (Oct d)} {f : Oct d → (Fin d → ℕ) → ℝ} {l : ℕ}
    {W : Fin d → ℕ} {n : Oct d} {x : Fin d → ℕ} (hn : n ∈ M) (hx : ∀ i, x i < b i)
    (h : ∀ s : Fin d → Fin 2, Anc (cellOct b n x) ⟨l + 1, fun i => 2 * W i + s i⟩) :
    IsMean b M f l W (f n x) := by
  refine ⟨fun _ => (n, x), fun s => ⟨hn, hx, h s⟩, ?_⟩
  simp

theorem mapM_loops {α : Type} {l : List (Fin d → Fin 2)} {g : (Fin d → Fin 2) → Option α}
    {v : (Fin d → Fin 2) → α} (h : ∀ s, g s = some (v s)) : l.mapM g = some (l.map v) := by
  induction l with
  | nil => rfl
  | cons a l ih => rw [List.mapM_cons, h a, ih]; rfl

theorem sum_loops (v : (Fin d → Fin 2) → ℝ) :
    ((loops fun _ : Fin d => [(0 : Fin 2), 1]).map v).sum = ∑ s, v s := by
  have h : (loops fun _ : Fin d => [(0 : Fin 2), 1]).toFinset = Finset.univ := by
    ext s
    simp only [List.mem_toFinset, mem_loops, Finset.mem_univ, iff_true]
    intro i
    generalize s i = a
    revert a
    decide
  rw [← h, List.sum_toFinset _ (nodup_loops _ fun _ => by decide)]

section fetch

variable {P : Par d} {M : Finset (Oct d)} {o : Oct d} {p : Fin d → ℤ}

/-- In a larger neighbour the comparison of centres selects the half of the block. -/
theorem larger_pos (hG : P.G.Pos) (hb : ∀ i, 0 < P.b i)
    {q : Fin d → ℕ} {m : Fin d → ℤ} (hm : ∀ i, 0 ≤ m i ∧ m i < P.b i) (hl : P.G.lmin < o.level)
    {cp : Fin d → ℚ}
    (hcp : ∀ i, cp i = ((q i * P.b i + (m i).toNat : ℕ) + 1 / 2 : ℚ) /
      ((cellGrid P.G P.b).count i o.level : ℕ)) (i : Fin d) :
    m i / 2 + (if getCenter P.G ⟨o.level - 1, fun i => q i >>> 1⟩ i < cp i
      then ((P.b i / 2 : ℕ) : ℤ) else 0) = m i / 2 + (q i % 2 : ℕ) * (P.b i / 2 : ℕ) := by
  congr 1
  have hN : 0 < P.G.count i (o.level - 1) := count_pos hG i _
  have hN' : (0 : ℚ) < P.G.count i (o.level - 1) := by exact_mod_cast hN
  have hB : (0 : ℚ) < P.b i := by exact_mod_cast hb i
  have hc : P.G.count i o.level = P.G.count i (o.level - 1) * 2 := by
    have := count_add P.G i 1 (n := o.level - 1) (by omega)
    rw [show o.level - 1 + 1 = o.level by omega] at this
    rw [this, pow_one]
  obtain ⟨m', hm'⟩ : ∃ m' : ℕ, m i = m' := ⟨(m i).toNat, by have := hm i; omega⟩
  have hmb : m' < P.b i := by have := hm i; omega
  have key : getCenter P.G ⟨o.level - 1, fun i => q i >>> 1⟩ i < cp i ↔ q i % 2 = 1 := by
    rw [hcp i, hm', Int.toNat_natCast, count_cell, hc]
    unfold getCenter getSize
    simp only
    rw [cellCount_eq, Nat.shiftRight_eq_div_pow, pow_one]
    have e1 : (((q i / 2 : ℕ) : ℚ) + 1 / 2) * (1 / (P.G.count i (o.level - 1) : ℚ)) =
        ((2 * ((2 * (q i / 2) + 1) * P.b i) : ℕ) : ℚ) / (4 * P.G.count i (o.level - 1) * P.b i) := by
      push_cast; field_simp; ring
    have e2 : (((q i * P.b i + m' : ℕ) : ℚ) + 1 / 2) /
        ((P.G.count i (o.level - 1) * 2 * P.b i : ℕ) : ℚ) =
        ((2 * (q i * P.b i + m') + 1 : ℕ) : ℚ) / (4 * P.G.count i (o.level - 1) * P.b i) := by
      push_cast; field_simp; ring
    rw [e1, e2, div_lt_div_iff_of_pos_right (by positivity), Nat.cast_lt]
    rcases Nat.mod_two_eq_zero_or_one (q i) with h | h
    · have : 2 * (q i / 2) + 1 = q i + 1 := by omega
      rw [this, Nat.add_mul]
      omega
    · have : 2 * (q i / 2) + 1 = q i := by omega
      rw [this]
      omega
  rcases Nat.mod_two_eq_zero_or_one (q i) with h | h
  · rw [if_neg (by rw [key]; omega), h]; simp
  · rw [if_pos (key.2 h), h]; simp

theorem larger_half {b q : ℕ} {m : ℤ} (hev : 2 ∣ b) (hm : 0 ≤ m ∧ m < b) :
    (0 ≤ m / 2 + (q % 2 : ℕ) * (b / 2 : ℕ) ∧ m / 2 + (q % 2 : ℕ) * (b / 2 : ℕ) < b) ∧
      q / 2 * b + (m / 2 + (q % 2 : ℕ) * (b / 2 : ℕ)).toNat = (q * b + m.toNat) / 2 := by
  obtain ⟨h, rfl⟩ := hev
  obtain ⟨m', rfl⟩ : ∃ m' : ℕ, m = m' := ⟨m.toNat, by omega⟩
  have e : q * (2 * h) = 2 * (q / 2 * (2 * h) + (q % 2) * h) := by
    conv_lhs => rw [← Nat.div_add_mod q 2]
    ring
  rw [e]
  have e3 : (2 * h) / 2 = h := by omega
  rw [e3]
  have e2 : ((q % 2 : ℕ) : ℤ) * (h : ℤ) = ((q % 2 * h : ℕ) : ℤ) := by push_cast; rfl
  rw [e2]
  generalize q / 2 * (2 * h) = A
  have : q % 2 * h ≤ h := by
    calc q % 2 * h ≤ 1 * h := Nat.mul_le_mul_right _ (by omega)
      _ = h := by omega
  generalize q % 2 * h = C at *
  omega

/-- The smaller neighbours that contain the centre. -/
theorem findSub_cond (hG : P.G.Pos) (hev : ∀ i, 2 ∣ P.b i) (hb : ∀ i, 0 < P.b i) {W : Fin d → ℕ}
    (hl : P.G.lmin ≤ o.level) {cp : Fin d → ℚ}
    (hcp : ∀ i, cp i = ((W i : ℕ) + 1 / 2 : ℚ) / ((cellGrid P.G P.b).count i o.level : ℕ))
    {n : Oct d} (hn : n.level = o.level + 1) (i : Fin d) :
    (getCorner P.G n i < cp i ∧ cp i < getCorner P.G n i + getSize P.G n i) ↔
      n.pos i = 2 * W i / P.b i := by
  have hN : 0 < P.G.count i o.level := count_pos hG i _
  have hN' : (0 : ℚ) < P.G.count i o.level := by exact_mod_cast hN
  have hB : (0 : ℚ) < P.b i := by exact_mod_cast hb i
  rw [hcp i, count_cell]
  unfold getCorner getSize
  rw [cellCount_eq, hn, count_add P.G i 1 hl, pow_one]
  have e0 : ((W i : ℚ) + 1 / 2) / ((P.G.count i o.level * P.b i : ℕ) : ℚ) =
      ((2 * W i + 1 : ℕ) : ℚ) / (2 * P.G.count i o.level * P.b i) := by
    push_cast; field_simp
  have e1 : (n.pos i : ℚ) * (1 / ((P.G.count i o.level * 2 : ℕ) : ℚ)) =
      ((n.pos i * P.b i : ℕ) : ℚ) / (2 * P.G.count i o.level * P.b i) := by
    push_cast; field_simp
  have e2 : (n.pos i : ℚ) * (1 / ((P.G.count i o.level * 2 : ℕ) : ℚ)) +
      1 / ((P.G.count i o.level * 2 : ℕ) : ℚ) =
      (((n.pos i + 1) * P.b i : ℕ) : ℚ) / (2 * P.G.count i o.level * P.b i) := by
    push_cast; field_simp
  rw [e2, e1, e0, div_lt_div_iff_of_pos_right (by positivity),
    div_lt_div_iff_of_pos_right (by positivity), Nat.cast_lt, Nat.cast_lt]
  obtain ⟨h, hh⟩ := hev i
  rw [eq_comm (a := n.pos i), Nat.div_eq_iff (hb i)]
  have e3 : n.pos i * P.b i = 2 * (n.pos i * h) := by rw [hh]; ring
  rw [Nat.add_mul, one_mul, e3, hh]
  have := hb i
  omega

/-- A ghost cell in the domain gets the mean of the mesh over it. -/
theorem getCellData_inside (hG : P.G.Pos) (hM : Tiling P.G M) (hB : Balanced P.G M) (ho : o ∈ M)
    (hb : ∀ i, 0 < P.b i) (hev : ∀ i, 2 ∣ P.b i) (hw : ∀ i, P.w ≤ P.b i)
    (hsm : ∀ n ∈ M, Touch P.G o n → o.level < n.level → ∀ i, 2 * P.w ≤ P.b i)
    (hper : PeriodicOk P) (U : Mesh d) (hp : IsGhost P.b P.w p)
    (hin : InDomain (cellGrid P.G P.b) o.level (lattice P.b o p)) :
    ∃ V, getCellData P M U o ⟨p, neighborOf P p, inNeighborOf P p⟩ = some V ∧
      ∀ v, IsMean P.b M (fun o x => U o x v) o.level (wrapped P o p) (V v) := by
  have hv := hM.valid _ ho
  have hwr := wrapped_wraps hG hv hw hb hp.1 hin
  have hin' := (inDomain_iff' hw hb hp.1).1 hin
  have hbd : ∀ i, 0 ≤ inNeighborOf P p i ∧ inNeighborOf P p i < P.b i := fun i =>
    (pos_split (o := o) hw hp.1 i).1
  have hcp := shift_eq hG hb hper hwr
  unfold getCellData
  simp only
  rw [if_neg (shift_inside hG hb hper hwr)]
  generalize shiftPeriodic P (cellPos P o p) = cp at *
  have hs0 : ¬ ∀ i, neighborOf P p i = 0 := by
    intro h
    obtain ⟨i, hi⟩ := hp.2
    have := h i
    unfold neighborOf at this
    split_ifs at this <;> first | omega | exact absurd this (by decide)
  have hbnd : isBoundary P.G o (neighborOf P p) = false := (isBoundary_iff hG _ _).2 hin'
  obtain ⟨ns, hns, -, hmem⟩ := findNeighbors_spec hG hM hB ho (neighborOf P p) hs0
  have hns' := hns
  unfold findNeighbors at hns'
  rw [if_neg hs0, hbnd] at hns'
  simp only [Bool.false_eq_true, if_false] at hns'
  have hW : ∀ i, wrapped P o p i = neighborPos P.G o (neighborOf P p) i * P.b i +
      (inNeighborOf P p i).toNat := fun _ => rfl
  have hlay : ∀ i, (neighborOf P p i = 1 → 2 * P.w ≤ P.b i → 2 * inNeighborOf P p i < P.b i) ∧
      (neighborOf P p i = -1 → 2 * P.w ≤ P.b i → P.b i ≤ 2 * inNeighborOf P p i) := by
    intro i
    have := hp.1 i
    unfold neighborOf inNeighborOf
    split_ifs
    · exact ⟨fun h => absurd h (by decide), fun _ _ => by omega⟩
    · exact ⟨fun _ _ => by omega, fun h => absurd h (by decide)⟩
    · exact ⟨fun h => absurd h (by decide), fun h => absurd h (by decide)⟩
  generalize hq : neighborPos P.G o (neighborOf P p) = q at *
  generalize hm : inNeighborOf P p = m at *
  generalize wrapped P o p = W at *
  split_ifs at hns' with c1 c2 c3
  · -- same size
    obtain rfl := Option.some.inj hns'
    rw [hns]
    simp only [if_true]
    refine ⟨U ⟨o.level, q⟩ fun i => (m i).toNat, ?_, fun v => ?_⟩
    · unfold fetchSame
      rw [inBlock_eq_some hbd]; rfl
    · refine isMean_single (f := fun o x => U o x v) c1 (fun i => by have := hbd i; omega) fun s => ?_
      refine ⟨by simp [cellOct], fun i => ?_⟩
      simp only [cellOct]
      have := (s i).is_lt
      rw [← hW i, show o.level + 1 - o.level = 1 by omega, pow_one]
      omega
  · -- larger
    obtain rfl := Option.some.inj hns'
    rw [hns]
    have hl0 : P.G.lmin < o.level := by
      have := (hM.valid _ c2.2).1
      simp only at this
      omega
    simp only
    rw [if_neg (by omega), if_neg (by omega)]
    have hpos : ∀ i, m i / 2 + (if getCenter P.G ⟨o.level - 1, fun i => q i >>> 1⟩ i < cp i
        then ((P.b i / 2 : ℕ) : ℤ) else 0) = m i / 2 + (q i % 2 : ℕ) * (P.b i / 2 : ℕ) :=
      larger_pos hG hb hbd hl0 fun i => by rw [hcp i, hW i]; push_cast; rfl
    have hh := fun i => larger_half (q := q i) (hev i) (hbd i)
    refine ⟨U ⟨o.level - 1, fun i => q i >>> 1⟩ fun i =>
      (m i / 2 + (q i % 2 : ℕ) * (P.b i / 2 : ℕ)).toNat, ?_, fun v => ?_⟩
    · unfold fetchLarger fetchSame
      rw [funext hpos, inBlock_eq_some fun i => (hh i).1]
      rfl
    · refine isMean_single (f := fun o x => U o x v) c2.2
        (fun i => by have := (hh i).1; omega) fun s => ?_
      refine ⟨by simp only [cellOct]; omega, fun i => ?_⟩
      simp only [cellOct]
      have := (s i).is_lt
      rw [Nat.shiftRight_eq_div_pow, pow_one, (hh i).2, ← hW i,
        show o.level + 1 - (o.level - 1) = 2 by omega]
      omega
  · -- smaller
    obtain rfl := Option.some.inj hns'
    rw [hns]
    have hlev : ∀ n ∈ finerNeighbors o.level q (neighborOf P p), n.level = o.level + 1 :=
      fun n hn => ((finer_mem_iff _ _ _ n).1 hn).1
    have hne : ∃ n, n ∈ finerNeighbors o.level q (neighborOf P p) := by
      refine ⟨⟨o.level + 1, fun i => q i * 2 + (if neighborOf P p i = -1 then 1 else 0)⟩, ?_⟩
      rw [finer_mem_iff]
      refine ⟨rfl, fun i => ?_⟩
      unfold Layer
      simp only
      have hs : neighborOf P p i = 0 ∨ neighborOf P p i = 1 ∨ neighborOf P p i = -1 := by
        rcases neighborOf P p i with _ | _ | _ <;> decide
      rcases hs with es | es | es <;> rw [es] <;> simp
    obtain ⟨n0, hn0⟩ := hne
    have h2w : ∀ i, 2 * P.w ≤ P.b i :=
      hsm n0 (c3 n0 hn0) (DirAdj.touch hG ((hmem n0).1 hn0).2) (by rw [hlev n0 hn0]; omega)
    -- half of the block of the same size in which the cell is
    have hsub : ∃ sub : Fin d → ℕ, ∀ i, (sub i = 0 ∧ 2 * m i < P.b i ∨
        sub i = 1 ∧ (P.b i : ℤ) ≤ 2 * m i) ∧ 2 * W i / P.b i = q i * 2 + sub i := by
      refine ⟨fun i => if (P.b i : ℤ) ≤ 2 * m i then 1 else 0, fun i => ?_⟩
      beta_reduce
      have hmi := hbd i
      have hbi := hb i
      obtain ⟨m', hm'⟩ : ∃ m' : ℕ, m i = m' := ⟨(m i).toNat, by omega⟩
      constructor
      · by_cases h : (P.b i : ℤ) ≤ 2 * m i
        · right; simp [h]
        · left; exact ⟨if_neg h, by omega⟩
      · rw [hW i, hm', Int.toNat_natCast, Nat.div_eq_iff hbi]
        by_cases h : (P.b i : ℤ) ≤ 2 * m'
        · rw [if_pos h]
          have : (q i * 2 + 1) * P.b i = 2 * (q i * P.b i) + P.b i := by ring
          rw [this]
          omega
        · rw [if_neg h]
          have : (q i * 2 + 0) * P.b i = 2 * (q i * P.b i) := by ring
          rw [this]
          omega
    obtain ⟨sub, hsub⟩ := hsub
    have hstar : (⟨o.level + 1, fun i => q i * 2 + sub i⟩ : Oct d) ∈
        finerNeighbors o.level q (neighborOf P p) := by
      rw [finer_mem_iff]
      refine ⟨rfl, fun i => ?_⟩
      obtain ⟨l1, l2⟩ := hlay i
      have h2i := h2w i
      have hsi := (hsub i).1
      unfold Layer
      simp only
      refine ⟨by omega, by omega, fun h => ?_, fun h => ?_⟩
      · have := l1 h h2i; omega
      · have := l2 h h2i; omega
    have hfind : findSub P (finerNeighbors o.level q (neighborOf P p)) cp =
        some ⟨o.level + 1, fun i => q i * 2 + sub i⟩ := by
      have hP : ∀ n ∈ finerNeighbors o.level q (neighborOf P p),
          (∀ i, getCorner P.G n i < cp i ∧ cp i < getCorner P.G n i + getSize P.G n i) ↔
            n = ⟨o.level + 1, fun i => q i * 2 + sub i⟩ := by
        intro n hn
        have hc := fun i => findSub_cond (cp := cp) (W := W) hG hev hb hv.1
          (fun i => by rw [hcp i]; push_cast; rfl) (hlev n hn) i
        constructor
        · intro h
          refine Oct.ext' (hlev n hn) fun i => ?_
          rw [(hc i).1 (h i), (hsub i).2]
        · intro h i
          rw [hc i, h, (hsub i).2]
      unfold findSub
      rcases hr : (finerNeighbors o.level q (neighborOf P p)).find? (fun n => decide (∀ i,
        getCorner P.G n i < cp i ∧ cp i < getCorner P.G n i + getSize P.G n i)) with _ | n
      · have := List.find?_eq_none.1 hr _ hstar
        rw [decide_eq_true_iff, hP _ hstar] at this
        exact absurd rfl this
      · have h1 := List.mem_of_find?_eq_some hr
        have h2 := List.find?_some hr
        rw [decide_eq_true_iff, hP _ h1] at h2
        rw [h2]
    have hcase : ∃ n ns', finerNeighbors o.level q (neighborOf P p) = n :: ns' := by
      rcases hf : finerNeighbors o.level q (neighborOf P p) with _ | ⟨n, ns'⟩
      · rw [hf] at hn0; simp at hn0
      · exact ⟨n, ns', rfl⟩
    obtain ⟨n, ns', hf⟩ := hcase
    have hn : n.level = o.level + 1 := hlev n (by rw [hf]; simp)
    rw [hf] at hfind
    rw [hf]
    simp only
    rw [if_neg (by omega), if_pos (by omega)]
    unfold fetchSmaller
    rw [hfind]
    simp only [Option.bind_some]
    have hsp : ∀ (s : Fin d → Fin 2) i, subPos P m (fun i => ((s i : ℕ) : ℤ)) i =
        2 * m i + (s i : ℕ) - P.b i * sub i := by
      intro s i
      unfold subPos
      simp only
      have h1 := (hsub i).1
      have h2 := (s i).is_lt
      obtain ⟨h, hh⟩ := hev i
      rcases h1 with ⟨e, h1⟩ | ⟨e, h1⟩
      · rw [e, if_neg (by omega)]; push_cast; omega
      · rw [e, if_pos (by omega)]; push_cast; omega
    have hspb : ∀ (s : Fin d → Fin 2) i, 0 ≤ subPos P m (fun i => ((s i : ℕ) : ℤ)) i ∧
        subPos P m (fun i => ((s i : ℕ) : ℤ)) i < P.b i := by
      intro s i
      rw [hsp s i]
      have h1 := (hsub i).1
      have h2 := (s i).is_lt
      have h3 := hbd i
      obtain ⟨h, hh⟩ := hev i
      rcases h1 with ⟨e, h1⟩ | ⟨e, h1⟩
      · rw [e]; push_cast; omega
      · rw [e]; push_cast; omega
    have hfs : ∀ s : Fin d → Fin 2, fetchSame P U ⟨o.level + 1, fun i => q i * 2 + sub i⟩
        (subPos P m fun i => ((s i : ℕ) : ℤ)) = some (U ⟨o.level + 1, fun i => q i * 2 + sub i⟩
        fun i => (subPos P m (fun i => ((s i : ℕ) : ℤ)) i).toNat) := by
      intro s
      unfold fetchSame
      rw [inBlock_eq_some (hspb s)]
      rfl
    rw [mapM_loops hfs]
    refine ⟨_, rfl, fun v => ?_⟩
    refine ⟨fun s => (⟨o.level + 1, fun i => q i * 2 + sub i⟩,
      fun i => (subPos P m (fun i => ((s i : ℕ) : ℤ)) i).toNat), fun s => ⟨c3 _ hstar, fun i => ?_, ?_⟩, ?_⟩
    · have := hspb s i; simp only; omega
    · refine ⟨le_rfl, fun i => ?_⟩
      simp only [cellOct, Nat.sub_self, pow_zero, Nat.div_one]
      rw [hsp s i, hW i]
      have h1 := (hsub i).1
      have h3 := hbd i
      obtain ⟨m', hm'⟩ : ∃ m' : ℕ, m i = m' := ⟨(m i).toNat, by omega⟩
      rw [hm'] at h1 ⊢
      rcases h1 with ⟨e, h1⟩ | ⟨e, h1⟩
      · rw [e]
        have : (q i * 2 + 0) * P.b i = 2 * (q i * P.b i) := by ring
        rw [this]; push_cast; omega
      · rw [e]
        have : (q i * 2 + 1) * P.b i = 2 * (q i * P.b i) + P.b i := by ring
        rw [this]; push_cast; omega
    · simp only
      rw [List.map_map, ← sum_loops]
      rfl

/-- A ghost cell outside the domain gets a fixed value. -/
theorem getCellData_outside (hG : P.G.Pos) (hb : ∀ i, 0 < P.b i) (hper : PeriodicOk P) (U : Mesh d)
    (hin : ¬ InDomain (cellGrid P.G P.b) o.level (lattice P.b o p)) :
    getCellData P M U o ⟨p, neighborOf P p, inNeighborOf P p⟩ = some outside := by
  unfold getCellData
  simp only
  rw [if_pos (shift_outside hG hb hper hin)]

end fetch

end Verif.Legacy
