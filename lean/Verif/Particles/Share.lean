import Verif.Particles.Mass

/-!
# C112: cloud in cell, cell by cell

Where no cell around a particle is smaller than its cell, the density of every cell grows by the mass in the part of the
cloud that lies in the cell.
-/

namespace Verif.Particles

open Verif.Octree Verif.Cells Verif.Flux Verif.Hydro

variable {d : ℕ}

/-! ### Specification -/

/-- Length of the part of cell `y` of octant `o` that is covered by an interval of width `h` around `x` and its periodic
images. -/
def covered (D : Domain d) (G : Grid d) (b : Fin d → ℕ) (o : Oct d) (y : Fin d → ℕ) (h x : Fin d → ℚ) (k : Fin d) : ℚ :=
  ∑ s ∈ ({-1, 0, 1} : Finset ℤ), max 0
    (min (x k + h k / 2 + s * (D.xmax k - D.xmin k)) (D.xmin k + hi (cellGrid G b) (cellOct b o y) k * (D.xmax k - D.xmin k)) -
      max (x k - h k / 2 + s * (D.xmax k - D.xmin k)) (D.xmin k + lo (cellGrid G b) (cellOct b o y) k * (D.xmax k - D.xmin k)))

/-- No cell around the cell of `x` is smaller than this cell. -/
def NoSmallerAround (D : Domain d) (G : Grid d) (M : Finset (Oct d)) (b : Fin d → ℕ) (x : Fin d → ℚ) : Prop :=
  ∀ o ∈ M, ∀ y : Fin d → ℕ, (∀ k, y k < b k) → InCell D G b o y x → ∀ e : Fin d → ℤ, (∀ k, |e k| ≤ 1) →
    ∀ P, Wraps (cellGrid G b) o.level (target b o y e) P → ∀ q ∈ cellMesh b M, Anc ⟨o.level, P⟩ q → q.level ≤ o.level

/-! ### One direction -/

theorem overlap_offsets {p : ℚ} (hp : |p| ≤ 1 / 2) (m : ℤ) :
    overlap p m = ([0, sgn p].map fun e => (if e = 0 then 1 - |p| else |p|) * (if m = e then 1 else 0)).sum := by
  have h1 := abs_le.1 hp
  simp only [List.map_cons, List.map_nil, List.sum_cons, List.sum_nil, add_zero, if_true, if_neg (sgn_ne p)]
  unfold overlap
  have far : ∀ m : ℤ, (1 ≤ (m : ℚ) - p ∨ (m : ℚ) - p ≤ -1) →
      max 0 (min (p + 1 / 2) ((m : ℚ) + 1 / 2) - max (p - 1 / 2) (m - 1 / 2)) = 0 := by
    intro m h
    rw [max_eq_left]
    rcases h with h | h
    · have := min_le_left (p + 1 / 2) ((m : ℚ) + 1 / 2)
      have := le_max_right (p - 1 / 2) ((m : ℚ) - 1 / 2)
      linarith
    · have := min_le_right (p + 1 / 2) ((m : ℚ) + 1 / 2)
      have := le_max_left (p - 1 / 2) ((m : ℚ) - 1 / 2)
      linarith
  unfold sgn
  rcases le_or_gt 0 p with h | h
  · rw [if_pos h, abs_of_nonneg h]
    rcases lt_trichotomy m 0 with hm | rfl | hm
    · have : (m : ℚ) ≤ -1 := by exact_mod_cast Int.le_sub_one_of_lt hm
      rw [far m (Or.inr (by linarith)), if_neg (by omega), if_neg (by omega)]
      ring
    · rw [if_pos rfl, if_neg (by omega)]
      push_cast
      rw [min_eq_right (by linarith), max_eq_left (by linarith : (0 : ℚ) - 1 / 2 ≤ p - 1 / 2), max_eq_right (by linarith)]
      ring
    · rcases eq_or_lt_of_le (Int.add_one_le_of_lt hm) with hm1 | hm1
      · have hm' : m = 1 := by omega
        subst hm'
        rw [if_neg (by omega), if_pos rfl]
        push_cast
        rw [min_eq_left (by linarith), max_eq_right (by linarith : p - 1 / 2 ≤ (1 : ℚ) - 1 / 2), max_eq_right (by linarith)]
        ring
      · have : (2 : ℚ) ≤ m := by exact_mod_cast (by omega : 2 ≤ m)
        rw [far m (Or.inl (by linarith)), if_neg (by omega), if_neg (by omega)]
        ring
  · rw [if_neg (show ¬ p ≥ 0 from not_le.2 h), abs_of_neg h]
    rcases lt_trichotomy m 0 with hm | rfl | hm
    · rcases eq_or_lt_of_le (Int.le_sub_one_of_lt hm) with hm1 | hm1
      · have hm' : m = -1 := by omega
        subst hm'
        rw [if_neg (by omega), if_pos rfl]
        push_cast
        rw [min_eq_right (by linarith), max_eq_left (by linarith : (-1 : ℚ) - 1 / 2 ≤ p - 1 / 2), max_eq_right (by linarith)]
        ring
      · have : (m : ℚ) ≤ -2 := by exact_mod_cast (by omega : m ≤ -2)
        rw [far m (Or.inr (by linarith)), if_neg (by omega), if_neg (by omega)]
        ring
    · rw [if_pos rfl, if_neg (by omega)]
      push_cast
      rw [min_eq_left (by linarith), max_eq_right (by linarith : p - 1 / 2 ≤ (0 : ℚ) - 1 / 2), max_eq_right (by linarith)]
      ring
    · have : (1 : ℚ) ≤ m := by exact_mod_cast (by omega : 1 ≤ m)
      rw [far m (Or.inl (by linarith)), if_neg (by omega), if_neg (by omega)]
      ring

/-- The images of a cell at one offset. -/
theorem images_once {N X c P e t : ℤ} (hX : 0 ≤ X ∧ X < N) (hP : 0 ≤ P ∧ P < N) (ht : t = 0 ∨ t = 1 ∨ t = -1)
    (h : P + t * N = c + e) :
    (∑ s ∈ ({-1, 0, 1} : Finset ℤ), if X - c - s * N = e then (1 : ℚ) else 0) = if P = X then 1 else 0 := by
  rw [Finset.sum_insert (by decide), Finset.sum_insert (by decide), Finset.sum_singleton]
  rcases ht with rfl | rfl | rfl <;> by_cases hPX : P = X <;> simp only [hPX, if_true, if_false]
  · rw [if_neg (by omega), if_pos (by omega), if_neg (by omega)]; norm_num
  · rw [if_neg (by omega), if_neg (by omega), if_neg (by omega)]; norm_num
  · rw [if_pos (by omega), if_neg (by omega), if_neg (by omega)]; norm_num
  · rw [if_neg (by omega), if_neg (by omega), if_neg (by omega)]; norm_num
  · rw [if_neg (by omega), if_neg (by omega), if_pos (by omega)]; norm_num
  · rw [if_neg (by omega), if_neg (by omega), if_neg (by omega)]; norm_num

theorem scaled {h N : ℚ} (hh : 0 < h) (hN : 0 < N) (K c p s X n : ℚ) :
    max 0 (min (K + h * (c + 1 / 2 + p) + h / 2 + s * (N * h)) (K + (X + n) / N * (N * h)) -
      max (K + h * (c + 1 / 2 + p) - h / 2 + s * (N * h)) (K + X / N * (N * h))) =
    h * max 0 (min (p + 1 / 2) (X - c - s * N + n - 1 / 2) - max (p - 1 / 2) (X - c - s * N - 1 / 2)) := by
  have e1 : K + h * (c + 1 / 2 + p) + h / 2 + s * (N * h) = h * (p + 1 / 2) + (K + h * (c + 1 / 2) + s * N * h) := by ring
  have e2 : K + (X + n) / N * (N * h) = h * (X - c - s * N + n - 1 / 2) + (K + h * (c + 1 / 2) + s * N * h) := by
    field_simp; ring
  have e3 : K + h * (c + 1 / 2 + p) - h / 2 + s * (N * h) = h * (p - 1 / 2) + (K + h * (c + 1 / 2) + s * N * h) := by ring
  have e4 : K + X / N * (N * h) = h * (X - c - s * N - 1 / 2) + (K + h * (c + 1 / 2) + s * N * h) := by
    field_simp; ring
  rw [e1, e2, e3, e4, min_add_add_right, max_add_add_right, mul_max_of_nonneg _ _ hh.le, mul_zero,
    ← mul_min_of_nonneg _ _ hh.le, ← mul_max_of_nonneg _ _ hh.le]
  congr 1
  ring

/-- Parts of an interval. -/
theorem clamp_eq {a a' A B : ℚ} (h : a ≤ a') (hAB : A ≤ B) :
    max 0 (min a' B - max a A) = min a' (max a B) - min a' (max a A) := by
  simp only [max_def, min_def]
  split_ifs <;> linarith

theorem overlap_sum (p A : ℚ) (n : ℕ) : max 0 (min (p + 1 / 2) (A + n - 1 / 2) - max (p - 1 / 2) (A - 1 / 2)) =
    ∑ i ∈ Finset.range n, max 0 (min (p + 1 / 2) (A + i + 1 / 2) - max (p - 1 / 2) (A + i - 1 / 2)) := by
  have hp : p - 1 / 2 ≤ p + 1 / 2 := by linarith
  rw [clamp_eq hp (by have : (0 : ℚ) ≤ n := by positivity
                      linarith)]
  induction n with
  | zero => simp
  | succ n ih =>
    rw [Finset.sum_range_succ, ← ih, clamp_eq hp (by linarith)]
    push_cast
    rw [show A + (n + 1) - 1 / 2 = A + n + 1 / 2 by ring]
    ring

/-- The period in units of the cell size. -/
theorem size_eq {G : Grid d} (hG : G.Pos) {c : CellIndex d} (hb : ∀ k, 0 < c.b k) (D : Domain d) (k : Fin d) :
    D.xmax k - D.xmin k = (cellGrid G c.b).count k c.oct.level *
      cellSize D (cellGrid G c.b) (cellOct c.b c.oct c.idx) k := by
  have hN : (0 : ℚ) < (cellGrid G c.b).count k c.oct.level := by exact_mod_cast count_pos (cellGrid_pos hG hb) k _
  unfold cellSize hi lo
  show _ = _ * (((_ : ℚ) / (cellGrid G c.b).count k c.oct.level - _ / (cellGrid G c.b).count k c.oct.level) * _)
  field_simp
  ring

/-- A position through its place relative to the middle of a cell. -/
theorem pos_eq {G : Grid d} (hG : G.Pos) {D : Domain d} (hD : Domain.Ok D) {c : CellIndex d} (hb : ∀ k, 0 < c.b k)
    (x : Fin d → ℚ) (k : Fin d) :
    x k = D.xmin k + cellSize D (cellGrid G c.b) (cellOct c.b c.oct c.idx) k *
      ((cellOct c.b c.oct c.idx).pos k + 1 / 2 + relPos D G c x k) := by
  have hs := cellSize_pos (cellGrid_pos hG hb) hD (cellOct c.b c.oct c.idx) k
  have hN : (0 : ℚ) < (cellGrid G c.b).count k c.oct.level := by exact_mod_cast count_pos (cellGrid_pos hG hb) k _
  have hL := size_eq hG hb D (c := c) k
  unfold relPos
  rw [getCellSize_eq hG D c hb k, C26_center hG D c hb k]
  unfold lo hi
  show _ = _ + _ * (_ + _ + (_ - (_ + ((_ : ℚ) / (cellGrid G c.b).count k c.oct.level + _ / (cellGrid G c.b).count k c.oct.level) / 2 * _)) / _)
  rw [hL]
  field_simp
  ring

/-- The covered part of a cell that is not smaller than the cloud, in units of the size of the cloud. -/
theorem covered_eq {G : Grid d} (hG : G.Pos) {D : Domain d} (hD : Domain.Ok D) {c : CellIndex d} (hb : ∀ k, 0 < c.b k)
    {o : Oct d} (hl : G.lmin ≤ o.level) (ho : o.level ≤ c.oct.level) (y : Fin d → ℕ) (x : Fin d → ℚ) (k : Fin d) :
    covered D G c.b o y (cellSize D (cellGrid G c.b) (cellOct c.b c.oct c.idx)) x k =
      cellSize D (cellGrid G c.b) (cellOct c.b c.oct c.idx) k * ∑ s ∈ ({-1, 0, 1} : Finset ℤ),
        ∑ i ∈ Finset.range (2 ^ (c.oct.level - o.level)),
          overlap (relPos D G c x k) (((cellOct c.b o y).pos k * 2 ^ (c.oct.level - o.level) + i : ℕ) -
            (cellOct c.b c.oct c.idx).pos k - s * (cellGrid G c.b).count k c.oct.level) := by
  have hs := cellSize_pos (cellGrid_pos hG hb) hD (cellOct c.b c.oct c.idx) k
  have hN : (0 : ℚ) < (cellGrid G c.b).count k c.oct.level := by exact_mod_cast count_pos (cellGrid_pos hG hb) k _
  have hL := size_eq hG hb D (c := c) k
  have hx := pos_eq hG hD hb x (c := c) k
  have hlv : (cellOct c.b o y).level + (c.oct.level - o.level) = c.oct.level := by
    change o.level + _ = _
    omega
  have hh : hi (cellGrid G c.b) (cellOct c.b o y) k =
      (((cellOct c.b o y).pos k : ℚ) * 2 ^ (c.oct.level - o.level) + (2 ^ (c.oct.level - o.level) : ℕ)) /
        (cellGrid G c.b).count k c.oct.level := by
    rw [hi_scale (G := cellGrid G c.b) (cellOct c.b o y) k (c.oct.level - o.level) hl, hlv]
    push_cast
    ring
  have hl' : lo (cellGrid G c.b) (cellOct c.b o y) k =
      (((cellOct c.b o y).pos k : ℚ) * 2 ^ (c.oct.level - o.level)) / (cellGrid G c.b).count k c.oct.level := by
    rw [lo_scale (G := cellGrid G c.b) (cellOct c.b o y) k (c.oct.level - o.level) hl, hlv]
    push_cast
    rfl
  unfold covered
  rw [Finset.mul_sum]
  refine Finset.sum_congr rfl fun s _ => ?_
  rw [hh, hl', hL, hx, scaled hs hN, overlap_sum]
  congr 1
  refine Finset.sum_congr rfl fun i _ => ?_
  unfold overlap
  push_cast
  congr 3 <;> ring

/-! ### One particle -/

/-- What is added for one offset, if no cell there is smaller. -/
theorem contrib_one {G : Grid 3} {M : Finset (Oct 3)} (hG : G.Pos) (hM : Tiling G M) (hB : Balanced G M)
    (hper : ∀ k, G.periodic k = true) {D : Domain 3} (hD : Domain.Ok D) {c : CellIndex 3} (hc : c.oct ∈ M)
    (hx : ∀ k, c.idx k < c.b k) (hst : c.status = .localToBlock) {e : Fin 3 → ℤ} (he : ∀ k, |e k| ≤ 1)
    (hns : ∀ P, Wraps (cellGrid G c.b) c.oct.level (target c.b c.oct c.idx e) P → ∀ q ∈ cellMesh c.b M,
      Anc ⟨c.oct.level, P⟩ q → q.level ≤ c.oct.level) (p : Fin 3 → ℚ) :
    ∃ r P, (∀ mass, contrib G M c mass (cellVolume D G c) p e =
        some [(r, mass * fraction p e / volume D (cellGrid G c.b) (cellOct c.b r.oct r.idx))]) ∧
      (∀ g, gContrib G M c g p e = some (g r.oct r.idx * fraction p e)) ∧
      r.oct ∈ M ∧ (∀ k, r.idx k < c.b k) ∧ Anc (cellOct c.b r.oct r.idx) ⟨c.oct.level, P⟩ ∧
      Wraps (cellGrid G c.b) c.oct.level (target c.b c.oct c.idx e) P := by
  have hb0 : ∀ k, 0 < c.b k := fun k => by have := hx k; omega
  have hG' := cellGrid_pos hG hb0
  have hVp : 0 < volume D (cellGrid G c.b) (cellOct c.b c.oct c.idx) := volume_pos hG' hD _
  obtain ⟨r, P, h1, h2, h3, h4, hW, h5⟩ := C25_neighbor_cell hG hM hB c hc hx e
    (fun k => by have := he k; have := hb0 k; omega) (inDomain_periodic hper _ _ _)
  have hrm : cellOct c.b r.oct r.idx ∈ cellMesh c.b M := mem_cellMesh.2 ⟨_, h2, _, h3, rfl⟩
  rcases h5 with ⟨st, e5⟩ | ⟨st, hl, hA⟩ | ⟨st, hl, hp⟩
  · have hst' : r.status = .sameSize ∨ r.status = .localToBlock := by
      rcases st with st | st
      · right; rw [st, hst]; rfl
      · exact Or.inl st
    have hld := (OneNeighbor.levelDiff_cases r).2.2 hst'
    have hb' : r.status ≠ .boundary := by rcases hst' with h | h <;> rw [h] <;> decide
    refine ⟨r, P, fun mass => ?_, fun g => ?_, h2, h3, by rw [e5]; exact Anc.refl _, hW⟩
    rotate_left
    · unfold gContrib
      rw [h1, Option.bind_some, if_neg hb', if_pos (by omega)]
    unfold contrib
    rw [h1, Option.bind_some, if_neg (by rcases hst' with h | h <;> rw [h] <;> decide), if_pos (by omega)]
    dsimp only
    rw [if_neg (by omega), cellVolume_eq hG D c hb0, volume_level (G := cellGrid G c.b) D (c := cellOct c.b c.oct c.idx)
      (q := cellOct c.b r.oct r.idx) (by rw [e5]; rfl)]
  · have hld := (OneNeighbor.levelDiff_cases r).2.1 st
    have hv := volume_succ (G := cellGrid G c.b) D (c := cellOct c.b r.oct r.idx) (q := cellOct c.b c.oct c.idx)
      ((hM.valid _ h2).1) hl.symm
    have hv' : volume D (cellGrid G c.b) (cellOct c.b r.oct r.idx) =
        8 * volume D (cellGrid G c.b) (cellOct c.b c.oct c.idx) := by rw [hv]; ring
    refine ⟨r, P, fun mass => ?_, fun g => ?_, h2, h3, hA, hW⟩
    rotate_left
    · unfold gContrib
      rw [h1, Option.bind_some, if_neg (by rw [st]; decide), if_pos (by omega)]
    unfold contrib
    rw [h1, Option.bind_some, if_neg (by rw [st]; decide), if_pos (by omega)]
    dsimp only
    rw [if_pos hld, cellVolume_eq hG D c hb0, hv', show (2 * 2 * (((3 : ℕ) : ℚ) - 1)) = 8 by norm_num]
    congr 3
    field_simp
  · exfalso
    have hA : Anc (⟨c.oct.level, P⟩ : Oct 3) (cellOct c.b r.oct r.idx) := by
      refine ⟨by change c.oct.level ≤ r.oct.level; omega, fun k => ?_⟩
      change _ / 2 ^ (r.oct.level - c.oct.level) = P k
      rw [hp k, show r.oct.level - c.oct.level = 1 by omega, pow_one]
      split <;> omega
    have h6 := hns P hW _ hrm hA
    change r.oct.level ≤ _ at h6
    omega

/-- Boxes of a larger one. -/
theorem in_range {n m q : ℕ} (hm : 0 < m) : (∑ i ∈ Finset.range m, if ((n : ℕ) : ℤ) = ((q * m + i : ℕ) : ℤ) then (1 : ℚ) else 0) =
    if n / m = q then 1 else 0 := by
  have hdm := Nat.div_add_mod n m
  have hlt := Nat.mod_lt n hm
  by_cases h : n / m = q
  · rw [if_pos h, Finset.sum_eq_single_of_mem (n % m) (Finset.mem_range.2 hlt), if_pos]
    · rw [h, Nat.mul_comm] at hdm
      exact_mod_cast hdm.symm
    · intro i _ hne
      rw [if_neg]
      intro h2
      have h2 : n = q * m + i := by exact_mod_cast h2
      rw [h, Nat.mul_comm] at hdm
      omega
  · rw [if_neg h]
    refine Finset.sum_eq_zero fun i hi => ?_
    rw [if_neg]
    intro h2
    have h2 : n = q * m + i := by exact_mod_cast h2
    refine h ?_
    rw [h2, Nat.mul_comm, Nat.mul_add_div hm, Nat.div_eq_of_lt (Finset.mem_range.1 hi), Nat.add_zero]

/-- One direction of the sum over the offsets. -/
theorem dir_sum {N q c m : ℕ} (hq : (q + 1) * m ≤ N) (hm : 0 < m) {P : ℕ} (hP : P < N) {e t : ℤ} (ht : t = 0 ∨ t = 1 ∨ t = -1)
    (h : (P : ℤ) + t * N = c + e) :
    (∑ s ∈ ({-1, 0, 1} : Finset ℤ), ∑ i ∈ Finset.range m, if ((q * m + i : ℕ) : ℤ) - c - s * N = e then (1 : ℚ) else 0) =
      if P / m = q then 1 else 0 := by
  rw [Finset.sum_comm, ← in_range hm]
  refine Finset.sum_congr rfl fun i hi => ?_
  refine images_once ⟨by positivity, ?_⟩ ⟨by positivity, by exact_mod_cast hP⟩ ht h
  have := Finset.mem_range.1 hi
  have : q * m + i < N := by rw [Nat.add_one_mul] at hq; omega
  exact_mod_cast this

/-! ### Smaller cells -/

theorem meet_one {h K p A B : ℚ} {N c : ℕ} {s : ℤ} (hh : 0 < h) (hN : 0 < N) (hp : |p| ≤ 1 / 2) (hA : 0 ≤ A) (hB : B ≤ 1)
    (hm : 0 < min (K + h * (c + 1 / 2 + p) + h / 2 + s * (N * h)) (K + B * (N * h)) -
      max (K + h * (c + 1 / 2 + p) - h / 2 + s * (N * h)) (K + A * (N * h))) :
    ∃ (u : ℚ) (P : ℕ) (e : ℤ), (A ≤ u ∧ u < B) ∧ ((P : ℚ) / N ≤ u ∧ u < ((P : ℚ) + 1) / N) ∧ P < N ∧ |e| ≤ 1 ∧
      (P : ℤ) + (-s) * N = c + e := by
  have hN' : (0 : ℚ) < N := by exact_mod_cast hN
  have hL : 0 < (N : ℚ) * h := mul_pos hN' hh
  have hp' := abs_le.1 hp
  set lo' := max (K + h * (c + 1 / 2 + p) - h / 2 + s * (N * h)) (K + A * (N * h)) with hlo
  set hi' := min (K + h * (c + 1 / 2 + p) + h / 2 + s * (N * h)) (K + B * (N * h)) with hhi
  have l1 : K + h * (c + 1 / 2 + p) - h / 2 + s * (N * h) ≤ lo' := le_max_left _ _
  have l2 : K + A * (N * h) ≤ lo' := le_max_right _ _
  have u1 : hi' ≤ K + h * (c + 1 / 2 + p) + h / 2 + s * (N * h) := min_le_left _ _
  have u2 : hi' ≤ K + B * (N * h) := min_le_right _ _
  obtain ⟨z, hz⟩ : ∃ z, z = (lo' + hi') / 2 := ⟨_, rfl⟩
  have z1 : lo' < z := by linarith
  have z2 : z < hi' := by linarith
  clear_value lo' hi'
  obtain ⟨u, hu⟩ : ∃ u, u = (z - K) / (N * h) := ⟨_, rfl⟩
  have hz' : z = K + u * (N * h) := by rw [hu, div_mul_cancel₀ _ hL.ne']; ring
  have a1 : A < u := by
    by_contra hc
    have := mul_le_mul_of_nonneg_right (not_lt.1 hc) hL.le
    linarith
  have a2 : u < B := by
    by_contra hc
    have := mul_le_mul_of_nonneg_right (not_lt.1 hc) hL.le
    linarith
  have b1 : (c : ℚ) + p < u * N - s * N := by
    by_contra hc
    have := mul_le_mul_of_nonneg_left (not_lt.1 hc) hh.le
    nlinarith
  have b2 : u * N - s * N < (c : ℚ) + p + 1 := by
    by_contra hc
    have := mul_le_mul_of_nonneg_left (not_lt.1 hc) hh.le
    nlinarith
  have hu0 : 0 ≤ u * N := mul_nonneg (by linarith) hN'.le
  have f1 := Nat.floor_le hu0
  have f2 := Nat.lt_floor_add_one (u * N)
  refine ⟨u, ⌊u * N⌋₊, (⌊u * N⌋₊ : ℤ) - s * N - c, ⟨a1.le, a2⟩, ⟨?_, ?_⟩, ?_, ?_, by ring⟩
  · rwa [div_le_iff₀ hN']
  · rwa [lt_div_iff₀ hN']
  · have : u * N < N := by nlinarith
    have : ((⌊u * N⌋₊ : ℕ) : ℚ) < N := by linarith
    exact_mod_cast this
  · rw [abs_le]
    have g1 : (((⌊u * N⌋₊ : ℤ) - s * N - c : ℤ) : ℚ) > -2 := by push_cast; linarith
    have g2 : (((⌊u * N⌋₊ : ℤ) - s * N - c : ℤ) : ℚ) < 2 := by push_cast; linarith
    have g1' : (-2 : ℤ) < (⌊u * N⌋₊ : ℤ) - s * N - c := by exact_mod_cast g1
    have g2' : (⌊u * N⌋₊ : ℤ) - s * N - c < (2 : ℤ) := by exact_mod_cast g2
    omega

/-- A smaller cell is not covered. -/
theorem covered_zero {G : Grid d} {M : Finset (Oct d)} (hG : G.Pos) (hM : Tiling G M) (hper : ∀ k, G.periodic k = true)
    {D : Domain d} (hD : Domain.Ok D) {c : CellIndex d} (hb : ∀ k, 0 < c.b k) {x : Fin d → ℚ}
    (hc : ∀ k, |relPos D G c x k| ≤ 1 / 2)
    (hlc : G.lmin ≤ c.oct.level)
    (hs : ∀ e : Fin d → ℤ, (∀ k, |e k| ≤ 1) → ∀ P, Wraps (cellGrid G c.b) c.oct.level (target c.b c.oct c.idx e) P →
      ∀ q ∈ cellMesh c.b M, Anc ⟨c.oct.level, P⟩ q → q.level ≤ c.oct.level) {o : Oct d} (ho : o ∈ M) {y : Fin d → ℕ} (hy : ∀ k, y k < c.b k)
    (hne : c.oct.level < o.level) :
    ∏ k, covered D G c.b o y (cellSize D (cellGrid G c.b) (cellOct c.b c.oct c.idx)) x k = 0 := by
  have hG' := cellGrid_pos hG hb
  have hM' := cellMesh_tiling hG hb hM
  have hom : cellOct c.b o y ∈ cellMesh c.b M := mem_cellMesh.2 ⟨_, ho, _, hy, rfl⟩
  by_contra hall
  have hk : ∀ k, ∃ (u : ℚ) (P : ℕ) (e : ℤ) (s : ℤ), (s = -1 ∨ s = 0 ∨ s = 1) ∧
      (lo (cellGrid G c.b) (cellOct c.b o y) k ≤ u ∧ u < hi (cellGrid G c.b) (cellOct c.b o y) k) ∧
      ((P : ℚ) / (cellGrid G c.b).count k c.oct.level ≤ u ∧ u < ((P : ℚ) + 1) / (cellGrid G c.b).count k c.oct.level) ∧
      P < (cellGrid G c.b).count k c.oct.level ∧ |e| ≤ 1 ∧
      (P : ℤ) + (-s) * (cellGrid G c.b).count k c.oct.level = (cellOct c.b c.oct c.idx).pos k + e := by
    intro k
    have h1 := (Finset.prod_ne_zero_iff.1 hall) k (Finset.mem_univ k)
    unfold covered at h1
    obtain ⟨s, hs1, hs2⟩ := Finset.exists_ne_zero_of_sum_ne_zero h1
    have hpos := lt_of_le_of_ne (le_max_left _ _) (Ne.symm hs2)
    rw [lt_max_iff] at hpos
    have hpos := hpos.resolve_left (lt_irrefl _)
    rw [pos_eq hG hD hb x k, size_eq hG hb D k] at hpos
    obtain ⟨u, P, e, q1, q2, q3, q4, q5⟩ := meet_one (cellSize_pos hG' hD (cellOct c.b c.oct c.idx) k) (count_pos hG' k _)
      (hc k) (lo_nonneg _ _) (hi_le_one hG' (hM'.valid _ hom) k) hpos
    exact ⟨u, P, e, s, by simpa using hs1, q1, q2, q3, q4, q5⟩
  choose u P e s k1 k2 k3 k4 k5 k6 using hk
  have hW : Wraps (cellGrid G c.b) c.oct.level (target c.b c.oct c.idx e) P := fun k =>
    ⟨k4 k, -s k, by
      have := hper k
      rcases k1 k with h | h | h
      · exact Or.inr ⟨this, Or.inl (by omega)⟩
      · exact Or.inl (by omega)
      · exact Or.inr ⟨this, Or.inr (by omega)⟩, k6 k⟩
  have hA : Anc (⟨c.oct.level, P⟩ : Oct d) (cellOct c.b o y) :=
    anc_of_covers hG' ⟨hlc, k4⟩ hne.le (x := u) k3 k2
  exact absurd (hs e k5 P hW _ hom hA) (not_le.2 hne)

/-! ### One cell -/

/-- The additions to one cell. -/
theorem cic_share {G : Grid 3} {M : Finset (Oct 3)} (hG : G.WF) (hM : Tiling G M) (hB : Balanced G M)
    (hper : ∀ k, G.periodic k = true) {D : Domain 3} (hD : Domain.Ok D) (minLevel maxLevel : ℕ)
    (hlev : ∀ o ∈ M, minLevel ≤ o.level ∧ o.level ≤ maxLevel) {b : Fin 3 → ℕ} (hb0 : ∀ k, 0 < b k) (q : Particle 3)
    (hq : InBox D q.pos) (hs : NoSmallerAround D G M b q.pos) :
    ∃ (c : CellIndex 3) (ws : List (CellIndex 3 × ℚ)), c.oct ∈ M ∧ (∀ k, c.idx k < b k) ∧ InCell D G b c.oct c.idx q.pos ∧
      cic D G M minLevel maxLevel b q = some ws ∧ ∀ o ∈ M, ∀ y : Fin 3 → ℕ, (∀ k, y k < b k) →
        (ws.map fun w => if w.1.oct = o ∧ w.1.idx = y then w.2 else 0).sum =
          q.mass * (∏ k, covered D G b o y (cellSize D (cellGrid G b) (cellOct b c.oct c.idx)) q.pos k /
            cellSize D (cellGrid G b) (cellOct b c.oct c.idx) k) / volume D (cellGrid G b) (cellOct b o y) := by
  classical
  obtain ⟨c, h1, h2, h3, h4, h5, h6, -⟩ := C26_cell_of_pos hG hM D hD minLevel maxLevel hlev b hb0 q.pos hq
  have hns := hs _ h2 _ h3 h6
  subst h4
  have hGp : G.Pos := hG
  have hG' := cellGrid_pos hGp hb0
  have hM' := cellMesh_tiling hGp hb0 hM
  have hlc : G.lmin ≤ c.oct.level := (hM.valid _ h2).1
  have hhalf' : ∀ k, |relPos D G c q.pos k| ≤ 1 / 2 := fun k => relPos_half hGp hD hb0 h6 k
  generalize hp : relPos D G c q.pos = p at hhalf'
  have hc := fun e he => contrib_one hGp hM hB hper hD h2 h3 h5 (e := e) (fun k => offsets_abs (p := p) he k)
    (fun P hP => hns e (fun k => offsets_abs (p := p) he k) P hP) p
  have : Nonempty (CellIndex 3) := ⟨c⟩
  choose! f P hf1 _hg hf2 hf3 hf4 hf5 using hc
  have hcic : cic D G M minLevel maxLevel c.b q = some (((offsets p).map fun e =>
      [(f e, q.mass * fraction p e / volume D (cellGrid G c.b) (cellOct c.b (f e).oct (f e).idx))]).flatten) := by
    unfold cic
    rw [h1, Option.bind_some]
    dsimp only
    rw [hp, OneNeighbor.loops_mapM_some _ _ (fun e =>
      [(f e, q.mass * fraction p e / volume D (cellGrid G c.b) (cellOct c.b (f e).oct (f e).idx))]) fun e he => hf1 e he _,
      Option.map_some]
  refine ⟨c, _, h2, h3, h6, hcic, fun o ho y hy => ?_⟩
  have hom : cellOct c.b o y ∈ cellMesh c.b M := mem_cellMesh.2 ⟨_, ho, _, hy, rfl⟩
  have hlo : G.lmin ≤ o.level := (hM.valid _ ho).1
  set V := volume D (cellGrid G c.b) (cellOct c.b o y) with hV
  have hflat : (((offsets p).map fun e =>
      [(f e, q.mass * fraction p e / volume D (cellGrid G c.b) (cellOct c.b (f e).oct (f e).idx))]).flatten.map
      fun w => if w.1.oct = o ∧ w.1.idx = y then w.2 else 0).sum =
      ((offsets p).map fun e => if (f e).oct = o ∧ (f e).idx = y then q.mass * fraction p e / V else 0).sum := by
    generalize offsets p = l
    induction l with
    | nil => rfl
    | cons a l ih =>
      simp only [List.map_cons, List.flatten_cons, List.map_append, List.sum_append, List.sum_cons, ih, List.map_nil,
        List.sum_nil, add_zero]
      congr 1
      split
      · rename_i hw
        rw [hV, hw.1, hw.2]
      · rfl
  rw [hflat]
  rcases lt_or_ge c.oct.level o.level with hl | hl
  · -- smaller cells
    rw [Finset.prod_div_distrib, covered_zero hGp hM hper hD hb0 (x := q.pos) (by rw [hp]; exact hhalf') hlc hns ho hy hl]
    rw [List.sum_eq_zero]
    · simp
    · intro z hz
      obtain ⟨e, he, rfl⟩ := List.mem_map.1 hz
      rw [if_neg]
      rintro ⟨h7, -⟩
      have h8 : (f e).oct.level ≤ c.oct.level := (hf4 e he).1
      rw [h7] at h8
      omega
  · have hm : 0 < 2 ^ (c.oct.level - o.level) := by positivity
    have hQ : ∀ k, ((cellOct c.b o y).pos k + 1) * 2 ^ (c.oct.level - o.level) ≤ (cellGrid G c.b).count k c.oct.level :=
      fun k => by
      have h7 : (cellOct c.b o y).pos k < (cellGrid G c.b).count k o.level := (hM'.valid _ hom).2 k
      have h8 := count_add (cellGrid G c.b) k (c.oct.level - o.level) (n := o.level) hlo
      rw [show o.level + (c.oct.level - o.level) = c.oct.level by omega] at h8
      rw [h8]
      exact Nat.mul_le_mul_right _ h7
    have hterm : ∀ e ∈ offsets p, (if (f e).oct = o ∧ (f e).idx = y then q.mass * fraction p e / V else 0) =
        q.mass / V * ∏ k, ((if e k = 0 then 1 - |p k| else |p k|) * ∑ s ∈ ({-1, 0, 1} : Finset ℤ),
          ∑ i ∈ Finset.range (2 ^ (c.oct.level - o.level)),
            if (((cellOct c.b o y).pos k * 2 ^ (c.oct.level - o.level) + i : ℕ) : ℤ) - (cellOct c.b c.oct c.idx).pos k -
              s * (cellGrid G c.b).count k c.oct.level = e k then (1 : ℚ) else 0) := by
      intro e he
      have hw := hf5 e he
      have key : ∀ k, (∑ s ∈ ({-1, 0, 1} : Finset ℤ), ∑ i ∈ Finset.range (2 ^ (c.oct.level - o.level)),
          if (((cellOct c.b o y).pos k * 2 ^ (c.oct.level - o.level) + i : ℕ) : ℤ) - (cellOct c.b c.oct c.idx).pos k -
            s * (cellGrid G c.b).count k c.oct.level = e k then (1 : ℚ) else 0) =
          if P e k / 2 ^ (c.oct.level - o.level) = (cellOct c.b o y).pos k then 1 else 0 := by
        intro k
        obtain ⟨w1, t, w2, w3⟩ := hw k
        refine dir_sum (hQ k) hm w1 (t := t) ?_ w3
        rcases w2 with h | ⟨-, h | h⟩
        · exact Or.inl h
        · exact Or.inr (Or.inl h)
        · exact Or.inr (Or.inr h)
      simp only [key]
      rw [Finset.prod_mul_distrib]
      by_cases heq : (f e).oct = o ∧ (f e).idx = y
      · rw [if_pos heq, Finset.prod_eq_one (s := Finset.univ) (f := fun k =>
          if P e k / 2 ^ (c.oct.level - o.level) = (cellOct c.b o y).pos k then (1 : ℚ) else 0)]
        · unfold fraction; ring
        · intro k _
          rw [if_pos]
          have := (hf4 e he).2 k
          rw [heq.1, heq.2] at this
          exact this
      · rw [if_neg heq]
        have : ∃ k, P e k / 2 ^ (c.oct.level - o.level) ≠ (cellOct c.b o y).pos k := by
          by_contra hall
          push Not at hall
          have hA : Anc (cellOct c.b o y) ⟨c.oct.level, P e⟩ := ⟨hl, hall⟩
          have hv : Valid (cellGrid G c.b) ⟨c.oct.level, P e⟩ := ⟨hlc, fun k => (hw k).1⟩
          obtain ⟨z, -, hz⟩ := hM'.cover (lo (cellGrid G c.b) ⟨c.oct.level, P e⟩)
            fun i => ⟨lo_nonneg _ i, lo_lt_one hG' hv i⟩
          have hrm : cellOct c.b (f e).oct (f e).idx ∈ cellMesh c.b M := mem_cellMesh.2 ⟨_, hf2 e he, _, hf3 e he, rfl⟩
          have q1 := hz _ ⟨hom, hA.covers hG' (hM'.valid _ hom).1 (covers_lo hG' _)⟩
          have q2 := hz _ ⟨hrm, (hf4 e he).covers hG' (hM'.valid _ hrm).1 (covers_lo hG' _)⟩
          exact heq (cellOct_inj (hf3 e he) hy (q2.trans q1.symm))
        obtain ⟨k, hk⟩ := this
        rw [Finset.prod_eq_zero (Finset.mem_univ k) (f := fun k =>
          if P e k / 2 ^ (c.oct.level - o.level) = (cellOct c.b o y).pos k then (1 : ℚ) else 0) (if_neg hk)]
        ring
    rw [List.map_congr_left hterm, List.sum_map_mul_left]
    unfold offsets
    rw [sum_loops _ fun k z => (if z = 0 then 1 - |p k| else |p k|) * ∑ s ∈ ({-1, 0, 1} : Finset ℤ),
          ∑ i ∈ Finset.range (2 ^ (c.oct.level - o.level)),
            if (((cellOct c.b o y).pos k * 2 ^ (c.oct.level - o.level) + i : ℕ) : ℤ) - (cellOct c.b c.oct c.idx).pos k -
              s * (cellGrid G c.b).count k c.oct.level = z then (1 : ℚ) else 0]
    rw [Finset.prod_congr rfl (g := fun k => covered D G c.b o y (cellSize D (cellGrid G c.b) (cellOct c.b c.oct c.idx)) q.pos k /
            cellSize D (cellGrid G c.b) (cellOct c.b c.oct c.idx) k)]
    · ring
    · intro k _
      have hs' := cellSize_pos hG' hD (cellOct c.b c.oct c.idx) k
      rw [covered_eq hGp hD hb0 hlo hl, mul_div_cancel_left₀ _ hs'.ne', hp]
      simp only [overlap_offsets (hhalf' k), List.map_cons, List.map_nil, List.sum_cons, List.sum_nil, add_zero,
        Finset.mul_sum, Finset.sum_add_distrib]

end Verif.Particles
