import Verif.Cells.Spec
import Verif.Octree.Neighbors
import Mathlib.Algebra.Order.Floor.Semifield
import Mathlib.Data.Rat.Floor

/-!
# The cells of a tiling form a tiling
-/

namespace Verif.Cells

open Verif.Octree

variable {d : ℕ} {G : Grid d} {M : Finset (Oct d)} {b : Fin d → ℕ}

theorem count_cell (G : Grid d) (b : Fin d → ℕ) (k : Fin d) (n : ℕ) :
    (cellGrid G b).count k n = G.count k n * b k := by
  unfold Grid.count cellGrid
  simp only
  ring

theorem cellGrid_pos (hG : G.Pos) (hb : ∀ k, 0 < b k) : (cellGrid G b).Pos :=
  ⟨fun k => Nat.mul_pos (hG.pos k) (hb k)⟩

theorem mem_cellMesh {q : Oct d} :
    q ∈ cellMesh b M ↔ ∃ o ∈ M, ∃ x : Fin d → ℕ, (∀ k, x k < b k) ∧ cellOct b o x = q := by
  simp only [cellMesh, Finset.mem_biUnion, Finset.mem_image, Fintype.mem_piFinset, Finset.mem_range]

theorem cell_lo (hG : G.Pos) (hb : ∀ k, 0 < b k) (o : Oct d) (x : Fin d → ℕ) (k : Fin d) :
    lo (cellGrid G b) (cellOct b o x) k = lo G o k + x k * ((hi G o k - lo G o k) / b k) := by
  have h0 : (0 : ℚ) < G.count k o.level := by exact_mod_cast count_pos hG k _
  have h1 : (0 : ℚ) < b k := by exact_mod_cast hb k
  unfold lo hi
  rw [count_cell]
  simp only [cellOct]
  push_cast
  field_simp
  ring

theorem cell_hi (hG : G.Pos) (hb : ∀ k, 0 < b k) (o : Oct d) (x : Fin d → ℕ) (k : Fin d) :
    hi (cellGrid G b) (cellOct b o x) k = lo G o k + (x k + 1) * ((hi G o k - lo G o k) / b k) := by
  have h0 : (0 : ℚ) < G.count k o.level := by exact_mod_cast count_pos hG k _
  have h1 : (0 : ℚ) < b k := by exact_mod_cast hb k
  unfold lo hi
  rw [count_cell]
  simp only [cellOct]
  push_cast
  field_simp
  ring

theorem cell_lo_ge (hG : G.Pos) (hb : ∀ k, 0 < b k) (o : Oct d) (x : Fin d → ℕ) (k : Fin d) :
    lo G o k ≤ lo (cellGrid G b) (cellOct b o x) k := by
  rw [cell_lo hG hb]
  have := lo_lt_hi hG o k
  have h1 : (0 : ℚ) < b k := by exact_mod_cast hb k
  have : 0 ≤ (x k : ℚ) * ((hi G o k - lo G o k) / b k) :=
    mul_nonneg (by positivity) (div_nonneg (by linarith) h1.le)
  linarith

theorem cell_hi_le (hG : G.Pos) (hb : ∀ k, 0 < b k) (o : Oct d) (x : Fin d → ℕ) (k : Fin d)
    (hx : x k < b k) : hi (cellGrid G b) (cellOct b o x) k ≤ hi G o k := by
  rw [cell_hi hG hb]
  have h2 := lo_lt_hi hG o k
  have h1 : (0 : ℚ) < b k := by exact_mod_cast hb k
  have h3 : ((x k : ℚ) + 1) ≤ b k := by exact_mod_cast hx
  have : ((x k : ℚ) + 1) * ((hi G o k - lo G o k) / b k) ≤ b k * ((hi G o k - lo G o k) / b k) :=
    mul_le_mul_of_nonneg_right h3 (div_nonneg (by linarith) h1.le)
  have h4 : (b k : ℚ) * ((hi G o k - lo G o k) / b k) = hi G o k - lo G o k := by field_simp
  linarith

theorem cell_valid {o : Oct d} (ho : Valid G o) {x : Fin d → ℕ}
    (hx : ∀ k, x k < b k) : Valid (cellGrid G b) (cellOct b o x) := by
  refine ⟨ho.1, fun k => ?_⟩
  rw [count_cell]
  simp only [cellOct]
  have h1 := ho.2 k
  have h2 := hx k
  calc o.pos k * b k + x k < o.pos k * b k + b k := by omega
    _ = (o.pos k + 1) * b k := by ring
    _ ≤ _ := Nat.mul_le_mul_right _ h1

theorem covers_iff_floor (hG : G.Pos) (o : Oct d) {x : Fin d → ℚ} (hx : ∀ i, 0 ≤ x i) :
    Covers G o x ↔ ∀ k, ⌊x k * G.count k o.level⌋₊ = o.pos k := by
  unfold Covers
  refine forall_congr' fun k => ?_
  have h0 : (0 : ℚ) < G.count k o.level := by exact_mod_cast count_pos hG k _
  rw [Nat.floor_eq_iff (mul_nonneg (hx k) h0.le)]
  unfold lo hi
  rw [div_le_iff₀ h0, lt_div_iff₀ h0]

/-- The cells of a tiling tile the domain. -/
theorem cellMesh_tiling (hG : G.Pos) (hb : ∀ k, 0 < b k) (hM : Tiling G M) :
    Tiling (cellGrid G b) (cellMesh b M) := by
  have hG' := cellGrid_pos hG hb
  refine ⟨fun q hq => ?_, fun pt hpt => ?_⟩
  · obtain ⟨o, ho, x, hx, rfl⟩ := mem_cellMesh.1 hq
    exact cell_valid (hM.valid o ho) hx
  · have h0 : ∀ i, 0 ≤ pt i := fun i => (hpt i).1
    obtain ⟨o, ⟨ho, hc⟩, hu⟩ := hM.cover pt hpt
    have hq : ∀ k, ⌊pt k * (cellGrid G b).count k o.level⌋₊ / b k = o.pos k := by
      intro k
      have h1 := (covers_iff_floor hG o h0).1 hc k
      rw [count_cell, Nat.cast_mul, ← mul_assoc, ← Nat.floor_div_natCast,
        mul_div_cancel_right₀ _ (by exact_mod_cast (hb k).ne'), h1]
    refine ⟨cellOct b o fun k => ⌊pt k * (cellGrid G b).count k o.level⌋₊ % b k,
      ⟨mem_cellMesh.2 ⟨o, ho, _, fun k => Nat.mod_lt _ (hb k), rfl⟩, ?_⟩, ?_⟩
    · rw [covers_iff_floor hG' _ h0]
      intro k
      simp only [cellOct]
      conv_rhs => rw [← hq k]
      rw [Nat.div_add_mod']
    · rintro q ⟨hqm, hqc⟩
      obtain ⟨o', ho', x, hx, rfl⟩ := mem_cellMesh.1 hqm
      have : o' = o := hu o' ⟨ho', fun k => ⟨le_trans (cell_lo_ge hG hb o' x k) (hqc k).1,
        lt_of_lt_of_le (hqc k).2 (cell_hi_le hG hb o' x k (hx k))⟩⟩
      subst this
      refine Oct.ext' rfl fun k => ?_
      have h1 := (covers_iff_floor hG' _ h0).1 hqc k
      simp only [cellOct] at h1 ⊢
      rw [h1]
      conv_lhs => rw [← Nat.div_add_mod' (o'.pos k * b k + x k) (b k)]
      rw [← h1, hq k]

/-- The cells of a balanced mesh are balanced. -/
theorem cellMesh_balanced (hG : G.Pos) (hb : ∀ k, 0 < b k) (hB : Balanced G M) :
    Balanced (cellGrid G b) (cellMesh b M) := by
  intro p hp q hq h
  obtain ⟨o, ho, x, hx, rfl⟩ := mem_cellMesh.1 hp
  obtain ⟨o', ho', x', hx', rfl⟩ := mem_cellMesh.1 hq
  refine hB o ho o' ho' fun i => ?_
  obtain ⟨s, hs, h1, h2⟩ := h i
  refine ⟨s, hs, ?_, ?_⟩
  · have := cell_lo_ge hG hb o x i
    have := cell_hi_le hG hb o' x' i (hx' i)
    linarith
  · have := cell_lo_ge hG hb o' x' i
    have := cell_hi_le hG hb o x i (hx i)
    linarith

theorem cellOct_inj {o o' : Oct d} {x x' : Fin d → ℕ} (hx : ∀ k, x k < b k) (hx' : ∀ k, x' k < b k)
    (h : cellOct b o x = cellOct b o' x') : o = o' ∧ x = x' := by
  have hl : o.level = o'.level := by have := congrArg (fun q : Oct d => q.level) h; exact this
  have hp : ∀ k, o.pos k * b k + x k = o'.pos k * b k + x' k := fun k =>
    congrFun (congrArg (fun q : Oct d => q.pos) h) k
  have h1 : ∀ k, o.pos k = o'.pos k := by
    intro k
    have e := congrArg (· / b k) (hp k)
    have hb0 : 0 < b k := by have := hx k; omega
    simp only [Nat.mul_comm _ (b k), Nat.mul_add_div hb0, Nat.div_eq_of_lt (hx k),
      Nat.div_eq_of_lt (hx' k)] at e
    omega
  refine ⟨Oct.ext' hl h1, funext fun k => ?_⟩
  have := hp k
  rw [h1 k] at this
  omega

end Verif.Cells
