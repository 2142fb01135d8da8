import Verif.Cells.Temp
import Verif.Cells.Model
import Mathlib.Data.Fin.VecNotation
import Mathlib.Tactic.FinCases

/-!
# C57: temporary patch arrays have a place for each ghost cell

`C57_group` and `C57_scratch` are about arrays of any shape; here about the shape that `reserve_patch_tmp` gives them.
-/

namespace Verif.Cells.Temp

open Octree

/-- Block size of an array as in `Verif.Cells.Model`. -/
def Shape.size (s : Shape) : Fin 3 → ℕ := ![s.bx, s.by', s.bz]

/-- `x` is the index, in the array, of the cell that is `off` away from cell `c` of the block, of size `b`: the cell `c` goes to
its index in the array as the code converts it, and `off` is added. -/
def Beside (s : Shape) (o : Oct 3) (b : Fin 3 → ℕ) (c : Fin 3 → ℕ) (off : Fin 3 → ℤ) (x : Fin 3 → ℕ) : Prop :=
  ∃ i, convertIndex s.size ⟨o, c, b, .localToBlock⟩ = some i ∧ i.b = s.size ∧ ∀ k, (x k : ℤ) = i.idx k + off k

theorem size_reserve (b g : Fin 3 → ℕ) (nvars : ℕ) (k : Fin 3) :
    (reserveShape (b 0) (b 1) (b 2) (g 0) (g 1) (g 2) nvars).size k = b k + 2 * g k := by
  fin_cases k <;> rfl

theorem convert_reserve (o : Oct 3) (b g c : Fin 3 → ℕ) (nvars : ℕ) (hc : ∀ k, c k < b k) :
    ∃ i, convertIndex (reserveShape (b 0) (b 1) (b 2) (g 0) (g 1) (g 2) nvars).size ⟨o, c, b, .localToBlock⟩ = some i ∧
      i.b = (reserveShape (b 0) (b 1) (b 2) (g 0) (g 1) (g 2) nvars).size ∧ ∀ k, i.idx k = c k + g k := by
  set S := (reserveShape (b 0) (b 1) (b 2) (g 0) (g 1) (g 2) nvars).size with hS
  have hk : ∀ k, S k = b k + 2 * g k := size_reserve b g nvars
  unfold convertIndex
  split
  · rename_i h
    simp only at h
    refine ⟨_, rfl, h, fun k => ?_⟩
    have := hk k
    rw [← h] at this
    simp only
    omega
  · have hs : ∀ k, shifted S ⟨o, c, b, .localToBlock⟩ k = ((c k + g k : ℕ) : ℤ) := by
      intro k
      unfold shifted
      simp only
      rw [hk k, show ((b k + 2 * g k : ℕ) : ℤ) - b k = 2 * (g k : ℤ) by push_cast; ring,
        Int.mul_tdiv_cancel_left _ (by norm_num)]
      push_cast
      rfl
    have hin : ∀ k, 0 ≤ shifted S ⟨o, c, b, .localToBlock⟩ k ∧ shifted S ⟨o, c, b, .localToBlock⟩ k < S k := by
      intro k
      rw [hs k, hk k]
      have := hc k
      constructor
      · positivity
      · push_cast
        have : (c k : ℤ) < b k := by exact_mod_cast hc k
        have : (0 : ℤ) ≤ g k := by positivity
        linarith
    unfold inBlock
    rw [if_pos hin]
    refine ⟨_, rfl, rfl, fun k => ?_⟩
    simp only [hs k, Int.toNat_natCast]

/-- **C57** A reserved array has a place for exactly the cells that are at most `g` away from the block, in each direction: all
of them are within the array, and there are no others in it. -/
theorem C57_ghosts (o : Oct 3) (b g : Fin 3 → ℕ) (hb : ∀ k, 0 < b k) (nvars : ℕ) (array iOct ivar : ℕ)
    (hv : ivar < nvars) (x : Fin 3 → ℕ) :
    InShape (reserveShape (b 0) (b 1) (b 2) (g 0) (g 1) (g 2) nvars) ⟨array, ⟨iOct, false, x 0, x 1, x 2⟩, ivar⟩ ↔
      ∃ (c : Fin 3 → ℕ) (off : Fin 3 → ℤ), (∀ k, c k < b k) ∧ (∀ k, |off k| ≤ (g k : ℤ)) ∧
        Beside (reserveShape (b 0) (b 1) (b 2) (g 0) (g 1) (g 2) nvars) o b c off x := by
  have hsh : InShape (reserveShape (b 0) (b 1) (b 2) (g 0) (g 1) (g 2) nvars)
      ⟨array, ⟨iOct, false, x 0, x 1, x 2⟩, ivar⟩ ↔ ∀ k, x k < b k + 2 * g k := by
    unfold InShape reserveShape
    simp only [Fin.forall_fin_succ, true_and]
    constructor
    · rintro ⟨h0, h1, h2, -⟩
      exact ⟨h0, h1, h2, fun i => i.elim0⟩
    · rintro ⟨h0, h1, h2, -⟩
      exact ⟨h0, h1, h2, hv⟩
  rw [hsh]
  constructor
  · intro h
    -- the cell of the block that is next to the place
    refine ⟨fun k => min (x k - g k) (b k - 1), fun k => (x k : ℤ) - (min (x k - g k) (b k - 1) + g k : ℕ),
      fun k => ?_, fun k => ?_, ?_⟩
    · have := hb k
      change min (x k - g k) (b k - 1) < b k
      omega
    · have := hb k
      have := h k
      simp only
      rw [abs_le]
      constructor <;> omega
    · obtain ⟨i, h1, h2, h3⟩ := convert_reserve o b g (fun k => min (x k - g k) (b k - 1)) nvars
        (fun k => by have := hb k; omega)
      exact ⟨i, h1, h2, fun k => by rw [h3 k]; ring⟩
  · rintro ⟨c, off, hc, ho, i, h1, h2, h3⟩ k
    obtain ⟨i', h1', -, h3'⟩ := convert_reserve o b g c nvars hc
    rw [h1'] at h1
    cases h1
    have e := h3 k
    rw [h3' k] at e
    have := abs_le.1 (ho k)
    have := hc k
    omega

/-- A block of 4 x 2 x 1 cells with 2, 1 and 0 ghosts: the array has 8 x 4 x 1 cells, the ghost cell (-2,-1,0) is its first one
and (6,0,0) is not in it. -/
example : InShape (reserveShape 4 2 1 2 1 0 3) ⟨0, ⟨5, false, 0, 0, 0⟩, 2⟩ ∧
    ¬ InShape (reserveShape 4 2 1 2 1 0 3) ⟨0, ⟨5, false, 8, 1, 0⟩, 2⟩ ∧
    Beside (reserveShape 4 2 1 2 1 0 3) ⟨0, fun _ => 0⟩ ![4, 2, 1] ![0, 0, 0] ![-2, -1, 0] ![0, 0, 0] := by
  refine ⟨by simp [InShape, reserveShape], by simp [InShape, reserveShape], ?_⟩
  obtain ⟨i, h1, h2, h3⟩ := convert_reserve ⟨0, fun _ => 0⟩ ![4, 2, 1] ![2, 1, 0] ![0, 0, 0] 3
    (fun k => by fin_cases k <;> simp)
  refine ⟨i, h1, h2, fun k => ?_⟩
  rw [h3 k]
  fin_cases k <;> simp

end Verif.Cells.Temp
