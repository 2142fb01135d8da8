import Verif.Morton.Bits
import Verif.Morton.Spec
import Mathlib.Tactic.FinCases

/-!
# The machine-word Morton keys are the Z-order keys
-/

namespace Verif.Morton

theorem digit3_testBit (p : Fin 3 → ℕ) (j : ℕ) (hj : j < 3) :
    (digit p).testBit j = (p ⟨j, hj⟩).testBit 0 := by
  have e : digit p = p 0 % 2 * 1 + p 1 % 2 * 2 + p 2 % 2 * 4 := by
    simp [digit, Fin.sum_univ_three]
  rw [e]
  have h0 := Nat.mod_two_eq_zero_or_one (p 0)
  have h1 := Nat.mod_two_eq_zero_or_one (p 1)
  have h2 := Nat.mod_two_eq_zero_or_one (p 2)
  interval_cases j <;> rcases h0 with a | a <;> rcases h1 with b | b <;> rcases h2 with c | c <;>
    simp [a, b, c] <;> decide

theorem digit2_testBit (p : Fin 2 → ℕ) (j : ℕ) (hj : j < 2) :
    (digit p).testBit j = (p ⟨j, hj⟩).testBit 0 := by
  have e : digit p = p 0 % 2 * 1 + p 1 % 2 * 2 := by
    simp [digit, Fin.sum_univ_two]
  rw [e]
  have h0 := Nat.mod_two_eq_zero_or_one (p 0)
  have h1 := Nat.mod_two_eq_zero_or_one (p 1)
  interval_cases j <;> rcases h0 with a | a <;> rcases h1 with b | b <;>
    simp [a, b] <;> decide

theorem zkey3_testBit (n : ℕ) (p : Fin 3 → ℕ) (j : ℕ) :
    (zkey 3 3 n p).testBit j =
      (decide (j < 3 * n) && (p ⟨j % 3, Nat.mod_lt _ (by norm_num)⟩).testBit (j / 3)) := by
  induction n generalizing p j with
  | zero => simp [zkey]
  | succ n ih =>
    simp only [zkey]
    rw [Nat.testBit_two_pow_mul_add _ (digit_lt p)]
    split
    · rename_i h
      rw [digit3_testBit p j h]
      have h1 : j / 3 = 0 := by omega
      have h2 : j < 3 * (n + 1) := by omega
      simp [h1, h2, Nat.mod_eq_of_lt h]
    · rename_i h
      rw [ih]
      have h1 : j / 3 = (j - 3) / 3 + 1 := by omega
      have h2 : (j - 3) % 3 = j % 3 := by omega
      have h3 : (j - 3 < 3 * n) ↔ (j < 3 * (n + 1)) := by omega
      simp only [h1, h2, Nat.testBit_succ, h3]

theorem zkey2_testBit (n : ℕ) (p : Fin 2 → ℕ) (j : ℕ) :
    (zkey 2 2 n p).testBit j =
      (decide (j < 2 * n) && (p ⟨j % 2, Nat.mod_lt _ (by norm_num)⟩).testBit (j / 2)) := by
  induction n generalizing p j with
  | zero => simp [zkey]
  | succ n ih =>
    simp only [zkey]
    rw [Nat.testBit_two_pow_mul_add _ (digit_lt p)]
    split
    · rename_i h
      rw [digit2_testBit p j h]
      have h1 : j / 2 = 0 := by omega
      have h2 : j < 2 * (n + 1) := by omega
      simp [h1, h2, Nat.mod_eq_of_lt h]
    · rename_i h
      rw [ih]
      have h1 : j / 2 = (j - 2) / 2 + 1 := by omega
      have h2 : (j - 2) % 2 = j % 2 := by omega
      have h3 : (j - 2 < 2 * n) ↔ (j < 2 * (n + 1)) := by omega
      simp only [h1, h2, Nat.testBit_succ, h3]

theorem mortonKey3_bit (x y z : BitVec 32) (j : ℕ) (hj : j < 63) :
    (mortonKey3 x y z).getLsbD j =
      ((![x, y, z] : Fin 3 → BitVec 32) ⟨j % 3, Nat.mod_lt _ (by norm_num)⟩).getLsbD (j / 3) := by
  have hx := splitBy3_bit x j (by omega)
  have hy := splitBy3_bit y (j - 1) (by omega)
  have hz := splitBy3_bit z (j - 2) (by omega)
  simp only [mortonKey3, BitVec.getLsbD_or, BitVec.getLsbD_shiftLeft, hx, hy, hz]
  have h64 : j < 64 := by omega
  have hr : j % 3 = 0 ∨ j % 3 = 1 ∨ j % 3 = 2 := by omega
  rcases hr with h | h | h
  · have e : (⟨j % 3, Nat.mod_lt _ (by norm_num)⟩ : Fin 3) = 0 := Fin.ext h
    rw [e]
    have a1 : (j - 1) % 3 = 0 → j < 1 := by omega
    have a2 : (j - 2) % 3 = 0 → j < 2 := by omega
    by_cases c1 : (j - 1) % 3 = 0 <;> by_cases c2 : (j - 2) % 3 = 0 <;> simp_all
  · have e : (⟨j % 3, Nat.mod_lt _ (by norm_num)⟩ : Fin 3) = 1 := Fin.ext h
    rw [e]
    have a1 : (j - 1) % 3 = 0 := by omega
    have a2 : (j - 2) % 3 = 0 → j < 2 := by omega
    have a3 : (j - 1) / 3 = j / 3 := by omega
    have a4 : ¬ j < 1 := by omega
    have a5 : j - 1 < 63 := by omega
    by_cases c2 : (j - 2) % 3 = 0 <;> simp_all
  · have e : (⟨j % 3, Nat.mod_lt _ (by norm_num)⟩ : Fin 3) = 2 := Fin.ext h
    rw [e]
    have a1 : ¬ (j - 1) % 3 = 0 := by omega
    have a2 : (j - 2) % 3 = 0 := by omega
    have a3 : (j - 2) / 3 = j / 3 := by omega
    have a4 : ¬ j < 2 := by omega
    have a5 : j - 2 < 63 := by omega
    simp_all

theorem mortonKey2_bit (x y : BitVec 32) (j : ℕ) (hj : j < 64) :
    (mortonKey2 x y).getLsbD j =
      ((![x, y] : Fin 2 → BitVec 32) ⟨j % 2, Nat.mod_lt _ (by norm_num)⟩).getLsbD (j / 2) := by
  have hx := splitBy2_bit x j (by omega)
  have hy := splitBy2_bit y (j - 1) (by omega)
  simp only [mortonKey2, BitVec.getLsbD_or, BitVec.getLsbD_shiftLeft, hx, hy]
  rcases Nat.mod_two_eq_zero_or_one j with h | h
  · have e : (⟨j % 2, Nat.mod_lt _ (by norm_num)⟩ : Fin 2) = 0 := Fin.ext h
    rw [e]
    have a1 : (j - 1) % 2 = 0 → j < 1 := by omega
    by_cases c1 : (j - 1) % 2 = 0 <;> simp_all
  · have e : (⟨j % 2, Nat.mod_lt _ (by norm_num)⟩ : Fin 2) = 1 := Fin.ext h
    rw [e]
    have a1 : (j - 1) % 2 = 0 := by omega
    have a3 : (j - 1) / 2 = j / 2 := by omega
    have a4 : ¬ j < 1 := by omega
    simp_all

theorem splitBy3_bit63 (a : BitVec 32) : (splitBy3 a).getLsbD 63 = false := by
  rw [splitBy3_bit _ _ (by norm_num)]; simp

theorem mortonKey3_bit63 (x y z : BitVec 32) : (mortonKey3 x y z).getLsbD 63 = false := by
  have hx := splitBy3_bit x 63 (by norm_num)
  have hy := splitBy3_bit y 62 (by norm_num)
  have hz := splitBy3_bit z 61 (by norm_num)
  simp only [mortonKey3, BitVec.getLsbD_or, BitVec.getLsbD_shiftLeft, hx, hy, hz]
  simp

/-- The 3D machine key is the Z-order key, for all coordinates below `2^21`
(higher bits are dropped by the code). -/
theorem mortonKey3_toNat (x y z : BitVec 32) :
    (mortonKey3 x y z).toNat = zkey 3 3 21 ![x.toNat, y.toNat, z.toNat] := by
  apply Nat.eq_of_testBit_eq
  intro j
  rw [zkey3_testBit, BitVec.testBit_toNat]
  rcases Nat.lt_or_ge j 63 with h | h
  · rw [mortonKey3_bit x y z j h]
    have h2 : j < 3 * 21 := by omega
    have hr : j % 3 = 0 ∨ j % 3 = 1 ∨ j % 3 = 2 := by omega
    simp only [h2, decide_true, Bool.true_and]
    rcases hr with h | h | h
    · have e : (⟨j % 3, Nat.mod_lt _ (by norm_num)⟩ : Fin 3) = 0 := Fin.ext h
      rw [e]; simp [BitVec.testBit_toNat]
    · have e : (⟨j % 3, Nat.mod_lt _ (by norm_num)⟩ : Fin 3) = 1 := Fin.ext h
      rw [e]; simp [BitVec.testBit_toNat]
    · have e : (⟨j % 3, Nat.mod_lt _ (by norm_num)⟩ : Fin 3) = 2 := Fin.ext h
      rw [e]; simp [BitVec.testBit_toNat]
  · have h2 : ¬ j < 3 * 21 := by omega
    simp only [h2, decide_false, Bool.false_and]
    rcases Nat.eq_or_lt_of_le h with h3 | h3
    · rw [← h3]; exact mortonKey3_bit63 x y z
    · exact BitVec.getLsbD_of_ge _ _ h3

/-- The 2D machine key is the Z-order key. -/
theorem mortonKey2_toNat (x y : BitVec 32) :
    (mortonKey2 x y).toNat = zkey 2 2 32 ![x.toNat, y.toNat] := by
  apply Nat.eq_of_testBit_eq
  intro j
  rw [zkey2_testBit, BitVec.testBit_toNat]
  rcases Nat.lt_or_ge j 64 with h | h
  · rw [mortonKey2_bit x y j h]
    have h2 : j < 2 * 32 := by omega
    simp only [h2, decide_true, Bool.true_and]
    rcases Nat.mod_two_eq_zero_or_one j with h | h
    · have e : (⟨j % 2, Nat.mod_lt _ (by norm_num)⟩ : Fin 2) = 0 := Fin.ext h
      rw [e]; simp [BitVec.testBit_toNat]
    · have e : (⟨j % 2, Nat.mod_lt _ (by norm_num)⟩ : Fin 2) = 1 := Fin.ext h
      rw [e]; simp [BitVec.testBit_toNat]
  · have h2 : ¬ j < 2 * 32 := by omega
    simp only [h2, decide_false, Bool.false_and]
    exact BitVec.getLsbD_of_ge _ _ h

/-- A key with `z = 0` and 3 bits per level is the key of the two first coordinates with 3 bits
per level: this is how the code stores 2D meshes. -/
theorem zkey3_of_2d (n : ℕ) (p : Fin 2 → ℕ) :
    zkey 3 3 n ![p 0, p 1, 0] = zkey 2 3 n p := by
  induction n generalizing p with
  | zero => rfl
  | succ n ih =>
    simp only [zkey]
    have e : (fun c => (![p 0, p 1, 0] : Fin 3 → ℕ) c / 2) =
        ![(fun c => p c / 2) 0, (fun c => p c / 2) 1, 0] := by
      funext c; fin_cases c <;> simp
    rw [e, ih (fun c => p c / 2)]
    congr 1

end Verif.Morton
