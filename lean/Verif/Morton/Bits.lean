import Mathlib.Tactic.IntervalCases
import Verif.Morton.Model

/-!
# Bit-level description of the magic-bit functions

Every output bit of the split and extract functions is computed symbolically.
-/

namespace Verif.Morton

theorem splitBy3_bit (a : BitVec 32) (j : Nat) (hj : j < 64) :
    (splitBy3 a).getLsbD j = (decide (j % 3 = 0) && decide (j < 63) && a.getLsbD (j / 3)) := by
  interval_cases j <;> simp [splitBy3]

theorem splitBy2_bit (a : BitVec 32) (j : Nat) (hj : j < 64) :
    (splitBy2 a).getLsbD j = (decide (j % 2 = 0) && a.getLsbD (j / 2)) := by
  interval_cases j <;> simp [splitBy2]

theorem extract3_bit (c : Nat) (k : BitVec 64) (i : Nat) (hi : i < 32) :
    (extract3 c k).getLsbD i = (decide (i < 21) && k.getLsbD (c + 3 * i)) := by
  interval_cases i <;> simp [extract3]

theorem extract2_bit (c : Nat) (k : BitVec 64) (i : Nat) (hi : i < 32) :
    (extract2 c k).getLsbD i = k.getLsbD (c + 2 * i) := by
  interval_cases i <;> simp [extract2]

end Verif.Morton
