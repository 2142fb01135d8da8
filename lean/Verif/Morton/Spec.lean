import Mathlib.Algebra.BigOperators.Fin
import Mathlib.Data.Nat.Bitwise
import Mathlib.Tactic.Ring
import Mathlib.Tactic.Linarith
import Mathlib.Algebra.Order.BigOperators.Group.Finset

/-!
# Z-order keys as natural numbers

`zkey d e n p` interleaves the `n` low bits of the `d` coordinates `p`, giving `e ≥ d` bits to each
level. It is defined by the recursion over the octree levels and does not mention machine words.
The code always uses 3 bits per level, also in 2D, so `e = 3` there.
-/

namespace Verif.Morton

open Finset

/-- Index of the child that contains `p` among the `2^d` children of its parent. -/
def digit {d : ℕ} (p : Fin d → ℕ) : ℕ := ∑ c, (p c % 2) * 2 ^ (c : ℕ)

/-- Z-order key with `e` bits per level and `n` levels. -/
def zkey (d e : ℕ) : ℕ → (Fin d → ℕ) → ℕ
  | 0, _ => 0
  | n + 1, p => 2 ^ e * zkey d e n (fun c => p c / 2) + digit p

theorem digit_lt {d : ℕ} (p : Fin d → ℕ) : digit p < 2 ^ d := by
  induction d with
  | zero => simp [digit]
  | succ d ih =>
    have h := ih (fun c => p c.castSucc)
    unfold digit at *
    rw [Fin.sum_univ_castSucc]
    simp only [Fin.val_castSucc, Fin.val_last] at *
    have h2 : p (Fin.last d) % 2 ≤ 1 := by omega
    have h3 : p (Fin.last d) % 2 * 2 ^ d ≤ 1 * 2 ^ d := Nat.mul_le_mul_right _ h2
    rw [pow_succ]
    omega

theorem digit_inj {d : ℕ} {p q : Fin d → ℕ} (h : digit p = digit q) : ∀ c, p c % 2 = q c % 2 := by
  induction d with
  | zero => intro c; exact c.elim0
  | succ d ih =>
    have hp := digit_lt (fun c : Fin d => p c.castSucc)
    have hq := digit_lt (fun c : Fin d => q c.castSucc)
    have e1 : digit p = digit (fun c : Fin d => p c.castSucc) + p (Fin.last d) % 2 * 2 ^ d := by
      unfold digit; rw [Fin.sum_univ_castSucc]; simp
    have e2 : digit q = digit (fun c : Fin d => q c.castSucc) + q (Fin.last d) % 2 * 2 ^ d := by
      unfold digit; rw [Fin.sum_univ_castSucc]; simp
    rw [e1, e2] at h
    have h2 : p (Fin.last d) % 2 = q (Fin.last d) % 2 := by
      rcases Nat.mod_two_eq_zero_or_one (p (Fin.last d)) with a | a <;>
      rcases Nat.mod_two_eq_zero_or_one (q (Fin.last d)) with b | b <;>
      rw [a, b] at h ⊢ <;> omega
    rw [h2] at h
    have h3 := ih (Nat.add_right_cancel h)
    intro c
    induction c using Fin.lastCases with
    | last => exact h2
    | cast c => exact h3 c

theorem digit_mono {d : ℕ} {p q : Fin d → ℕ} (h : ∀ c, p c % 2 ≤ q c % 2) :
    digit p ≤ digit q := by
  unfold digit
  exact Finset.sum_le_sum (fun c _ => Nat.mul_le_mul_right _ (h c))

theorem digit_lt_e {d e : ℕ} (hde : d ≤ e) (p : Fin d → ℕ) : digit p < 2 ^ e :=
  lt_of_lt_of_le (digit_lt p) (Nat.pow_le_pow_right (by norm_num) hde)

theorem zkey_lt {d e : ℕ} (hde : d ≤ e) (n : ℕ) (p : Fin d → ℕ) :
    zkey d e n p < 2 ^ (e * n) := by
  induction n generalizing p with
  | zero => simp [zkey]
  | succ n ih =>
    have h1 := ih (fun c => p c / 2)
    have h2 := digit_lt_e hde p
    simp only [zkey]
    rw [Nat.mul_succ, pow_add]
    have h3 : zkey d e n (fun c => p c / 2) + 1 ≤ 2 ^ (e * n) := h1
    have h4 := Nat.mul_le_mul_left (2 ^ e) h3
    rw [Nat.mul_comm (2 ^ (e * n))]
    rw [Nat.mul_add] at h4
    omega

theorem zkey_succ_div {d e : ℕ} (hde : d ≤ e) (n : ℕ) (p : Fin d → ℕ) :
    zkey d e (n + 1) p / 2 ^ e = zkey d e n (fun c => p c / 2) := by
  simp only [zkey]
  rw [Nat.mul_add_div (by positivity), Nat.div_eq_of_lt (digit_lt_e hde p), Nat.add_zero]

theorem zkey_succ_mod {d e : ℕ} (hde : d ≤ e) (n : ℕ) (p : Fin d → ℕ) :
    zkey d e (n + 1) p % 2 ^ e = digit p := by
  simp only [zkey]
  rw [Nat.mul_add_mod, Nat.mod_eq_of_lt (digit_lt_e hde p)]

/-- The key of the ancestor `k` levels up is the key with `e*k` bits dropped. -/
theorem zkey_div {d e : ℕ} (hde : d ≤ e) (n k : ℕ) (p : Fin d → ℕ) :
    zkey d e (n + k) p / 2 ^ (e * k) = zkey d e n (fun c => p c / 2 ^ k) := by
  induction k generalizing p with
  | zero => simp
  | succ k ih =>
    have : e * (k + 1) = e + e * k := by ring
    rw [this, pow_add, ← Nat.div_div_eq_div_mul, ← Nat.add_assoc, zkey_succ_div hde, ih]
    congr 1
    funext c
    rw [Nat.div_div_eq_div_mul, pow_succ, Nat.mul_comm]

theorem digit_even {d : ℕ} (p : Fin d → ℕ) : digit (fun c => p c * 2) = 0 := by
  simp [digit]

theorem zkey_mul_pow {d e : ℕ} (n k : ℕ) (p : Fin d → ℕ) :
    zkey d e (n + k) (fun c => p c * 2 ^ k) = zkey d e n p * 2 ^ (e * k) := by
  induction k with
  | zero => simp
  | succ k ih =>
    rw [← Nat.add_assoc]
    simp only [zkey]
    have h1 : (fun c => p c * 2 ^ (k + 1) / 2) = fun c => p c * 2 ^ k := by
      funext c; rw [pow_succ, ← Nat.mul_assoc, Nat.mul_div_cancel _ (by norm_num)]
    have h2 : digit (fun c => p c * 2 ^ (k + 1)) = 0 := by
      have : (fun c => p c * 2 ^ (k + 1)) = fun c => (p c * 2 ^ k) * 2 := by
        funext c; ring
      rw [this, digit_even]
    rw [h1, h2, ih]
    ring

theorem zkey_inj {d e : ℕ} (hde : d ≤ e) (n : ℕ) {p q : Fin d → ℕ}
    (hp : ∀ c, p c < 2 ^ n) (hq : ∀ c, q c < 2 ^ n)
    (h : zkey d e n p = zkey d e n q) : p = q := by
  induction n generalizing p q with
  | zero =>
    funext c
    have := hp c; have := hq c
    simp at *
    omega
  | succ n ih =>
    have h1 : zkey d e n (fun c => p c / 2) = zkey d e n (fun c => q c / 2) := by
      rw [← zkey_succ_div hde, ← zkey_succ_div hde, h]
    have h2 : digit p = digit q := by
      rw [← zkey_succ_mod hde n, ← zkey_succ_mod hde n, h]
    have h3 := ih (fun c => by have := hp c; rw [pow_succ] at this; omega)
      (fun c => by have := hq c; rw [pow_succ] at this; omega) h1
    have h4 := digit_inj h2
    funext c
    have h5 := congrFun h3 c
    have h6 := h4 c
    omega

theorem zkey_mono {d e : ℕ} (hde : d ≤ e) (n : ℕ) {p q : Fin d → ℕ}
    (hq : ∀ c, q c < 2 ^ n) (h : ∀ c, p c ≤ q c) : zkey d e n p ≤ zkey d e n q := by
  induction n generalizing p q with
  | zero => simp [zkey]
  | succ n ih =>
    have hq' : ∀ c, q c / 2 < 2 ^ n := fun c => by have := hq c; rw [pow_succ] at this; omega
    have h1 := ih (p := fun c => p c / 2) (q := fun c => q c / 2) hq'
      (fun c => Nat.div_le_div_right (h c))
    rcases Nat.lt_or_ge (zkey d e n (fun c => p c / 2)) (zkey d e n (fun c => q c / 2)) with h2 | h2
    · simp only [zkey]
      have h3 := Nat.mul_le_mul_left (2 ^ e) h2
      rw [Nat.mul_succ] at h3
      have := digit_lt_e hde p
      omega
    · have h3 := zkey_inj hde n (p := fun c => p c / 2) (q := fun c => q c / 2)
        (fun c => lt_of_le_of_lt (Nat.div_le_div_right (h c)) (hq' c)) hq' (le_antisymm h1 h2)
      simp only [zkey]
      rw [h3]
      have : digit p ≤ digit q := digit_mono (fun c => by
        have h5 := congrFun h3 c
        have h6 := h c
        omega)
      omega

end Verif.Morton
