import Mathlib.Algebra.BigOperators.Field
import Mathlib.Algebra.BigOperators.Intervals
import Mathlib.Algebra.BigOperators.Ring.Finset
import Mathlib.Algebra.Order.BigOperators.Ring.Finset
import Mathlib.Algebra.Order.Field.Basic
import Mathlib.Algebra.Order.Ring.Rat
import Mathlib.Tactic.Linarith
import Mathlib.Tactic.FieldSimp
import Mathlib.Tactic.Ring
import Mathlib.Tactic.NormNum
import Mathlib.Tactic.LinearCombination

/-!
# C61: Romberg integration

Model of `core/src/Cosmo.h` L33-67. Arithmetic is exact, in any ordered field. `1 << (i-1)` is taken as a power of two (the
code calls `romberg` with `max_steps = 16`, so it fits in an `int`).
-/

namespace Verif.Cosmo

variable {K : Type} [Field K] [LinearOrder K] [IsStrictOrderedRing K]

/-! ### Model -/

/-- A buffer of `max_steps` numbers (L36); `none` has not been written. -/
abbrev Buf (K : Type) := ℕ → Option K

/-- Reading an entry; `none` outside of the buffer or before it is written. -/
def Buf.read {K : Type} (size : ℕ) (R : Buf K) (j : ℕ) : Option K := if j < size then R j else none

/-- Writing an entry; `none` outside of the buffer. -/
def Buf.write {K : Type} (size : ℕ) (R : Buf K) (j : ℕ) (v : K) : Option (Buf K) :=
  if j < size then some (Function.update R j (some v)) else none

/-- What `romberg` does in the end. -/
inductive Out (K : Type) where
  /-- L56: return in step `i`. -/
  | converged (i : ℕ) (v : K)
  /-- L65: `Rc[max_steps]`, which is outside of the buffer, is read for the warning; L66 would return `best`. -/
  | outOfBounds (best : K)
  deriving DecidableEq

/-- L43-47: sum over the new points. -/
def midSum (f : K → K) (a h : K) (ep : ℕ) : K := ∑ j ∈ Finset.range ep, f (a + (2 * (j + 1 : ℕ) - 1) * h)

/-- L50-53, for `j = 1, ..., n`. -/
def extrapolate (size : ℕ) (Rp : Buf K) : ℕ → Buf K → Option (Buf K)
  | 0, Rc => some Rc
  | j + 1, Rc =>
    (extrapolate size Rp j Rc).bind fun Rc =>
      (Rc.read size j).bind fun u =>
        (Rp.read size j).bind fun v =>
          Rc.write size (j + 1) ((4 ^ (j + 1) * u - v) / (4 ^ (j + 1) - 1))

/-- L41-66, from step `i` on, with `max_steps - i` steps left. -/
def rombergLoop (size : ℕ) (f : K → K) (a acc : K) : ℕ → ℕ → K → Buf K → Buf K → Option (Out K)
  | 0, _, _, Rp, _ => (Rp.read size (size - 1)).map Out.outOfBounds
  | left + 1, i, h, Rp, Rc =>
    let h := h / 2
    let c := midSum f a h (2 ^ (i - 1))
    (Rp.read size 0).bind fun r =>
      (Rc.write size 0 (h * c + 1 / 2 * r)).bind fun Rc =>
        (extrapolate size Rp i Rc).bind fun Rc =>
          if 1 < i then
            (Rp.read size (i - 1)).bind fun p =>
              (Rc.read size i).bind fun q =>
                if |p - q| < acc then some (.converged i q) else rombergLoop size f a acc left (i + 1) h Rc Rp
          else rombergLoop size f a acc left (i + 1) h Rc Rp

/-- L33-67. -/
def romberg (f : K → K) (a b : K) (maxSteps : ℕ) (acc : K) : Option (Out K) :=
  (Buf.write maxSteps (fun _ => none) 0 ((f a + f b) * (b - a) * (1 / 2))).bind fun Rp =>
    rombergLoop maxSteps f a acc (maxSteps - 1) 1 (b - a) Rp fun _ => none

/-! ### Specification -/

/-- Trapezoidal rule with `n` intervals of equal length. -/
def trapezoid (f : K → K) (a b : K) (n : ℕ) : K :=
  ∑ k ∈ Finset.range n, (f (a + k * ((b - a) / n)) + f (a + (k + 1 : ℕ) * ((b - a) / n))) / 2 * ((b - a) / n)

/-- Romberg's table: Richardson extrapolation of the trapezoidal rules with `2^i` intervals; used for `j ≤ i`. -/
def table (f : K → K) (a b : K) : ℕ → ℕ → K
  | i, 0 => trapezoid f a b (2 ^ i)
  | i, j + 1 => (4 ^ (j + 1) * table f a b i j - table f a b (i - 1) j) / (4 ^ (j + 1) - 1)

/-- The stopping criterion: two diagonal entries of the table differ by less than `acc`. -/
def Stops (f : K → K) (a b acc : K) (k : ℕ) : Prop :=
  2 ≤ k ∧ |table f a b (k - 1) (k - 1) - table f a b k k| < acc

/-! ### Halving the intervals -/

omit [LinearOrder K] [IsStrictOrderedRing K] in
theorem sum_pairs (g : ℕ → K) (n : ℕ) : ∑ k ∈ Finset.range (2 * n), (g k + g (k + 1)) =
    ∑ k ∈ Finset.range n, (g (2 * k) + g (2 * (k + 1))) + 2 * ∑ k ∈ Finset.range n, g (2 * k + 1) := by
  induction n with
  | zero => simp
  | succ n ih =>
    rw [show 2 * (n + 1) = 2 * n + 1 + 1 from by ring, Finset.sum_range_succ, Finset.sum_range_succ, ih,
      Finset.sum_range_succ, Finset.sum_range_succ, show 2 * (n + 1) = 2 * n + 1 + 1 from by ring]
    ring

/-- Points of the finer rule. -/
theorem trapezoid_double (f : K → K) (a b : K) {n : ℕ} (hn : 0 < n) :
    trapezoid f a b (2 * n) = 1 / 2 * trapezoid f a b n + (b - a) / n / 2 * midSum f a ((b - a) / n / 2) n := by
  have hn' : (n : K) ≠ 0 := by exact_mod_cast hn.ne'
  have hh : (b - a) / ((2 * n : ℕ) : K) = (b - a) / n / 2 := by
    push_cast
    field_simp
  unfold trapezoid midSum
  rw [hh]
  generalize hH : (b - a) / (n : K) = H
  rw [← Finset.sum_mul, ← Finset.sum_mul, ← Finset.sum_div, ← Finset.sum_div,
    sum_pairs (fun k : ℕ => f (a + k * (H / 2))) n]
  have e1 : ∀ k : ℕ, f (a + ((2 * k : ℕ) : K) * (H / 2)) = f (a + k * H) := fun k => by
    congr 1
    push_cast
    ring
  have e2 : ∀ k : ℕ, f (a + ((2 * k + 1 : ℕ) : K) * (H / 2)) = f (a + (2 * (k + 1 : ℕ) - 1) * (H / 2)) := fun k => by
    congr 1
    push_cast
    ring
  simp only [e1, e2]
  ring

theorem table_succ (f : K → K) (a b : K) (i : ℕ) : table f a b (i + 1) 0 =
    1 / 2 * table f a b i 0 + (b - a) / 2 ^ (i + 1) * midSum f a ((b - a) / 2 ^ (i + 1)) (2 ^ i) := by
  have h := trapezoid_double f a b (n := 2 ^ i) (by positivity)
  have e : (b - a) / ((2 ^ i : ℕ) : K) / 2 = (b - a) / 2 ^ (i + 1) := by
    push_cast
    rw [pow_succ]
    field_simp
  rw [e] at h
  unfold table
  rw [pow_succ, mul_comm (2 ^ i) 2]
  exact h

/-! ### The result -/

omit [LinearOrder K] [IsStrictOrderedRing K] in
theorem extrapolate_spec {size : ℕ} (f : K → K) (a b : K) {i : ℕ} (hi : i + 1 < size) {Rp Rc : Buf K}
    (hp : ∀ j ≤ i, Rp j = some (table f a b i j)) (h0 : Rc 0 = some (table f a b (i + 1) 0)) :
    ∀ n ≤ i + 1, ∃ R, extrapolate size Rp n Rc = some R ∧ ∀ j ≤ n, R j = some (table f a b (i + 1) j)
  | 0, _ => ⟨Rc, rfl, fun j hj => by rw [Nat.le_zero.1 hj]; exact h0⟩
  | n + 1, hn => by
    obtain ⟨R, h1, h2⟩ := extrapolate_spec f a b hi hp h0 n (by omega)
    refine ⟨Function.update R (n + 1) (some (table f a b (i + 1) (n + 1))), ?_, fun j hj => ?_⟩
    · unfold extrapolate
      rw [h1, Option.bind_some]
      unfold Buf.read Buf.write
      rw [if_pos (by omega), if_pos (by omega), h2 n le_rfl, hp n (by omega), Option.bind_some, Option.bind_some,
        if_pos (by omega)]
      rfl
    · rcases Nat.lt_or_ge j (n + 1) with h | h
      · rw [Function.update_of_ne (by omega)]
        exact h2 j (by omega)
      · rw [show j = n + 1 by omega, Function.update_self]

theorem loop_spec {size : ℕ} (f : K → K) (a b acc : K) : ∀ (left i : ℕ) (Rp Rc : Buf K), i + 1 + left = size →
    (∀ j ≤ i, Rp j = some (table f a b i j)) → (∀ k ≤ i, ¬ Stops f a b acc k) →
    (∃ k < size, Stops f a b acc k ∧ (∀ m < k, ¬ Stops f a b acc m) ∧
      rombergLoop size f a acc left (i + 1) ((b - a) / 2 ^ i) Rp Rc = some (.converged k (table f a b k k))) ∨
    ((∀ k < size, ¬ Stops f a b acc k) ∧ rombergLoop size f a acc left (i + 1) ((b - a) / 2 ^ i) Rp Rc =
      some (.outOfBounds (table f a b (size - 1) (size - 1))))
  | 0, i, Rp, Rc, hs, hp, hn => by
    right
    refine ⟨fun k hk => hn k (by omega), ?_⟩
    unfold rombergLoop Buf.read
    rw [if_pos (by omega), show size - 1 = i by omega, hp i le_rfl]
    rfl
  | left + 1, i, Rp, Rc, hs, hp, hn => by
    unfold rombergLoop
    dsimp only
    have eh : (b - a) / 2 ^ i / 2 = (b - a) / 2 ^ (i + 1) := by rw [pow_succ]; field_simp
    obtain ⟨R, h1, h2⟩ := extrapolate_spec (size := size) f a b (i := i) (by omega) hp
      (Rc := Function.update Rc 0 (some (table f a b (i + 1) 0))) (by rw [Function.update_self]) (i + 1) le_rfl
    have ht : (b - a) / 2 ^ (i + 1) * midSum f a ((b - a) / 2 ^ (i + 1)) (2 ^ i) + 1 / 2 * table f a b i 0 =
        table f a b (i + 1) 0 := by rw [table_succ]; ring
    have er : Rp.read size 0 = some (table f a b i 0) := by
      unfold Buf.read
      rw [if_pos (by omega), hp 0 (Nat.zero_le _)]
    have ew : Buf.write size Rc 0 (table f a b (i + 1) 0) = some (Function.update Rc 0 (some (table f a b (i + 1) 0))) := by
      unfold Buf.write
      rw [if_pos (by omega)]
    have e1 : Rp.read size i = some (table f a b i i) := by
      unfold Buf.read
      rw [if_pos (by omega), hp i le_rfl]
    have e2 : R.read size (i + 1) = some (table f a b (i + 1) (i + 1)) := by
      unfold Buf.read
      rw [if_pos (by omega), h2 _ le_rfl]
    rw [er, Option.bind_some, eh, Nat.add_sub_cancel, ht, ew, Option.bind_some, h1, Option.bind_some, e1, e2, Option.bind_some,
      Option.bind_some]
    by_cases hst : Stops f a b acc (i + 1)
    · left
      refine ⟨i + 1, by omega, hst, fun m hm => hn m (by omega), ?_⟩
      rw [if_pos (by have := hst.1; omega : 1 < i + 1), if_pos (by have := hst.2; rwa [Nat.add_sub_cancel] at this)]
    · have ih := loop_spec (size := size) f a b acc left (i + 1) R Rp (by omega) h2 (fun k hk => by
        rcases Nat.eq_or_lt_of_le hk with rfl | hk
        · exact hst
        · exact hn k (by omega))
      by_cases h1i : 1 < i + 1
      · have hns : ¬ |table f a b i i - table f a b (i + 1) (i + 1)| < acc := fun h =>
          hst ⟨by omega, by rwa [Nat.add_sub_cancel]⟩
        rw [if_pos h1i, if_neg hns]
        exact ih
      · rw [if_neg h1i]
        exact ih

/-- C61 (result): `romberg` works in its buffers and returns the first diagonal entry of Romberg's table at which the
criterion holds. If there is none among the steps it reads `Rc[max_steps]`. -/
theorem C61_result (f : K → K) (a b acc : K) {maxSteps : ℕ} (hm : 1 ≤ maxSteps) :
    (∃ k < maxSteps, Stops f a b acc k ∧ (∀ m < k, ¬ Stops f a b acc m) ∧
      romberg f a b maxSteps acc = some (.converged k (table f a b k k))) ∨
    ((∀ k < maxSteps, ¬ Stops f a b acc k) ∧
      romberg f a b maxSteps acc = some (.outOfBounds (table f a b (maxSteps - 1) (maxSteps - 1)))) := by
  have h := loop_spec (size := maxSteps) f a b acc (maxSteps - 1) 0
    (Function.update (fun _ => none) 0 (some ((f a + f b) * (b - a) * (1 / 2)))) (fun _ => none) (by omega) (fun j hj => by
      rw [Nat.le_zero.1 hj, Function.update_self]
      congr 1
      unfold table trapezoid
      simp
      ring) (fun k hk h => by have := h.1; omega)
  rw [pow_zero, div_one] at h
  unfold romberg Buf.write
  rw [if_pos (by omega), Option.bind_some]
  exact h

/-! ### Sign -/

theorem point_mem {a b : K} (hab : a ≤ b) {t : K} (h0 : 0 ≤ t) (h1 : t ≤ 1) :
    a ≤ a + t * (b - a) ∧ a + t * (b - a) ≤ b := by
  constructor <;> nlinarith

theorem trapezoid_pos {f : K → K} {a b : K} (hab : a < b) (hf : ∀ x, a ≤ x → x ≤ b → 0 < f x) {n : ℕ} (hn : 0 < n) :
    0 < trapezoid f a b n := by
  have hn' : (0 : K) < n := by exact_mod_cast hn
  have hpt : ∀ k ≤ n, 0 < f (a + (k : K) * ((b - a) / n)) := fun k hk => by
    have hk' : (k : K) ≤ n := by exact_mod_cast hk
    have e : (k : K) * ((b - a) / n) = k / n * (b - a) := by ring
    rw [e]
    have := point_mem hab.le (t := (k : K) / n) (by positivity) (by rw [div_le_one hn']; exact hk')
    exact hf _ this.1 this.2
  have hh : 0 < (b - a) / n := div_pos (sub_pos.2 hab) hn'
  unfold trapezoid
  apply Finset.sum_pos
  · intro k hk
    have hk := Finset.mem_range.1 hk
    have h1 := hpt k hk.le
    have h2 := hpt (k + 1) hk
    positivity
  · exact ⟨0, Finset.mem_range.2 hn⟩

theorem midSum_nonneg {f : K → K} {a b : K} (hab : a < b) (hf : ∀ x, a ≤ x → x ≤ b → 0 < f x) (i : ℕ) :
    0 ≤ midSum f a ((b - a) / 2 ^ (i + 1)) (2 ^ i) := by
  unfold midSum
  apply Finset.sum_nonneg
  intro j hj
  have hj : j < 2 ^ i := Finset.mem_range.1 hj
  have e : (2 * ((j + 1 : ℕ) : K) - 1) * ((b - a) / 2 ^ (i + 1)) = (2 * ((j + 1 : ℕ) : K) - 1) / 2 ^ (i + 1) * (b - a) := by
    ring
  rw [e]
  have hj' : ((j + 1 : ℕ) : K) ≤ 2 ^ i := by exact_mod_cast hj
  have h1 : (1 : K) ≤ ((j + 1 : ℕ) : K) := by exact_mod_cast Nat.succ_le_succ (Nat.zero_le j)
  have := point_mem hab.le (t := (2 * ((j + 1 : ℕ) : K) - 1) / 2 ^ (i + 1)) (div_nonneg (by linarith) (by positivity)) (by
    rw [div_le_one (by positivity), pow_succ]
    linarith)
  exact (hf _ this.1 this.2).le

/-- Entries of a column are positive and do not fall too fast. -/
theorem table_growth {f : K → K} {a b : K} (hab : a < b) (hf : ∀ x, a ≤ x → x ≤ b → 0 < f x) : ∀ j i, j ≤ i →
    0 < table f a b i j ∧ (1 / 6 + 1 / (3 * 4 ^ j)) * table f a b i j ≤ table f a b (i + 1) j
  | 0, i, _ => by
    refine ⟨trapezoid_pos hab hf (by positivity), ?_⟩
    rw [table_succ]
    have h1 := midSum_nonneg hab hf i
    have h2 : 0 ≤ (b - a) / 2 ^ (i + 1) := div_nonneg (sub_nonneg.2 hab.le) (by positivity)
    have := mul_nonneg h2 h1
    rw [pow_zero]
    linarith
  | j + 1, i, hji => by
    obtain ⟨m, rfl⟩ : ∃ m, i = m + 1 := ⟨i - 1, by omega⟩
    obtain ⟨p0, g0⟩ := table_growth hab hf j m (by omega)
    obtain ⟨p1, g1⟩ := table_growth hab hf j (m + 1) (by omega)
    have e1 : table f a b (m + 1) (j + 1) =
        (4 ^ (j + 1) * table f a b (m + 1) j - table f a b m j) / (4 ^ (j + 1) - 1) := rfl
    have e2 : table f a b (m + 1 + 1) (j + 1) =
        (4 ^ (j + 1) * table f a b (m + 1 + 1) j - table f a b (m + 1) j) / (4 ^ (j + 1) - 1) := rfl
    rw [e1, e2]
    generalize table f a b m j = r0 at *
    generalize table f a b (m + 1) j = r1 at *
    generalize table f a b (m + 1 + 1) j = r2 at *
    have hq : (4 : K) ^ (j + 1) = 4 * 4 ^ j := by ring
    have hQ : (1 : K) ≤ 4 ^ j := one_le_pow₀ (by norm_num)
    rw [hq]
    generalize (4 : K) ^ j = Q at *
    have hQ0 : 0 < Q := by linarith
    have hden : 0 < 4 * Q - 1 := by linarith
    have k0 : (Q / 6 + 1 / 3) * r0 ≤ Q * r1 := by
      have := mul_le_mul_of_nonneg_left g0 hQ0.le
      have e : Q * ((1 / 6 + 1 / (3 * Q)) * r0) = (Q / 6 + 1 / 3) * r0 := by field_simp
      linarith
    have k1 : (Q / 6 + 1 / 3) * r1 ≤ Q * r2 := by
      have := mul_le_mul_of_nonneg_left g1 hQ0.le
      have e : Q * ((1 / 6 + 1 / (3 * Q)) * r1) = (Q / 6 + 1 / 3) * r1 := by field_simp
      linarith
    have hr : 0 < 4 * Q * r1 - r0 := by nlinarith
    refine ⟨div_pos hr hden, ?_⟩
    rw [← mul_div_assoc]
    apply div_le_div_of_nonneg_right _ hden.le
    have e : (1 / 6 + 1 / (3 * (4 * Q))) * (4 * Q * r1 - r0) = (2 * Q / 3 + 1 / 3) * r1 - (1 / 6 + 1 / (12 * Q)) * r0 := by
      field_simp
      ring
    have h3 : 0 ≤ (1 / 6 + 1 / (12 * Q)) * r0 := by positivity
    rw [e]
    nlinarith

/-- C61 (sign): for a positive function every entry of the table is positive; all weights of Romberg's rules are positive. -/
theorem C61_pos {f : K → K} {a b : K} (hab : a < b) (hf : ∀ x, a ≤ x → x ≤ b → 0 < f x) {i j : ℕ} (hji : j ≤ i) :
    0 < table f a b i j := (table_growth hab hf j i hji).1

/-! ### Linearity and orientation -/

theorem table_sub (f g : K → K) (a b : K) : ∀ j i,
    table (fun x => f x - g x) a b i j = table f a b i j - table g a b i j
  | 0, i => by
    unfold table trapezoid
    rw [← Finset.sum_sub_distrib]
    exact Finset.sum_congr rfl fun k _ => by ring
  | j + 1, i => by
    unfold table
    rw [table_sub f g a b j i, table_sub f g a b j (i - 1)]
    ring

/-- C61 (order): a larger function has larger entries. -/
theorem C61_mono {f g : K → K} {a b : K} (hab : a < b) (hfg : ∀ x, a ≤ x → x ≤ b → f x < g x) {i j : ℕ} (hji : j ≤ i) :
    table f a b i j < table g a b i j := by
  have := C61_pos (f := fun x => g x - f x) hab (fun x h1 h2 => sub_pos.2 (hfg x h1 h2)) hji
  rw [table_sub] at this
  exact sub_pos.1 this

/-- C61 (orientation): exchanging the limits changes the sign. -/
theorem C61_antisymm (f : K → K) (a b : K) : ∀ j i, table f b a i j = -table f a b i j
  | 0, i => by
    unfold table trapezoid
    generalize hn : 2 ^ i = n
    have hn' : (n : K) ≠ 0 := by
      rw [← hn]
      push_cast
      positivity
    rw [← Finset.sum_neg_distrib, ← Finset.sum_range_reflect]
    apply Finset.sum_congr rfl
    intro k hk
    have hk : k < n := Finset.mem_range.1 hk
    have hc : ((n - 1 - k : ℕ) : K) = n - 1 - k := by
      rw [Nat.cast_sub (by omega), Nat.cast_sub (by omega)]
      push_cast
      ring
    have e1 : b + ((n - 1 - k : ℕ) : K) * ((a - b) / n) = a + ((k + 1 : ℕ) : K) * ((b - a) / n) := by
      rw [hc]
      push_cast
      field_simp
      ring
    have e2 : b + ((n - 1 - k + 1 : ℕ) : K) * ((a - b) / n) = a + (k : K) * ((b - a) / n) := by
      rw [Nat.cast_add, hc]
      push_cast
      field_simp
      ring
    rw [e1, e2]
    ring
  | j + 1, i => by
    unfold table
    rw [C61_antisymm f a b j i, C61_antisymm f a b j (i - 1)]
    ring

/-! ### Disagreement, examples -/

/-- Disagreement: if the criterion is not met, the warning reads one entry past the end of the buffer. For accuracy 0 this
happens for every function. -/
theorem C61_not_converged_fails (f : K → K) (a b : K) {maxSteps : ℕ} (hm : 1 ≤ maxSteps) :
    ∃ best, romberg f a b maxSteps 0 = some (.outOfBounds best) := by
  rcases C61_result f a b 0 hm with ⟨k, -, h, -⟩ | ⟨-, h⟩
  · exact absurd h.2 (not_lt.2 (abs_nonneg _))
  · exact ⟨_, h⟩

/-- A function for which 3 steps are too few for accuracy 1/1000. -/
example : romberg (fun x : ℚ => 1 / x) 1 4 3 (1 / 1000) = some (.outOfBounds (25287 / 18200)) := by decide +kernel

/-- Accuracy 1/10 is reached in step 2. -/
example : romberg (fun x : ℚ => 1 / x) 1 4 3 (1 / 10) = some (.converged 2 (25287 / 18200)) := by decide +kernel

example : 0 < table (fun x : ℚ => 1 / x) 1 4 2 2 := C61_pos (by norm_num) (fun x h _ => by positivity) le_rfl

end Verif.Cosmo
