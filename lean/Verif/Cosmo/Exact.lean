import Verif.Cosmo.Romberg
import Mathlib.NumberTheory.Bernoulli
import Mathlib.Algebra.Polynomial.Derivative
import Mathlib.Algebra.Polynomial.Eval.Degree
import Mathlib.Analysis.Real.Sqrt

/-!
# C61: accuracy of Romberg integration, and the cosmological time step

The trapezoidal rule with `n` intervals, applied to a polynomial, is a polynomial in `1 / n` without odd powers. Each column of
Romberg's table removes one power.
-/

namespace Verif.Cosmo

open Polynomial

variable {K : Type} [Field K] [LinearOrder K] [IsStrictOrderedRing K]

/-! ### Removing powers -/

/-- Columns of the table of a function whose trapezoidal rules have no odd powers. -/
theorem table_powers (f : K → K) (a b : K) (n : ℕ) (c : ℕ → K) (hodd : ∀ i, i % 2 = 1 → c i = 0)
    (h : ∀ i, table f a b i 0 = ∑ k ∈ Finset.range n, c k * (1 / 2 ^ k) ^ i) : ∀ j, ∃ c' : ℕ → K, c' 0 = c 0 ∧
      (∀ k, k % 2 = 1 → c' k = 0) ∧ (∀ k, 1 ≤ k → k ≤ 2 * j → c' k = 0) ∧
      ∀ i, j ≤ i → table f a b i j = ∑ k ∈ Finset.range n, c' k * (1 / 2 ^ k) ^ i
  | 0 => ⟨c, rfl, hodd, fun k h1 h2 => by omega, fun i _ => h i⟩
  | j + 1 => by
    obtain ⟨c', h0, h1, h2, h3⟩ := table_powers f a b n c hodd h j
    have h4 : (1 : K) < 4 ^ (j + 1) := one_lt_pow₀ (by norm_num) (by omega)
    have hne : (4 : K) ^ (j + 1) - 1 ≠ 0 := by
      intro h
      linarith
    refine ⟨fun k => c' k * (4 ^ (j + 1) - 2 ^ k) / (4 ^ (j + 1) - 1), ?_, fun k hk => ?_, fun k hk1 hk2 => ?_, fun i hi => ?_⟩
    · simp only [pow_zero]
      rw [mul_div_assoc, div_self hne, mul_one, h0]
    · simp only
      rw [h1 k hk]
      simp
    · simp only
      rcases Nat.lt_or_ge (2 * j) k with h | h
      · rcases Nat.lt_or_ge k (2 * j + 2) with h' | h'
        · rw [h1 k (by omega)]
          simp
        · rw [show k = 2 * (j + 1) by omega, pow_mul]
          norm_num
      · rw [h2 k hk1 h]
        simp
    · obtain ⟨m, rfl⟩ : ∃ m, i = m + 1 := ⟨i - 1, by omega⟩
      have e : table f a b (m + 1) (j + 1) =
          (4 ^ (j + 1) * table f a b (m + 1) j - table f a b m j) / (4 ^ (j + 1) - 1) := rfl
      rw [e, h3 (m + 1) (by omega), h3 m (by omega), Finset.mul_sum, ← Finset.sum_sub_distrib, Finset.sum_div]
      apply Finset.sum_congr rfl
      intro k _
      have h2k : (2 : K) ^ k ≠ 0 := by positivity
      rw [pow_succ (1 / 2 ^ k : K)]
      field_simp

/-! ### Trapezoidal rule of a polynomial -/

/-- Trapezoidal rule on the unit interval. -/
theorem sum_powers (p n : ℕ) : ∑ k ∈ Finset.range n, ((k : K) ^ p + ((k + 1 : ℕ) : K) ^ p) =
    ∑ i ∈ Finset.range (p + 1), (((1 + (-1) ^ i) * bernoulli' i * (p + 1).choose i : ℚ) : K) * (n : K) ^ (p + 1 - i) /
      (p + 1) := by
  have h : (∑ k ∈ Finset.range n, ((k : ℚ) ^ p + ((k + 1 : ℕ) : ℚ) ^ p)) =
      ∑ i ∈ Finset.range (p + 1), ((1 + (-1) ^ i) * bernoulli' i * (p + 1).choose i : ℚ) * (n : ℚ) ^ (p + 1 - i) /
        (p + 1) := by
    have hI := sum_Ico_pow n p
    rw [Finset.sum_Ico_eq_sum_range, Nat.add_sub_cancel] at hI
    have hI' : ∑ k ∈ Finset.range n, ((k + 1 : ℕ) : ℚ) ^ p = ∑ k ∈ Finset.range n, ((1 + k : ℕ) : ℚ) ^ p :=
      Finset.sum_congr rfl fun k _ => by rw [add_comm]
    rw [Finset.sum_add_distrib, sum_range_pow, hI', hI, ← Finset.sum_add_distrib]
    apply Finset.sum_congr rfl
    intro i _
    unfold bernoulli
    ring
  have h' := congrArg (Rat.cast : ℚ → K) h
  push_cast at h' ⊢
  exact h'

/-- The trapezoidal rules of the derivative of `G` on the unit interval. -/
theorem unit_rule (m : ℕ) (G : K[X]) (hG : G.natDegree < m + 1) : ∃ c : ℕ → K, c 0 = G.eval 1 - G.eval 0 ∧
    (∀ i, i % 2 = 1 → c i = 0) ∧ ∀ n : ℕ, 0 < n →
      ∑ k ∈ Finset.range n, ((derivative G).eval ((k : K) / n) + (derivative G).eval (((k + 1 : ℕ) : K) / n)) / 2 * (1 / n) =
        ∑ i ∈ Finset.range m, c i * (1 / n) ^ i := by
  let P : K[X] → Prop := fun G => ∃ c : ℕ → K, c 0 = G.eval 1 - G.eval 0 ∧
    (∀ i, i % 2 = 1 → c i = 0) ∧ ∀ n : ℕ, 0 < n →
      ∑ k ∈ Finset.range n, ((derivative G).eval ((k : K) / n) + (derivative G).eval (((k + 1 : ℕ) : K) / n)) / 2 * (1 / n) =
        ∑ i ∈ Finset.range m, c i * (1 / n) ^ i
  change P G
  rw [G.as_sum_range' (m + 1) hG]
  refine Finset.sum_induction _ P ?_ ?_ ?_
  · rintro A B ⟨c, c0, c1, c2⟩ ⟨e, e0, e1, e2⟩
    refine ⟨fun i => c i + e i, ?_, fun i hi => ?_, fun n hn => ?_⟩
    · simp only [c0, e0, eval_add]
      ring
    · simp only [c1 i hi, e1 i hi, add_zero]
    · simp only [add_mul, Finset.sum_add_distrib]
      rw [← c2 n hn, ← e2 n hn, ← Finset.sum_add_distrib]
      apply Finset.sum_congr rfl
      intro k _
      simp only [derivative_add, eval_add]
      ring
  · exact ⟨fun _ => 0, by simp, fun _ _ => rfl, fun n _ => by simp⟩
  · intro q hq
    have hq := Finset.mem_range.1 hq
    generalize G.coeff q = g
    cases q with
    | zero => exact ⟨fun _ => 0, by simp, fun _ _ => rfl, fun n _ => by simp⟩
    | succ p =>
      refine ⟨fun i => if i < p + 1 then g * (((1 + (-1) ^ i) * bernoulli' i * (p + 1).choose i : ℚ) : K) / 2 else 0, ?_,
        fun i hi => ?_, fun n hn => ?_⟩
      · simp
        norm_num
      · have : (-1 : ℚ) ^ i = -1 := Odd.neg_one_pow (Nat.odd_iff.2 hi)
        simp [this]
      · have hn' : (n : K) ≠ 0 := by exact_mod_cast hn.ne'
        have hp : ((p : K) + 1) ≠ 0 := by positivity
        have hs := sum_powers (K := K) p n
        have e : ∀ x : K, (derivative (monomial (p + 1) g)).eval (x / n) = g * (p + 1) / (n : K) ^ p * x ^ p := fun x => by
          rw [derivative_monomial, eval_monomial, Nat.add_sub_cancel, div_pow]
          push_cast
          ring
        simp only [e]
        have e2 : ∑ k ∈ Finset.range n, (g * (p + 1) / (n : K) ^ p * (k : K) ^ p +
            g * (p + 1) / (n : K) ^ p * ((k + 1 : ℕ) : K) ^ p) / 2 * (1 / n) =
            g * (p + 1) / (n : K) ^ p / 2 * (1 / n) * ∑ k ∈ Finset.range n, ((k : K) ^ p + ((k + 1 : ℕ) : K) ^ p) := by
          rw [Finset.mul_sum]
          exact Finset.sum_congr rfl fun k _ => by ring
        rw [e2, hs, Finset.mul_sum]
        rw [← Finset.sum_subset (Finset.range_subset_range.2 (show p + 1 ≤ m by omega))]
        · apply Finset.sum_congr rfl
          intro i hi
          have hi := Finset.mem_range.1 hi
          rw [if_pos hi]
          have hpow : (n : K) ^ (p + 1) = (n : K) ^ (p + 1 - i) * (n : K) ^ i := by
            rw [← pow_add]
            congr 1
            omega
          generalize (((1 + (-1) ^ i) * bernoulli' i * (p + 1).choose i : ℚ) : K) = B
          have hX : (n : K) ^ (p + 1 - i) = (n : K) ^ p * n / (n : K) ^ i := by
            rw [eq_div_iff (by positivity), ← hpow, pow_succ]
          rw [hX, one_div, inv_pow]
          field_simp
        · intro i _ hi
          rw [if_neg (by simpa using hi), zero_mul]

/-- C61 (accuracy): column `j` integrates polynomials up to degree `2 j + 1` exactly. The integral of `F'` is the difference of
`F`. -/
theorem C61_exact (F : K[X]) (a b : K) {i j : ℕ} (hji : j ≤ i) (hdeg : F.natDegree ≤ 2 * j + 2) :
    table (fun x => (derivative F).eval x) a b i j = F.eval b - F.eval a := by
  set L : K[X] := C a + C (b - a) * X with hL
  have hLd : L.natDegree ≤ 1 := by
    rw [hL]
    refine (natDegree_add_le _ _).trans (max_le ?_ ?_)
    · rw [natDegree_C]
      exact Nat.zero_le _
    · exact (natDegree_C_mul_le _ _).trans natDegree_X_le
  have hGd : (F.comp L).natDegree < 2 * j + 2 + 1 := by
    refine lt_of_le_of_lt natDegree_comp_le ?_
    nlinarith
  obtain ⟨c, c0, c1, c2⟩ := unit_rule (2 * j + 2) (F.comp L) hGd
  have hLe : ∀ t, L.eval t = a + (b - a) * t := fun t => by simp [hL]
  have hder : ∀ t, (derivative (F.comp L)).eval t = (b - a) * (derivative F).eval (a + (b - a) * t) := fun t => by
    rw [derivative_comp, eval_mul, eval_comp, hLe]
    congr 1
    simp [hL]
  have h0 : ∀ i, table (fun x => (derivative F).eval x) a b i 0 =
      ∑ k ∈ Finset.range (2 * j + 2), c k * (1 / 2 ^ k) ^ i := fun i => by
    have hn : 0 < 2 ^ i := by positivity
    have h := c2 (2 ^ i) hn
    have hr : ∑ k ∈ Finset.range (2 * j + 2), c k * (1 / 2 ^ k) ^ i =
        ∑ k ∈ Finset.range (2 * j + 2), c k * (1 / ((2 ^ i : ℕ) : K)) ^ k := by
      apply Finset.sum_congr rfl
      intro k _
      push_cast
      rw [one_div, one_div, inv_pow, inv_pow, ← pow_mul, ← pow_mul, Nat.mul_comm k i]
    rw [hr, ← h]
    unfold table trapezoid
    apply Finset.sum_congr rfl
    intro k _
    rw [hder, hder]
    have e1 : a + (b - a) * ((k : K) / ((2 ^ i : ℕ) : K)) = a + k * ((b - a) / ((2 ^ i : ℕ) : K)) := by ring
    have e2 : a + (b - a) * (((k + 1 : ℕ) : K) / ((2 ^ i : ℕ) : K)) = a + (k + 1 : ℕ) * ((b - a) / ((2 ^ i : ℕ) : K)) := by
      ring
    rw [e1, e2]
    ring
  obtain ⟨c', k0, k1, k2, k3⟩ := table_powers _ a b (2 * j + 2) c c1 h0 j
  rw [k3 i hji, Finset.sum_eq_single 0]
  · rw [k0, c0, eval_comp, eval_comp, hLe, hLe]
    simp
  · intro k hk hk0
    have hk := Finset.mem_range.1 hk
    rcases Nat.lt_or_ge (2 * j) k with h | h
    · rw [k1 k (by omega), zero_mul]
    · rw [k2 k (by omega) h, zero_mul]
  · intro h
    simp at h

/-- C61 (accuracy of the result): polynomials up to degree 3 are integrated exactly, in two steps. -/
theorem C61_cubic (F : K[X]) (a b : K) (hdeg : F.natDegree ≤ 4) {acc : K} (hacc : 0 < acc) {maxSteps : ℕ}
    (hm : 3 ≤ maxSteps) :
    romberg (fun x => (derivative F).eval x) a b maxSteps acc = some (.converged 2 (F.eval b - F.eval a)) := by
  have h1 := C61_exact F a b (i := 1) (j := 1) le_rfl (by omega)
  have h2 := C61_exact F a b (i := 2) (j := 2) le_rfl (by omega)
  have hs : Stops (fun x => (derivative F).eval x) a b acc 2 := by
    refine ⟨le_rfl, ?_⟩
    change |table _ a b 1 1 - table _ a b 2 2| < acc
    rw [h1, h2, sub_self, abs_zero]
    exact hacc
  rcases C61_result (fun x => (derivative F).eval x) a b acc (maxSteps := maxSteps) (by omega) with ⟨k, -, h3, h4, h5⟩ | ⟨h3, -⟩
  · have hk : k = 2 := by
      rcases Nat.lt_trichotomy k 2 with h | h | h
      · have := h3.1
        omega
      · exact h
      · exact absurd hs (h4 2 h)
    rw [h5, hk, h2]
  · exact absurd hs (h3 2 (by omega))

/-- C61 (accuracy of the result): for any polynomial `F'` and enough steps the result is within reach of the criterion: either
the difference that was tested is below `acc`, or the result is exact. In particular the search ends. -/
theorem C61_ends (F : K[X]) (a b : K) {acc : K} (hacc : 0 < acc) {j : ℕ} (hj : 1 ≤ j) (hdeg : F.natDegree ≤ 2 * j + 2)
    {maxSteps : ℕ} (hm : j + 2 ≤ maxSteps) : ∃ k ≤ j + 1,
      romberg (fun x => (derivative F).eval x) a b maxSteps acc =
        some (.converged k (table (fun x => (derivative F).eval x) a b k k)) := by
  have h1 := C61_exact F a b (i := j) (j := j) le_rfl hdeg
  have h2 := C61_exact F a b (i := j + 1) (j := j + 1) le_rfl (by omega)
  have hs : Stops (fun x => (derivative F).eval x) a b acc (j + 1) := by
    refine ⟨by omega, ?_⟩
    rw [Nat.add_sub_cancel, h1, h2, sub_self, abs_zero]
    exact hacc
  rcases C61_result (fun x => (derivative F).eval x) a b acc (maxSteps := maxSteps) (by omega) with ⟨k, -, h3, h4, h5⟩ | ⟨h3, -⟩
  · refine ⟨k, ?_, h5⟩
    by_contra h
    exact h4 (j + 1) (by omega) hs
  · exact absurd hs (h3 (j + 1) (by omega))

/-! ### The cosmological time step -/

/-- `core/src/Cosmo.h` L81-86. -/
noncomputable def faexp (omegaM omegaV a : ℝ) : ℝ :=
  1 / Real.sqrt (a ^ 4 * (1 - omegaM - omegaV) + a ^ 3 * omegaM + a ^ 5 * omegaV)

/-- The number that `romberg` returns, also after the read out of bounds. -/
def Out.value : Out K → K
  | .converged _ v => v
  | .outOfBounds best => best

/-- `core/src/Cosmo.h` L78-88, `integrate_da_dt`. -/
noncomputable def integrateDaDt (omegaM omegaV a b tol : ℝ) : Option (Out ℝ) :=
  romberg (faexp omegaM omegaV) a b 16 tol

/-- `core/src/Cosmo.h` L144-146, `static_compute_cosmo_dt`. -/
noncomputable def cosmoDt (omegaM omegaV a da : ℝ) : Option ℝ :=
  (integrateDaDt omegaM omegaV (a * da) a (1 / 10 ^ 8)).map fun r => -(1 / 2) * Real.sqrt omegaM * r.value

/-- C61 (time step): the time step of `Compute_dt_cosmology` is positive, as `DYABLO_ASSERT_HOST_RELEASE` asks, in all open or
flat models with matter. -/
theorem C61_dt_pos {omegaM omegaV a da : ℝ} (hM : 0 < omegaM) (hV : 0 ≤ omegaV) (hsum : omegaM + omegaV ≤ 1) (ha : 0 < a)
    (hda : 1 < da) : ∃ dt, cosmoDt omegaM omegaV a da = some dt ∧ 0 < dt := by
  have hab : a < a * da := by nlinarith
  have hf : ∀ x, a ≤ x → x ≤ a * da → 0 < faexp omegaM omegaV x := fun x h1 _ => by
    have hx : 0 < x := lt_of_lt_of_le ha h1
    unfold faexp
    have : 0 < x ^ 4 * (1 - omegaM - omegaV) + x ^ 3 * omegaM + x ^ 5 * omegaV := by
      have h3 : 0 ≤ x ^ 4 * (1 - omegaM - omegaV) := mul_nonneg (by positivity) (by linarith)
      have h4 : 0 < x ^ 3 * omegaM := by positivity
      have h5 : 0 ≤ x ^ 5 * omegaV := by positivity
      linarith
    have := Real.sqrt_pos.2 this
    positivity
  have key : ∀ k, 0 < -(1 / 2) * Real.sqrt omegaM * table (faexp omegaM omegaV) (a * da) a k k := fun k => by
    rw [C61_antisymm]
    have h1 := C61_pos hab hf (le_refl k)
    have h2 := Real.sqrt_pos.2 hM
    have := mul_pos h2 h1
    linarith
  unfold cosmoDt integrateDaDt
  rcases C61_result (faexp omegaM omegaV) (a * da) a (1 / 10 ^ 8) (maxSteps := 16) (by norm_num) with
    ⟨k, -, -, -, h⟩ | ⟨-, h⟩
  · exact ⟨_, by rw [h]; rfl, key k⟩
  · exact ⟨_, by rw [h]; rfl, key _⟩

/-- The hypotheses are met: the defaults of the code. -/
example : ∃ dt, cosmoDt (3 / 10) (7 / 10) (1 / 100) (102 / 100) = some dt ∧ 0 < dt :=
  C61_dt_pos (by norm_num) (by norm_num) (by norm_num) (by norm_num) (by norm_num)

/-- `x ^ 3` on [0,2] by `C61_cubic`, and by evaluation. -/
example : romberg (fun x : ℚ => 4 * x ^ 3) 0 2 3 (1 / 100) = some (.converged 2 16) := by
  have h := C61_cubic (X ^ 4 : ℚ[X]) 0 2 (by simp) (acc := 1 / 100) (by norm_num) (maxSteps := 3) le_rfl
  have e : (fun x : ℚ => (derivative (X ^ 4 : ℚ[X])).eval x) = fun x => 4 * x ^ 3 := by
    funext x
    simp
    norm_num
  rw [e] at h
  rw [h]
  simp
  norm_num

example : romberg (fun x : ℚ => 4 * x ^ 3) 0 2 3 (1 / 100) = some (.converged 2 16) := by decide +kernel

end Verif.Cosmo
