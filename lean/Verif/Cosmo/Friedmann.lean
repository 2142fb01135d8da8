import Mathlib.MeasureTheory.Integral.IntervalIntegral.Basic
import Mathlib.Analysis.Convex.Slope
import Verif.Cosmo.Exact

/-!
# The time of the Friedmann equation

`core/src/Cosmo.h` integrates `faexp` by Romberg's method (C61). Here is the integral itself, as a function of the expansion
factor. It increases and is strictly concave. Whether it solves the Friedmann equation is C113 (`FriedmannEq.lean`).
-/

namespace Verif.Cosmo

open MeasureTheory intervalIntegral

/-- `core/src/Cosmo.h` L121: `-0.5 * sqrt(omega_m)` times the integral from `a` to 1. -/
noncomputable def friedmann (omegaM omegaV a : ℝ) : ℝ := -(1 / 2) * Real.sqrt omegaM * ∫ x in a..1, faexp omegaM omegaV x

/-- Matter and vacuum, open or flat. -/
structure Universe (omegaM omegaV : ℝ) : Prop where
  matter : 0 < omegaM
  vacuum : 0 ≤ omegaV
  open_ : omegaM + omegaV ≤ 1

variable {M V : ℝ}

/-- The radicand in `faexp`. -/
noncomputable def radicand (M V a : ℝ) : ℝ := a ^ 4 * (1 - M - V) + a ^ 3 * M + a ^ 5 * V

theorem radicand_pos (u : Universe M V) {a : ℝ} (ha : 0 < a) : 0 < radicand M V a := by
  have h3 : 0 ≤ a ^ 4 * (1 - M - V) := mul_nonneg (by positivity) (by linarith [u.open_])
  have h4 : 0 < a ^ 3 * M := mul_pos (by positivity) u.matter
  have h5 : 0 ≤ a ^ 5 * V := mul_nonneg (by positivity) u.vacuum
  unfold radicand
  linarith

theorem radicand_strict (u : Universe M V) {a b : ℝ} (ha : 0 < a) (hab : a < b) : radicand M V a < radicand M V b := by
  have h3 : a ^ 3 < b ^ 3 := pow_lt_pow_left₀ hab ha.le (by norm_num)
  have h4 : a ^ 4 ≤ b ^ 4 := pow_le_pow_left₀ ha.le hab.le 4
  have h5 : a ^ 5 ≤ b ^ 5 := pow_le_pow_left₀ ha.le hab.le 5
  have e1 := mul_le_mul_of_nonneg_right h4 (show 0 ≤ 1 - M - V by linarith [u.open_])
  have e2 := mul_lt_mul_of_pos_right h3 u.matter
  have e3 := mul_le_mul_of_nonneg_right h5 u.vacuum
  unfold radicand
  linarith

theorem faexp_pos (u : Universe M V) {a : ℝ} (ha : 0 < a) : 0 < faexp M V a :=
  one_div_pos.2 (Real.sqrt_pos.2 (radicand_pos u ha))

theorem faexp_strict (u : Universe M V) {a b : ℝ} (ha : 0 < a) (hab : a < b) : faexp M V b < faexp M V a :=
  one_div_lt_one_div_of_lt (Real.sqrt_pos.2 (radicand_pos u ha))
    (Real.sqrt_lt_sqrt (radicand_pos u ha).le (radicand_strict u ha hab))

theorem faexp_anti (u : Universe M V) {a b : ℝ} (ha : 0 < a) (hab : a ≤ b) : faexp M V b ≤ faexp M V a := by
  rcases hab.eq_or_lt with rfl | h
  · exact le_refl _
  · exact (faexp_strict u ha h).le

theorem faexp_continuous (u : Universe M V) : ContinuousOn (faexp M V) (Set.Ioi 0) := by
  unfold faexp
  refine ContinuousOn.div continuousOn_const (Continuous.continuousOn (by fun_prop)) fun a ha => ?_
  exact (Real.sqrt_pos.2 (radicand_pos u ha)).ne'

theorem faexp_integrable (u : Universe M V) {a b : ℝ} (ha : 0 < a) (hb : 0 < b) :
    IntervalIntegrable (faexp M V) volume a b := by
  refine ((faexp_continuous u).mono fun x hx => ?_).intervalIntegrable
  rw [Set.mem_uIcc] at hx
  rw [Set.mem_Ioi]
  rcases hx with h | h <;> linarith [h.1]

/-- The difference of two times. -/
theorem friedmann_sub (u : Universe M V) {a b : ℝ} (ha : 0 < a) (hb : 0 < b) :
    friedmann M V b - friedmann M V a = 1 / 2 * Real.sqrt M * ∫ x in a..b, faexp M V x := by
  have h := integral_add_adjacent_intervals (faexp_integrable u ha hb) (faexp_integrable u hb one_pos)
  unfold friedmann
  rw [← h]
  ring

theorem integral_gt (u : Universe M V) {a b : ℝ} (ha : 0 < a) (hab : a < b) :
    (b - a) * faexp M V b < ∫ x in a..b, faexp M V x := by
  have h := integral_lt_integral_of_continuousOn_of_le_of_exists_lt (f := fun _ => faexp M V b) (g := faexp M V) hab
    continuousOn_const ((faexp_continuous u).mono fun x hx => lt_of_lt_of_le ha hx.1)
    (fun x hx => faexp_anti u (lt_trans ha hx.1) hx.2) ⟨a, ⟨le_refl a, hab.le⟩, faexp_strict u ha hab⟩
  rw [intervalIntegral.integral_const, smul_eq_mul] at h
  exact h

theorem integral_lt (u : Universe M V) {a b : ℝ} (ha : 0 < a) (hab : a < b) :
    ∫ x in a..b, faexp M V x < (b - a) * faexp M V a := by
  have h := integral_lt_integral_of_continuousOn_of_le_of_exists_lt (f := faexp M V) (g := fun _ => faexp M V a) hab
    ((faexp_continuous u).mono fun x hx => lt_of_lt_of_le ha hx.1) continuousOn_const
    (fun x hx => faexp_anti u ha hx.1.le) ⟨b, ⟨hab.le, le_refl b⟩, faexp_strict u ha hab⟩
  rw [intervalIntegral.integral_const, smul_eq_mul] at h
  exact h

/-- Time increases with expansion. -/
theorem friedmann_strict (u : Universe M V) {a b : ℝ} (ha : 0 < a) (hab : a < b) : friedmann M V a < friedmann M V b := by
  have hb : 0 < b := lt_trans ha hab
  have h1 := friedmann_sub u ha hb
  have h2 := integral_gt u ha hab
  have h3 : 0 < (b - a) * faexp M V b := mul_pos (by linarith) (faexp_pos u hb)
  have h4 := mul_pos (mul_pos one_half_pos (Real.sqrt_pos.2 u.matter)) (lt_trans h3 h2)
  linarith

theorem friedmann_le (u : Universe M V) {a b : ℝ} (ha : 0 < a) (hab : a ≤ b) : friedmann M V a ≤ friedmann M V b := by
  rcases hab.eq_or_lt with rfl | h
  · exact le_refl _
  · exact (friedmann_strict u ha h).le

/-- Expansion slows down in these units of time. -/
theorem friedmann_concave (u : Universe M V) : StrictConcaveOn ℝ (Set.Ioi 0) (friedmann M V) := by
  refine strictConcaveOn_of_slope_strict_anti_adjacent (convex_Ioi 0) ?_
  intro x y z hx hz hxy hyz
  rw [Set.mem_Ioi] at hx hz
  have hy : 0 < y := lt_trans hx hxy
  have c : 0 < 1 / 2 * Real.sqrt M := mul_pos one_half_pos (Real.sqrt_pos.2 u.matter)
  have h1 := mul_lt_mul_of_pos_left (integral_lt u hy hyz) c
  have h2 := mul_lt_mul_of_pos_left (integral_gt u hx hxy) c
  rw [← friedmann_sub u hy hz] at h1
  rw [← friedmann_sub u hx hy] at h2
  have e1 : (friedmann M V z - friedmann M V y) / (z - y) < 1 / 2 * Real.sqrt M * faexp M V y := by
    rw [div_lt_iff₀ (by linarith)]
    linarith
  have e2 : 1 / 2 * Real.sqrt M * faexp M V y < (friedmann M V y - friedmann M V x) / (y - x) := by
    rw [lt_div_iff₀ (by linarith)]
    linarith
  linarith

/-- With less matter the same expansion takes less of this time. -/
theorem friedmann_matter (u : Universe M V) (hM : M < 1) {a b : ℝ} (ha : 0 < a) (hab : a < b) :
    friedmann M V b - friedmann M V a < friedmann 1 0 b - friedmann 1 0 a := by
  have u1 : Universe 1 0 := ⟨one_pos, le_refl _, by norm_num⟩
  have hb : 0 < b := lt_trans ha hab
  rw [friedmann_sub u ha hb, friedmann_sub u1 ha hb, Real.sqrt_one, mul_one, mul_assoc]
  refine mul_lt_mul_of_pos_left ?_ one_half_pos
  rw [← intervalIntegral.integral_const_mul]
  have key : ∀ x, 0 < x → Real.sqrt M * faexp M V x < faexp 1 0 x := by
    intro x hx
    have hr := Real.sqrt_pos.2 (radicand_pos u hx)
    have hr1 := Real.sqrt_pos.2 (radicand_pos u1 hx)
    have e : Real.sqrt M * Real.sqrt (radicand 1 0 x) < Real.sqrt (radicand M V x) := by
      rw [← Real.sqrt_mul u.matter.le]
      refine Real.sqrt_lt_sqrt (mul_nonneg u.matter.le (radicand_pos u1 hx).le) ?_
      unfold radicand
      have h4 : 0 < x ^ 4 := by positivity
      have h5 : 0 < x ^ 5 := by positivity
      rcases u.vacuum.eq_or_lt with h | h
      · rw [← h]
        have := mul_pos h4 (show 0 < 1 - M - 0 by linarith)
        linarith
      · have := mul_pos h5 h
        have := mul_nonneg h4.le (show 0 ≤ 1 - M - V by linarith [u.open_])
        linarith
    unfold faexp
    change Real.sqrt M * (1 / Real.sqrt (radicand M V x)) < 1 / Real.sqrt (radicand 1 0 x)
    rw [mul_one_div, div_lt_div_iff₀ hr hr1, one_mul]
    exact e
  exact integral_lt_integral_of_continuousOn_of_le_of_exists_lt hab
    (continuousOn_const.mul ((faexp_continuous u).mono fun x hx => lt_of_lt_of_le ha hx.1))
    ((faexp_continuous u1).mono fun x hx => lt_of_lt_of_le ha hx.1)
    (fun x hx => (key x (lt_trans ha hx.1)).le) ⟨a, ⟨le_refl a, hab.le⟩, key a ha⟩

end Verif.Cosmo
