import Verif.Cosmo.Friedmann
import Mathlib.MeasureTheory.Integral.IntervalIntegral.FundThmCalculus
import Mathlib.Analysis.Calculus.Deriv.MeanValue

/-!
# C113: is the time of a cosmological run that of the Friedmann equation?

The unit of time in `core/src/Cosmo.h` L137-146 is that of Martel and Shapiro: `dt` is the physical time divided by `a²`, in units of
`2 / (H0 sqrt(omega_m))`. The initial displacements of particles are computed from the expansion rate `eta` of
`core/src/init/InitialConditions_particle_grid.cpp` L62.
-/

namespace Verif.Cosmo

/-- `InitialConditions_particle_grid.cpp` L61-62 (again in L77), `eta`: the rate `da/dt / H0` in physical time at the expansion
factor `a`. -/
noncomputable def eta (omegaM omegaV a : ℝ) : ℝ := Real.sqrt (omegaM / a + omegaV * a * a + (1 - omegaM - omegaV))

/-! ### Specification -/

/-- Friedmann's equation: `(da/dt / H0)²`, if the density of matter falls like `a⁻³`, that of the part `V` like `a⁻ⁿ`, and the
rest is curvature. `n = 0` is a cosmological constant. -/
noncomputable def RateSq (M V : ℝ) (n : ℕ) (a : ℝ) : ℝ := a ^ 2 * (M / a ^ 3 + V / a ^ n + (1 - M - V) / a ^ 2)

/-- `T` is the time at which the expansion factor is `a`: in physical time `a` grows with the rate of Friedmann's equation; `T`
counts it divided by `a²`, in units of `2 / (H0 sqrt M)`. -/
def TimeOf (M V : ℝ) (n : ℕ) (T : ℝ → ℝ) : Prop :=
  ∀ a, 0 < a → HasDerivAt T (Real.sqrt M / 2 * (1 / (a ^ 2 * Real.sqrt (RateSq M V n a)))) a

/-! ### Proofs -/

variable {M V : ℝ}

theorem faexp_rate {a : ℝ} (ha : 0 < a) : faexp M V a = 1 / (a ^ 2 * Real.sqrt (RateSq M V 1 a)) := by
  unfold faexp RateSq
  congr 1
  rw [← Real.sqrt_sq (show 0 ≤ a ^ 2 by positivity), ← Real.sqrt_mul (by positivity), Real.sqrt_sq (by positivity)]
  congr 1
  field_simp
  ring

theorem friedmann_deriv (u : Universe M V) {a : ℝ} (ha : 0 < a) :
    HasDerivAt (friedmann M V) (Real.sqrt M / 2 * faexp M V a) a := by
  have hc : ContinuousAt (faexp M V) a := (faexp_continuous u).continuousAt (Ioi_mem_nhds ha)
  have hm : StronglyMeasurableAtFilter (faexp M V) (nhds a) MeasureTheory.volume :=
    (faexp_continuous u).stronglyMeasurableAtFilter isOpen_Ioi a ha
  have h := (intervalIntegral.integral_hasDerivAt_left (faexp_integrable u ha one_pos) hm hc).const_mul
    (-(1 / 2) * Real.sqrt M)
  rw [show -(1 / 2) * Real.sqrt M * -faexp M V a = Real.sqrt M / 2 * faexp M V a by ring] at h
  exact h

theorem rateSq_pos (u : Universe M V) {n : ℕ} {a : ℝ} (ha : 0 < a) : 0 < RateSq M V n a := by
  have h1 : 0 < M / a ^ 3 := div_pos u.matter (by positivity)
  have h2 : 0 ≤ V / a ^ n := div_nonneg u.vacuum (by positivity)
  have h3 : 0 ≤ (1 - M - V) / a ^ 2 := div_nonneg (by linarith [u.open_]) (by positivity)
  unfold RateSq
  have : 0 < M / a ^ 3 + V / a ^ n + (1 - M - V) / a ^ 2 := by linarith
  positivity

/-- **C113** The rate of the initial conditions is that of Friedmann's equation with a cosmological constant. -/
theorem C113_initial_rate {a : ℝ} (ha : 0 < a) : eta M V a = Real.sqrt (RateSq M V 0 a) := by
  unfold eta RateSq
  congr 1
  field_simp

/-- **C113** The time of the code solves Friedmann's equation without the part `omega_v`. Missing for the full claim:
`omega_v > 0`, where it is false (`C113_constant_fails`). -/
theorem C113_matter_partial (u : Universe M 0) : TimeOf M 0 0 (friedmann M 0) := by
  intro a ha
  have h := friedmann_deriv u ha
  rw [faexp_rate ha] at h
  unfold RateSq at *
  simpa using h

/-- **C113** What the code solves for all `omega_v`: Friedmann's equation with something in place of the cosmological constant
whose density falls like `1/a`. -/
theorem C113_exact (u : Universe M V) : TimeOf M V 1 (friedmann M V) := fun a ha => by
  rw [← faexp_rate ha]
  exact friedmann_deriv u ha

/-- **C113** With a cosmological constant the time of the code is wrong: until `a = 1` the expansion from any `a` to any `b` takes
less time than it should, with whatever solution `T` of Friedmann's equation it is compared. -/
theorem C113_constant_fails (u : Universe M V) (hV : 0 < V) {T : ℝ → ℝ} (hT : TimeOf M V 0 T) {a b : ℝ} (ha : 0 < a)
    (hab : a < b) (hb : b ≤ 1) : friedmann M V b - friedmann M V a < T b - T a := by
  have hlt : ∀ x, 0 < x → x < 1 → Real.sqrt M / 2 * faexp M V x <
      Real.sqrt M / 2 * (1 / (x ^ 2 * Real.sqrt (RateSq M V 0 x))) := by
    intro x hx h1
    have hM : 0 < Real.sqrt M / 2 := half_pos (Real.sqrt_pos.2 u.matter)
    refine mul_lt_mul_of_pos_left ?_ hM
    rw [faexp_rate hx]
    have hr : RateSq M V 0 x < RateSq M V 1 x := by
      unfold RateSq
      refine mul_lt_mul_of_pos_left ?_ (by positivity)
      have : V / x ^ 0 < V / x ^ 1 := by
        rw [pow_zero, pow_one, div_one, lt_div_iff₀ hx]
        nlinarith
      linarith
    refine one_div_lt_one_div_of_lt (mul_pos (by positivity) (Real.sqrt_pos.2 (rateSq_pos u hx))) ?_
    exact mul_lt_mul_of_pos_left (Real.sqrt_lt_sqrt (rateSq_pos u hx).le hr) (by positivity)
  have hd : ∀ x, 0 < x → HasDerivAt (fun y => T y - friedmann M V y)
      (Real.sqrt M / 2 * (1 / (x ^ 2 * Real.sqrt (RateSq M V 0 x))) - Real.sqrt M / 2 * faexp M V x) x :=
    fun x hx => (hT x hx).sub (friedmann_deriv u hx)
  have hmono : StrictMonoOn (fun y => T y - friedmann M V y) (Set.Icc a b) := by
    refine strictMonoOn_of_deriv_pos (convex_Icc a b)
      (fun x hx => (hd x (lt_of_lt_of_le ha hx.1)).continuousAt.continuousWithinAt) fun x hx => ?_
    rw [interior_Icc] at hx
    have hx0 : 0 < x := lt_trans ha hx.1
    rw [(hd x hx0).deriv]
    have := hlt x hx0 (lt_of_lt_of_le hx.2 hb)
    linarith
  have := hmono (Set.left_mem_Icc.2 hab.le) (Set.right_mem_Icc.2 hab.le) hab
  simp only at this
  linarith

/-! ### The hypotheses can be met -/

/-- The defaults of `Cosmo.h` L93-95, and a time with which to compare. -/
example : Universe (3 / 10) (7 / 10) ∧ ∃ T, TimeOf (3 / 10) (7 / 10) 0 T := by
  have u : Universe (3 / 10 : ℝ) (7 / 10) := ⟨by norm_num, by norm_num, by norm_num⟩
  refine ⟨u, fun a => ∫ x in (1 : ℝ)..a,
    Real.sqrt (3 / 10) / 2 * (1 / (x ^ 2 * Real.sqrt (RateSq (3 / 10) (7 / 10) 0 x))), fun a ha => ?_⟩
  have hc : ContinuousOn (fun x : ℝ => Real.sqrt (3 / 10) / 2 * (1 / (x ^ 2 * Real.sqrt (RateSq (3 / 10) (7 / 10) 0 x))))
      (Set.Ioi 0) := by
    have h0 : ContinuousOn (fun x : ℝ => RateSq (3 / 10) (7 / 10) 0 x) (Set.Ioi 0) := by
      unfold RateSq
      refine ContinuousOn.mul (by fun_prop) ?_
      refine (ContinuousOn.add (ContinuousOn.div (by fun_prop) (by fun_prop) ?_)
        (ContinuousOn.div (by fun_prop) (by fun_prop) ?_)).add (ContinuousOn.div (by fun_prop) (by fun_prop) ?_) <;>
        exact fun x hx => pow_ne_zero _ (ne_of_gt hx)
    refine continuousOn_const.mul (continuousOn_const.div ((by fun_prop : ContinuousOn (fun x : ℝ => x ^ 2) _).mul h0.sqrt) ?_)
    intro x hx
    exact (mul_pos (pow_pos hx 2) (Real.sqrt_pos.2 (rateSq_pos u hx))).ne'
  refine intervalIntegral.integral_hasDerivAt_right ?_ (hc.stronglyMeasurableAtFilter isOpen_Ioi a ha)
    (hc.continuousAt (Ioi_mem_nhds ha))
  refine (hc.mono fun x hx => ?_).intervalIntegrable
  rw [Set.mem_uIcc] at hx
  rw [Set.mem_Ioi]
  rcases hx with h | h <;> linarith [h.1]

end Verif.Cosmo
