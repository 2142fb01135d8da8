import Verif.Cosmo.FriedmannEq
import Mathlib.Analysis.Calculus.Deriv.Inv
import Mathlib.Analysis.SpecialFunctions.Sqrt

/-!
# C114: the initial displacement of particles fits their velocities

`core/src/init/InitialConditions_particle_grid.cpp` L61-97 computes a time `dt_perturb`; particles start at their site plus their
velocity times this time (C65). In linear theory the displacement of a particle grows like `D(a)`.
-/

namespace Verif.Cosmo

/-- L72-79, `ddplus`. -/
noncomputable def ddplus (M V a : ℝ) : ℝ := if a ≤ 0 then 0 else 5 / 2 / (eta M V a * eta M V a * eta M V a)

/-- L70-92, `dplus`. Simplified: the exact integral in place of the trapezoidal rule with 1000 steps. -/
noncomputable def dplus (M V a : ℝ) : ℝ := eta M V a / a * ∫ x in (0 : ℝ)..a, ddplus M V x

/-- L65-94, `fomega`. -/
noncomputable def fomega (M V a : ℝ) : ℝ :=
  if 1 ≤ M ∧ V ≤ 0 then 1
  else (5 / 2 / dplus M V a - 3 / 2 * M / a - (1 - M - V)) / (eta M V a * eta M V a)

/-- L63 and L97, the default of `dt_perturb`. -/
noncomputable def dtPerturb (M V a : ℝ) : ℝ := 1 / (2 * fomega M V a * (a * eta M V a) / Real.sqrt M)

/-! ### Specification -/

/-- The Hubble rate in units of its present value, with a cosmological constant. -/
noncomputable def hubble (M V a : ℝ) : ℝ := Real.sqrt (RateSq M V 0 a) / a

/-- The equation of the growth of small perturbations, `D̈ + 2 H Ḋ = 3/2 H0² M a⁻³ D`, with `d/dt = H0 a h d/da`, that is
`h/a (a³ h D')' = 3/2 M a⁻³ D`. -/
def Grows (M V : ℝ) (D : ℝ → ℝ) : Prop :=
  ∃ D1 : ℝ → ℝ, ∀ a, 0 < a → HasDerivAt D (D1 a) a ∧
    HasDerivAt (fun x => x ^ 3 * hubble M V x * D1 x) (3 / 2 * M * D a / (a ^ 2 * hubble M V a)) a

/-- At the time `t` of the code the expansion factor `A` grows with the rate of Friedmann's equation. (At one time only: `A` need
not exist for all times.) -/
def Expands (M V : ℝ) (A : ℝ → ℝ) (t : ℝ) : Prop :=
  0 < A t ∧ HasDerivAt A (2 / Real.sqrt M * (A t ^ 2 * Real.sqrt (RateSq M V 0 (A t)))) t

/-! ### Proofs -/

variable {M V : ℝ}

theorem eta_sq (u : Universe M V) {a : ℝ} (ha : 0 < a) : eta M V a ^ 2 = M / a + V * a * a + (1 - M - V) := by
  unfold eta
  refine Real.sq_sqrt ?_
  have h1 : 0 ≤ M / a := div_nonneg u.matter.le ha.le
  have h2 : 0 ≤ V * a * a := mul_nonneg (mul_nonneg u.vacuum ha.le) ha.le
  linarith [u.open_]

theorem eta_pos (u : Universe M V) {a : ℝ} (ha : 0 < a) : 0 < eta M V a := by
  rw [C113_initial_rate ha]
  exact Real.sqrt_pos.2 (rateSq_pos u ha)

theorem hubble_eq {a : ℝ} (ha : 0 < a) : hubble M V a = eta M V a / a := by
  rw [C113_initial_rate ha, hubble]

theorem eta_deriv (u : Universe M V) {a : ℝ} (ha : 0 < a) :
    HasDerivAt (eta M V) ((-M / a ^ 2 + 2 * V * a) / (2 * eta M V a)) a := by
  have h1 : HasDerivAt (fun x : ℝ => M / x + V * x * x + (1 - M - V)) (-M / a ^ 2 + 2 * V * a) a := by
    have e1 := (hasDerivAt_inv ha.ne').const_mul M
    have e2 := ((hasDerivAt_id a).const_mul V).mul (hasDerivAt_id a)
    have e3 := (e1.add e2).add_const (1 - M - V)
    simp only [id, mul_one] at e3
    refine (e3.congr_deriv ?_).congr_of_eventuallyEq (Filter.Eventually.of_forall fun x => ?_)
    · ring
    · simp [div_eq_mul_inv]
  have hne : M / a + V * a * a + (1 - M - V) ≠ 0 := by
    rw [← eta_sq u ha]
    exact (pow_pos (eta_pos u ha) 2).ne'
  exact h1.sqrt hne

/-- The integrand without the case distinction. -/
theorem ddplus_eq (u : Universe M V) {a : ℝ} (ha : 0 ≤ a) :
    ddplus M V a = 5 / 2 * Real.sqrt (a / (M + V * a ^ 3 + (1 - M - V) * a)) ^ 3 := by
  rcases ha.eq_or_lt with rfl | ha
  · simp [ddplus]
  · have hden : 0 < M + V * a ^ 3 + (1 - M - V) * a := by
      have h1 : 0 ≤ V * a ^ 3 := mul_nonneg u.vacuum (by positivity)
      have h2 : 0 ≤ (1 - M - V) * a := mul_nonneg (by linarith [u.open_]) ha.le
      linarith [u.matter]
    have e : a / (M + V * a ^ 3 + (1 - M - V) * a) = (eta M V a ^ 2)⁻¹ := by
      rw [eta_sq u ha, eq_comm, inv_eq_iff_eq_inv, inv_div]
      field_simp
    rw [ddplus, if_neg (not_le.2 ha), e, Real.sqrt_inv, Real.sqrt_sq (eta_pos u ha).le]
    have := (eta_pos u ha).ne'
    field_simp

theorem ddplus_continuous (u : Universe M V) : ContinuousOn (ddplus M V) (Set.Ici 0) := by
  have h : ContinuousOn (fun a : ℝ => 5 / 2 * Real.sqrt (a / (M + V * a ^ 3 + (1 - M - V) * a)) ^ 3) (Set.Ici 0) := by
    refine continuousOn_const.mul (ContinuousOn.pow (ContinuousOn.sqrt (ContinuousOn.div continuousOn_id (by fun_prop) ?_)) 3)
    intro a ha
    rw [Set.mem_Ici] at ha
    have h1 : 0 ≤ V * a ^ 3 := mul_nonneg u.vacuum (by positivity)
    have h2 : 0 ≤ (1 - M - V) * a := mul_nonneg (by linarith [u.open_]) ha
    linarith [u.matter]
  exact h.congr fun a ha => ddplus_eq u ha

/-- The integral in `dplus`. -/
noncomputable def gSum (M V a : ℝ) : ℝ := ∫ x in (0 : ℝ)..a, ddplus M V x

theorem gSum_deriv (u : Universe M V) {a : ℝ} (ha : 0 < a) : HasDerivAt (gSum M V) (5 / 2 / eta M V a ^ 3) a := by
  have hc := ddplus_continuous u
  have hci : ContinuousOn (ddplus M V) (Set.Ioi 0) := hc.mono Set.Ioi_subset_Ici_self
  have hi : IntervalIntegrable (ddplus M V) MeasureTheory.volume 0 a := by
    refine (hc.mono fun x hx => ?_).intervalIntegrable
    rw [Set.uIcc_of_le ha.le] at hx
    exact hx.1
  have h := intervalIntegral.integral_hasDerivAt_right hi (hci.stronglyMeasurableAtFilter isOpen_Ioi a ha)
    (hci.continuousAt (Ioi_mem_nhds ha))
  rw [show ddplus M V a = 5 / 2 / eta M V a ^ 3 by rw [ddplus, if_neg (not_le.2 ha)]; ring] at h
  exact h

theorem gSum_pos (u : Universe M V) {a : ℝ} (ha : 0 < a) : 0 < gSum M V a := by
  refine intervalIntegral.intervalIntegral_pos_of_pos_on ?_ (fun x hx => ?_) ha
  · refine ((ddplus_continuous u).mono fun x hx => ?_).intervalIntegrable
    rw [Set.uIcc_of_le ha.le] at hx
    exact hx.1
  · have := eta_pos u hx.1
    rw [ddplus, if_neg (not_le.2 hx.1)]
    positivity

theorem dplus_pos (u : Universe M V) {a : ℝ} (ha : 0 < a) : 0 < dplus M V a :=
  mul_pos (div_pos (eta_pos u ha) ha) (gSum_pos u ha)

/-- The derivative of `dplus`. -/
theorem dplus_deriv (u : Universe M V) {a : ℝ} (ha : 0 < a) :
    HasDerivAt (dplus M V)
      ((5 / 2 - (3 / 2 * M / a + (1 - M - V)) * dplus M V a) / (a * eta M V a ^ 2)) a := by
  have he := eta_pos u ha
  have h := (((eta_deriv u ha).div (hasDerivAt_id a) ha.ne').mul (gSum_deriv u ha))
  refine h.congr_deriv ?_
  have e2 := eta_sq u ha
  have hk : 1 - M - V = eta M V a ^ 2 - M / a - V * a * a := by linarith
  rw [hk]
  change _ = (5 / 2 - _ * (eta M V a / a * gSum M V a)) / _
  simp only [id, Pi.div_apply]
  field_simp
  ring

/-- **C114** `dplus` is a positive solution of the equation of small perturbations (that it increases:
`C114_rate`, `C114_rate_pos`). -/
theorem C114_growing (u : Universe M V) : Grows M V (dplus M V) ∧ ∀ a, 0 < a → 0 < dplus M V a := by
  refine ⟨⟨_, fun a ha => ⟨dplus_deriv u ha, ?_⟩⟩, fun a ha => dplus_pos u ha⟩
  have he := eta_pos u ha
  -- `a³ h D'` without the quotients
  have h1 : HasDerivAt (fun x => 5 / 2 * x / eta M V x - (3 / 2 * M / x + (1 - M - V)) * gSum M V x)
      (3 / 2 * M * dplus M V a / (a ^ 2 * hubble M V a)) a := by
    have d1 := ((hasDerivAt_id a).const_mul (5 / 2 : ℝ)).div (eta_deriv u ha) he.ne'
    have d2 := (((hasDerivAt_inv ha.ne').const_mul (3 / 2 * M)).add_const (1 - M - V)).mul (gSum_deriv u ha)
    have d3 := d1.sub d2
    refine (d3.congr_deriv ?_).congr_of_eventuallyEq (Filter.Eventually.of_forall fun x => ?_)
    · rw [hubble_eq ha]
      have hk : 1 - M - V = eta M V a ^ 2 - M / a - V * a * a := by linarith [eta_sq u ha]
      change _ = 3 / 2 * M * (eta M V a / a * gSum M V a) / _
      simp only [id]
      rw [hk]
      field_simp
      ring
    · simp [div_eq_mul_inv]
  refine h1.congr_of_eventuallyEq ?_
  filter_upwards [Ioi_mem_nhds ha] with x hx
  have hx' : 0 < x := hx
  have := eta_pos u hx'
  rw [hubble_eq hx']
  change x ^ 3 * _ * ((5 / 2 - _ * (eta M V x / x * gSum M V x)) / _) = _
  field_simp

/-- The numerator of `fomega` is positive. -/
theorem gSum_lt (u : Universe M V) {a : ℝ} (ha : 0 < a) :
    (3 / 2 * M / a + (1 - M - V)) * gSum M V a < 5 / 2 * a / eta M V a := by
  have hk : 0 ≤ 1 - M - V := by linarith [u.open_]
  have hM := u.matter
  let G : ℝ → ℝ := fun x =>
    5 / 2 * x ^ 2 * Real.sqrt (x / (M + V * x ^ 3 + (1 - M - V) * x)) / (3 / 2 * M + (1 - M - V) * x)
  have hG : ∀ x, 0 < x → G x = 5 / 2 * x / eta M V x / (3 / 2 * M / x + (1 - M - V)) := by
    intro x hx
    have he := eta_pos u hx
    have hP : 0 < 3 / 2 * M / x + (1 - M - V) := by positivity
    have hQ : 0 < 3 / 2 * M + (1 - M - V) * x := by positivity
    have e : x / (M + V * x ^ 3 + (1 - M - V) * x) = (eta M V x ^ 2)⁻¹ := by
      rw [eta_sq u hx, eq_comm, inv_eq_iff_eq_inv, inv_div]
      field_simp
    have eP : 3 / 2 * M + (1 - M - V) * x = x * (3 / 2 * M / x + (1 - M - V)) := by field_simp
    simp only [G]
    rw [e, Real.sqrt_inv, Real.sqrt_sq he.le, eP]
    field_simp
  have hcG : ContinuousOn G (Set.Icc 0 a) := by
    refine ContinuousOn.div (ContinuousOn.mul (by fun_prop) (ContinuousOn.sqrt (ContinuousOn.div (by fun_prop) (by fun_prop) ?_)))
      (by fun_prop) ?_
    · intro x hx
      have h1 : 0 ≤ V * x ^ 3 := mul_nonneg u.vacuum (pow_nonneg hx.1 3)
      have h2 := mul_nonneg hk hx.1
      linarith
    · intro x hx
      have h2 := mul_nonneg hk hx.1
      linarith
  have hcS : ContinuousOn (gSum M V) (Set.Icc 0 a) := by
    have := intervalIntegral.continuousOn_primitive_interval (μ := MeasureTheory.volume) (f := ddplus M V) (a := 0) (b := a) (by
      rw [Set.uIcc_of_le ha.le]
      exact ((ddplus_continuous u).mono fun x hx => hx.1).integrableOn_Icc)
    rw [Set.uIcc_of_le ha.le] at this
    exact this
  have hmono : StrictMonoOn (fun x => G x - gSum M V x) (Set.Icc 0 a) := by
    refine strictMonoOn_of_deriv_pos (convex_Icc 0 a) (hcG.sub hcS) fun x hx => ?_
    rw [interior_Icc] at hx
    have hx0 : 0 < x := hx.1
    have he := eta_pos u hx0
    have hP : 0 < 3 / 2 * M / x + (1 - M - V) := by positivity
    have d1 := ((hasDerivAt_id x).const_mul (5 / 2 : ℝ)).div (eta_deriv u hx0) he.ne'
    have d2 := ((hasDerivAt_inv hx0.ne').const_mul (3 / 2 * M)).add_const (1 - M - V)
    have hP' : 3 / 2 * M * x⁻¹ + (1 - M - V) ≠ 0 := by rw [← div_eq_mul_inv]; exact hP.ne'
    have d3 := (d1.div d2 hP').sub (gSum_deriv u hx0)
    have d4 : HasDerivAt (fun y => G y - gSum M V y)
        (5 / 2 * x * (3 / 2 * M / x ^ 2) / (eta M V x * (3 / 2 * M / x + (1 - M - V)) ^ 2)) x := by
      refine (d3.congr_deriv ?_).congr_of_eventuallyEq ?_
      · have e1 : 5 / 2 * 1 * eta M V x - 5 / 2 * id x * ((-M / x ^ 2 + 2 * V * x) / (2 * eta M V x))
            = 5 / 2 / eta M V x * (3 / 2 * M / x + (1 - M - V)) := by
          have hkk : 1 - M - V = eta M V x ^ 2 - M / x - V * x * x := by linarith [eta_sq u hx0]
          rw [hkk]
          simp only [id]
          field_simp
          ring
        simp only [Pi.div_apply]
        rw [e1, ← div_eq_mul_inv (3 / 2 * M) x]
        generalize 3 / 2 * M / x + (1 - M - V) = P at hP
        simp only [id]
        field_simp
        ring
      · filter_upwards [Ioi_mem_nhds hx0] with y hy
        simp [hG y hy, div_eq_mul_inv]
    rw [d4.deriv]
    positivity
  have h := hmono (Set.left_mem_Icc.2 ha.le) (Set.right_mem_Icc.2 ha.le) ha
  have h0 : G 0 - gSum M V 0 = 0 := by simp [G, gSum]
  simp only [h0, hG a ha] at h
  have hP : 0 < 3 / 2 * M / a + (1 - M - V) := by positivity
  rw [sub_pos, lt_div_iff₀ hP] at h
  linarith

/-- Without a cosmological constant and curvature perturbations grow like the expansion factor. -/
theorem dplus_matter {a : ℝ} (ha : 0 < a) : dplus 1 0 a = a := by
  have u : Universe 1 0 := ⟨one_pos, le_rfl, by norm_num⟩
  have hi : ∫ x in (0 : ℝ)..a, ddplus 1 0 x = Real.sqrt a ^ 5 - Real.sqrt 0 ^ 5 := by
    refine intervalIntegral.integral_eq_sub_of_hasDerivAt_of_le (f := fun x => Real.sqrt x ^ 5) ha.le (by fun_prop) (fun x hx => ?_) ?_
    · have hs := Real.sqrt_pos.2 hx.1
      refine ((Real.hasDerivAt_sqrt hx.1.ne').pow 5).congr_deriv ?_
      rw [ddplus_eq u hx.1.le]
      simp
      field_simp
    · refine ((ddplus_continuous u).mono fun x hx => ?_).intervalIntegrable
      rw [Set.uIcc_of_le ha.le] at hx
      exact hx.1
  have hs := Real.sqrt_pos.2 ha
  have he : eta 1 0 a = (Real.sqrt a)⁻¹ := by simp [eta]
  rw [dplus, hi, he]
  have h2 := Real.sq_sqrt ha.le
  simp
  rw [show Real.sqrt a ^ 5 = Real.sqrt a * (Real.sqrt a ^ 2) ^ 2 by ring, h2]
  field_simp

/-- **C114** `fomega` is the logarithmic derivative of the growing solution. -/
theorem C114_rate (u : Universe M V) {a : ℝ} (ha : 0 < a) :
    HasDerivAt (dplus M V) (fomega M V a * dplus M V a / a) a := by
  by_cases h : 1 ≤ M ∧ V ≤ 0
  · have hM : M = 1 := by linarith [u.open_, u.vacuum, h.1]
    have hV : V = 0 := le_antisymm h.2 u.vacuum
    subst hM hV
    rw [fomega, if_pos h, dplus_matter ha, one_mul, div_self ha.ne']
    refine (hasDerivAt_id a).congr_of_eventuallyEq ?_
    filter_upwards [Ioi_mem_nhds ha] with x hx
    exact dplus_matter hx
  · refine (dplus_deriv u ha).congr_deriv ?_
    have he := eta_pos u ha
    have hd := dplus_pos u ha
    rw [fomega, if_neg h]
    field_simp
    ring

/-- **C114** The division by `fomega` is safe. -/
theorem C114_rate_pos (u : Universe M V) {a : ℝ} (ha : 0 < a) : 0 < fomega M V a := by
  unfold fomega
  split
  · exact one_pos
  · have he := eta_pos u ha
    have hS := gSum_pos u ha
    have h := gSum_lt u ha
    refine div_pos ?_ (mul_pos he he)
    have e : 5 / 2 / dplus M V a = 5 / 2 * a / eta M V a / gSum M V a := by
      change 5 / 2 / (eta M V a / a * gSum M V a) = _
      field_simp
    have := (lt_div_iff₀ hS).2 h
    rw [e]
    linarith

/-- **C114** The perturbations vanish at the beginning, unlike those of the decaying solution (`hubble`, which is unbounded). -/
theorem C114_small (u : Universe M V) {a : ℝ} (ha : 0 < a) : dplus M V a < 5 / (3 * M) * a := by
  have he := eta_pos u ha
  have hM := u.matter
  have hS := gSum_pos u ha
  have h := gSum_lt u ha
  have h1 : 3 / 2 * M / a * gSum M V a < 5 / 2 * a / eta M V a := by
    refine lt_of_le_of_lt (mul_le_mul_of_nonneg_right ?_ hS.le) h
    linarith [u.open_]
  change eta M V a / a * gSum M V a < _
  rw [lt_div_iff₀ he] at h1
  calc eta M V a / a * gSum M V a = 2 / (3 * M) * (3 / 2 * M / a * gSum M V a * eta M V a) := by field_simp
    _ < 2 / (3 * M) * (5 / 2 * a) := by gcongr
    _ = _ := by ring

/-- **C114** In linear theory particles start where their velocities say: if the displacement grows like a solution `dplus` of the
equation of small perturbations while space expands, it is the velocity times `dt_perturb`. Both are in the time of the code.
Missing: the error of the trapezoidal rule, which `GrowthTrap.lean` bounds for the growth rate. -/
theorem C114_displacement_partial (u : Universe M V) {A : ℝ → ℝ} {t : ℝ} (hA : Expands M V A t) (psi : ℝ) :
    ∃ v, HasDerivAt (fun s => dplus M V (A s) * psi) v t ∧ dplus M V (A t) * psi = v * dtPerturb M V (A t) := by
  obtain ⟨ha, hd⟩ := hA
  have hc := ((C114_rate u ha).comp t hd).mul_const psi
  refine ⟨_, hc, ?_⟩
  have he := eta_pos u ha
  have hM := Real.sqrt_pos.2 u.matter
  have hf := C114_rate_pos u ha
  rw [← C113_initial_rate ha, dtPerturb]
  field_simp

/-! ### Examples -/

/-- Only matter: the expansion factor is `1 / t²`, with `t < 0`. -/
theorem expands_matter {t : ℝ} (ht : t < 0) : Expands 1 0 (fun s => (s ^ 2)⁻¹) t := by
  have h0 := ht.ne
  have h2 : 0 < t ^ 2 := by nlinarith
  refine ⟨inv_pos.2 h2, ((hasDerivAt_pow 2 t).inv h2.ne').congr_deriv ?_⟩
  have e : RateSq 1 0 0 (t ^ 2)⁻¹ = (-t) ^ 2 := by
    unfold RateSq
    field_simp
    ring
  rw [e, Real.sqrt_sq (by linarith), Real.sqrt_one]
  field_simp
  ring

example : ∃ v, HasDerivAt (fun s : ℝ => dplus 1 0 (s ^ 2)⁻¹ * 3) v (-2) ∧
    dplus 1 0 ((-2 : ℝ) ^ 2)⁻¹ * 3 = v * dtPerturb 1 0 ((-2 : ℝ) ^ 2)⁻¹ :=
  C114_displacement_partial ⟨one_pos, le_rfl, by norm_num⟩ (expands_matter (by norm_num)) 3

/-- With a cosmological constant: some `A` grows with the right rate. -/
example : ∃ A : ℝ → ℝ, Expands (3 / 10) (7 / 10) A 0 ∧ A 0 = 1 / 50 ∧ 0 < fomega (3 / 10) (7 / 10) (A 0) := by
  let c : ℝ := 2 / Real.sqrt (3 / 10) * ((1 / 50) ^ 2 * Real.sqrt (RateSq (3 / 10) (7 / 10) 0 (1 / 50)))
  have h0 : (fun s : ℝ => 1 / 50 + s * c) 0 = 1 / 50 := by simp
  have hd : HasDerivAt (fun s : ℝ => 1 / 50 + s * c) (1 * c) 0 := ((hasDerivAt_id (0 : ℝ)).mul_const c).const_add (1 / 50)
  refine ⟨fun s => 1 / 50 + s * c, ⟨by rw [h0]; norm_num, ?_⟩, h0, ?_⟩
  · rw [h0]
    exact hd.congr_deriv (one_mul c)
  · rw [h0]
    exact C114_rate_pos ⟨by norm_num, by norm_num, by norm_num⟩ (by norm_num)

end Verif.Cosmo
