import Verif.Cosmo.Growth

/-!
# C114: the error of the trapezoidal rule

`core/src/init/InitialConditions_particle_grid.cpp` L81-91 adds trapezoids where `Growth.lean` has the exact integral.
-/

namespace Verif.Cosmo

/-- L81-91: `dplus` with the sum of the code, for `n` trapezoids. -/
noncomputable def dplusTrap (n : ℕ) (M V a : ℝ) : ℝ :=
  let da := a / n
  eta M V a / a * ((∑ i ∈ Finset.range n, 1 / 2 * (ddplus M V (i * da) + ddplus M V ((i + 1) * da))) * da)

/-- L65-94: `fomega` with the sum of the code. -/
noncomputable def fomegaTrap (n : ℕ) (M V a : ℝ) : ℝ :=
  if 1 ≤ M ∧ V ≤ 0 then 1
  else (5 / 2 / dplusTrap n M V a - 3 / 2 * M / a - (1 - M - V)) / (eta M V a * eta M V a)

/-- L63 and L97: the default of `dt_perturb` with the sum of the code. -/
noncomputable def dtPerturbTrap (n : ℕ) (M V a : ℝ) : ℝ :=
  1 / (2 * fomegaTrap n M V a * (a * eta M V a) / Real.sqrt M)

variable {M V : ℝ}

/-- While the cosmological constant is weak the integrand increases. -/
theorem ddplus_mono (u : Universe M V) {a : ℝ} (h : 2 * V * a ^ 3 ≤ M) : MonotoneOn (ddplus M V) (Set.Icc 0 a) := by
  intro x hx y hy hxy
  rw [ddplus_eq u hx.1, ddplus_eq u hy.1]
  have hden : ∀ z : ℝ, 0 ≤ z → 0 < M + V * z ^ 3 + (1 - M - V) * z := by
    intro z hz
    have h1 : 0 ≤ V * z ^ 3 := mul_nonneg u.vacuum (pow_nonneg hz 3)
    have h2 : 0 ≤ (1 - M - V) * z := mul_nonneg (by linarith [u.open_]) hz
    linarith [u.matter]
  have hq : x / (M + V * x ^ 3 + (1 - M - V) * x) ≤ y / (M + V * y ^ 3 + (1 - M - V) * y) := by
    rw [div_le_div_iff₀ (hden x hx.1) (hden y hy.1)]
    have hy0 := hy.1
    have h3 : x * y * (x + y) ≤ 2 * a ^ 3 := by
      have e1 : x * y * (x + y) ≤ y * y * (y + y) := by
        have := hx.1
        gcongr
      have e2 : y ^ 3 ≤ a ^ 3 := pow_le_pow_left₀ hy0 hy.2 3
      nlinarith
    have h4 := mul_le_mul_of_nonneg_left h3 u.vacuum
    have h5 : 0 ≤ (y - x) * (M - V * (x * y * (x + y))) := mul_nonneg (by linarith) (by linarith)
    nlinarith
  have := Real.sqrt_le_sqrt hq
  gcongr

/-- One trapezoid below a monotone function. -/
theorem trapezoid_one {f : ℝ → ℝ} {p q : ℝ} (hpq : p ≤ q) (hm : MonotoneOn f (Set.Icc p q)) :
    |(1 / 2 * (f p + f q)) * (q - p) - ∫ x in p..q, f x| ≤ (f q - f p) * (q - p) / 2 := by
  have hi : IntervalIntegrable f MeasureTheory.volume p q := by
    refine MonotoneOn.intervalIntegrable ?_
    rwa [Set.uIcc_of_le hpq]
  have h1 : ∫ _ in p..q, f p ≤ ∫ x in p..q, f x :=
    intervalIntegral.integral_mono_on hpq intervalIntegrable_const hi fun x hx => hm (Set.left_mem_Icc.2 hpq) hx hx.1
  have h2 : ∫ x in p..q, f x ≤ ∫ _ in p..q, f q :=
    intervalIntegral.integral_mono_on hpq hi intervalIntegrable_const fun x hx => hm hx (Set.right_mem_Icc.2 hpq) hx.2
  rw [intervalIntegral.integral_const, smul_eq_mul] at h1 h2
  rw [abs_le]
  constructor <;> linarith

/-- All trapezoids. -/
theorem trapezoid_sum {f : ℝ → ℝ} {d : ℝ} (hd : 0 ≤ d) (n : ℕ) (hm : MonotoneOn f (Set.Icc 0 (n * d))) :
    |(∑ i ∈ Finset.range n, 1 / 2 * (f (i * d) + f ((i + 1) * d))) * d - ∫ x in (0 : ℝ)..n * d, f x|
      ≤ (f (n * d) - f 0) * d / 2 := by
  induction n with
  | zero => simp
  | succ n ih =>
    have hn : (n : ℝ) * d ≤ (n + 1) * d := by nlinarith
    have h0 : 0 ≤ (n : ℝ) * d := by positivity
    push_cast at hm ⊢
    have ih := ih (hm.mono (Set.Icc_subset_Icc_right hn))
    have h1 := trapezoid_one hn (hm.mono (Set.Icc_subset_Icc_left h0))
    have i1 : IntervalIntegrable f MeasureTheory.volume 0 (n * d) := by
      refine MonotoneOn.intervalIntegrable ?_
      rw [Set.uIcc_of_le h0]
      exact hm.mono (Set.Icc_subset_Icc_right hn)
    have i2 : IntervalIntegrable f MeasureTheory.volume (n * d) ((n + 1) * d) := by
      refine MonotoneOn.intervalIntegrable ?_
      rw [Set.uIcc_of_le hn]
      exact hm.mono (Set.Icc_subset_Icc_left h0)
    rw [← intervalIntegral.integral_add_adjacent_intervals i1 i2, Finset.sum_range_succ]
    rw [show ((n : ℝ) + 1) * d - n * d = d by ring] at h1
    rw [abs_le] at ih h1 ⊢
    constructor <;> linarith [ih.1, ih.2, h1.1, h1.2]

/-- The integral is not small against the last value of the integrand. -/
theorem gSum_ge (u : Universe M V) {a : ℝ} (ha : 0 < a) : 2 / 5 * a * ddplus M V a ≤ gSum M V a := by
  have hs := Real.sqrt_pos.2 ha
  have hk : 0 ≤ 1 - M - V := by linarith [u.open_]
  have hden : ∀ z : ℝ, 0 ≤ z → 0 < M + V * z ^ 3 + (1 - M - V) * z := by
    intro z hz
    have h1 : 0 ≤ V * z ^ 3 := mul_nonneg u.vacuum (pow_nonneg hz 3)
    have h2 : 0 ≤ (1 - M - V) * z := mul_nonneg hk hz
    linarith [u.matter]
  have u1 : Universe 1 0 := ⟨one_pos, le_rfl, by norm_num⟩
  let c := Real.sqrt (M + V * a ^ 3 + (1 - M - V) * a)
  have hc : 0 < c := Real.sqrt_pos.2 (hden a ha.le)
  have int : ∀ {M V : ℝ}, Universe M V → IntervalIntegrable (ddplus M V) MeasureTheory.volume 0 a := by
    intro M V u
    refine ((ddplus_continuous u).mono fun x hx => ?_).intervalIntegrable
    rw [Set.uIcc_of_le ha.le] at hx
    exact hx.1
  have e1 : ∀ x, 0 ≤ x → ddplus 1 0 x = 5 / 2 * Real.sqrt x ^ 3 := by
    intro x hx
    rw [ddplus_eq u1 hx]
    simp
  -- the integrand of the flat model with matter only, divided by a constant, is a lower bound
  have hle : ∫ x in (0 : ℝ)..a, (c ^ 3)⁻¹ * ddplus 1 0 x ≤ gSum M V a := by
    refine intervalIntegral.integral_mono_on ha.le ((int u1).const_mul _) (int u) fun x hx => ?_
    rw [e1 x hx.1, ddplus_eq u hx.1, Real.sqrt_div hx.1, div_pow]
    have hx3 : x ^ 3 ≤ a ^ 3 := pow_le_pow_left₀ hx.1 hx.2 3
    have hc' : Real.sqrt (M + V * x ^ 3 + (1 - M - V) * x) ≤ c := by
      refine Real.sqrt_le_sqrt ?_
      have := mul_le_mul_of_nonneg_left hx3 u.vacuum
      have := mul_le_mul_of_nonneg_left hx.2 hk
      linarith
    have hp : 0 < Real.sqrt (M + V * x ^ 3 + (1 - M - V) * x) := Real.sqrt_pos.2 (hden x hx.1)
    rw [show (c ^ 3)⁻¹ * (5 / 2 * Real.sqrt x ^ 3) = 5 / 2 * (Real.sqrt x ^ 3 / c ^ 3) by ring]
    gcongr
  rw [intervalIntegral.integral_const_mul] at hle
  have hm := dplus_matter ha
  have he : eta 1 0 a = (Real.sqrt a)⁻¹ := by simp [eta]
  rw [dplus, he] at hm
  have h2 := Real.sq_sqrt ha.le
  have hI : ∫ x in (0 : ℝ)..a, ddplus 1 0 x = a * a * Real.sqrt a := by
    field_simp at hm
    linarith
  rw [hI] at hle
  refine le_trans (le_of_eq ?_) hle
  rw [ddplus_eq u ha.le, Real.sqrt_div ha.le, div_pow]
  change 2 / 5 * a * (5 / 2 * (Real.sqrt a ^ 3 / c ^ 3)) = _
  rw [show Real.sqrt a ^ 3 = Real.sqrt a ^ 2 * Real.sqrt a by ring, h2]
  field_simp

/-- **C114** While the cosmological constant is weak the sum of the code differs from the exact value by a small part of it: 1/800
with the 1000 trapezoids of the code. -/
theorem C114_trapezoid (u : Universe M V) {a : ℝ} (ha : 0 < a) (h : 2 * V * a ^ 3 ≤ M) {n : ℕ} (hn : 0 < n) :
    |dplusTrap n M V a - dplus M V a| ≤ 5 / (4 * n) * dplus M V a := by
  have hn' : (0 : ℝ) < n := by exact_mod_cast hn
  have he := eta_pos u ha
  have hna : (n : ℝ) * (a / n) = a := by field_simp
  have ht := trapezoid_sum (f := ddplus M V) (d := a / n) (by positivity) n (by rw [hna]; exact ddplus_mono u h)
  rw [hna, show ddplus M V 0 = 0 by simp [ddplus]] at ht
  have hg := gSum_ge u ha
  have hb : (ddplus M V a - 0) * (a / n) / 2 ≤ 5 / (4 * n) * gSum M V a := by
    rw [show (ddplus M V a - 0) * (a / n) / 2 = 5 / (4 * n) * (2 / 5 * a * ddplus M V a) by field_simp; ring]
    gcongr
  have hf : 0 < eta M V a / a := by positivity
  change |eta M V a / a * _ - eta M V a / a * gSum M V a| ≤ 5 / (4 * n) * (eta M V a / a * gSum M V a)
  rw [← mul_sub, abs_mul, abs_of_pos hf]
  calc _ ≤ eta M V a / a * (5 / (4 * n) * gSum M V a) := mul_le_mul_of_nonneg_left (ht.trans hb) hf.le
    _ = _ := by ring

/-- **C114** So the growth rate of the code differs from the exact one, for which `C114_rate` and `C114_displacement_partial` hold,
by little: with 1000 trapezoids by 1/799 of the rate plus 3/2. -/
theorem C114_rate_trapezoid (u : Universe M V) {a : ℝ} (ha : 0 < a) (h : 2 * V * a ^ 3 ≤ M) {n : ℕ} (hn : 2 ≤ n) :
    |fomegaTrap n M V a - fomega M V a| ≤ 5 / (4 * n - 5) * (fomega M V a + 3 / 2) := by
  have hn' : (2 : ℝ) ≤ n := by exact_mod_cast hn
  have h4 : (0 : ℝ) < 4 * n - 5 := by linarith
  have hf := C114_rate_pos u ha
  by_cases hb : 1 ≤ M ∧ V ≤ 0
  · rw [fomegaTrap, if_pos hb, show fomega M V a = 1 by rw [fomega, if_pos hb]]
    norm_num
    positivity
  · have ht := C114_trapezoid u ha h (n := n) (by omega)
    have hd := dplus_pos u ha
    have he := eta_pos u ha
    have e2 := eta_sq u ha
    rw [fomegaTrap, if_neg hb]
    have hfo : fomega M V a = (5 / 2 / dplus M V a - 3 / 2 * M / a - (1 - M - V)) / (eta M V a * eta M V a) := by
      rw [fomega, if_neg hb]
    have hp : (4 * n - 5) / (4 * n) * dplus M V a ≤ dplusTrap n M V a := by
      have := (abs_le.1 ht).1
      have e : (4 * (n : ℝ) - 5) / (4 * n) = 1 - 5 / (4 * n) := by field_simp
      rw [e]
      linarith
    have hq : 0 < (4 * n - 5) / (4 * n) * dplus M V a := by positivity
    have hT : 0 < dplusTrap n M V a := hq.trans_le hp
    -- the inverse
    have hinv : |5 / 2 / dplusTrap n M V a - 5 / 2 / dplus M V a| ≤ 5 / (4 * n - 5) * (5 / 2 / dplus M V a) := by
      have e : 5 / 2 / dplusTrap n M V a - 5 / 2 / dplus M V a
          = -(dplusTrap n M V a - dplus M V a) * (5 / 2 / dplus M V a) / dplusTrap n M V a := by
        field_simp
        ring
      rw [e, abs_div, abs_mul, abs_neg, abs_of_pos hT, abs_of_pos (show 0 < 5 / 2 / dplus M V a by positivity),
        div_le_iff₀ hT]
      have h1 : 5 / (4 * n) * dplus M V a ≤ 5 / (4 * n - 5) * dplusTrap n M V a := by
        refine le_trans (le_of_eq ?_) (mul_le_mul_of_nonneg_left hp (by positivity))
        field_simp
      have h2 := mul_le_mul_of_nonneg_right (ht.trans h1) (show 0 ≤ 5 / 2 / dplus M V a by positivity)
      linarith
    -- the part that is subtracted
    have hP : 3 / 2 * M / a + (1 - M - V) ≤ 3 / 2 * (eta M V a * eta M V a) := by
      have h1 : 0 ≤ V * a * a := mul_nonneg (mul_nonneg u.vacuum ha.le) ha.le
      have h2 : 0 ≤ M / a := div_nonneg u.matter.le ha.le
      have h3 : 3 / 2 * M / a = 3 / 2 * (M / a) := by ring
      rw [← pow_two, e2, h3]
      linarith [u.open_]
    have hee : 0 < eta M V a * eta M V a := mul_pos he he
    have hsum : 5 / 2 / dplus M V a ≤ (fomega M V a + 3 / 2) * (eta M V a * eta M V a) := by
      have : fomega M V a * (eta M V a * eta M V a) = 5 / 2 / dplus M V a - 3 / 2 * M / a - (1 - M - V) := by
        rw [hfo, div_mul_cancel₀ _ hee.ne']
      rw [add_mul, this]
      linarith
    have hdiff : (5 / 2 / dplusTrap n M V a - 3 / 2 * M / a - (1 - M - V)) / (eta M V a * eta M V a) - fomega M V a
        = (5 / 2 / dplusTrap n M V a - 5 / 2 / dplus M V a) / (eta M V a * eta M V a) := by
      rw [hfo]
      ring
    rw [hdiff, abs_div, abs_of_pos hee, div_le_iff₀ hee]
    refine hinv.trans ?_
    rw [mul_assoc]
    exact mul_le_mul_of_nonneg_left hsum (by positivity)

/-- **C114** The displacement of a particle by the code, its velocity times `dt_perturb`, differs from the displacement of linear
theory by a small part of it, if the growth rate of the code is not zero. Missing for the full claim: strong cosmological constants
(`2 omegav a³ > omegam`), and a lower bound of the growth rate of the code. -/
theorem C114_code_partial (u : Universe M V) {A : ℝ → ℝ} {t : ℝ} (hA : Expands M V A t) (h : 2 * V * A t ^ 3 ≤ M) {n : ℕ}
    (hn : 2 ≤ n) (hf : fomegaTrap n M V (A t) ≠ 0) (psi : ℝ) :
    ∃ v, HasDerivAt (fun s => dplus M V (A s) * psi) v t ∧
      |v * dtPerturbTrap n M V (A t) - dplus M V (A t) * psi| ≤
        5 / (4 * n - 5) * (fomega M V (A t) + 3 / 2) / |fomegaTrap n M V (A t)| * |dplus M V (A t) * psi| := by
  obtain ⟨v, hv, hdv⟩ := C114_displacement_partial u hA psi
  refine ⟨v, hv, ?_⟩
  have ha := hA.1
  have hr := C114_rate_trapezoid u ha h hn
  have he := eta_pos u ha
  have hM := Real.sqrt_pos.2 u.matter
  have hp := C114_rate_pos u ha
  have e : v * dtPerturbTrap n M V (A t) - dplus M V (A t) * psi
      = -(fomegaTrap n M V (A t) - fomega M V (A t)) / fomegaTrap n M V (A t) * (dplus M V (A t) * psi) := by
    rw [hdv, dtPerturb, dtPerturbTrap]
    field_simp
    ring
  rw [e, abs_mul, abs_div, abs_neg]
  gcongr

/-- Only matter, where the growth rate is 1: the hypotheses hold. -/
example : ∃ v, HasDerivAt (fun s : ℝ => dplus 1 0 (s ^ 2)⁻¹ * 3) v (-2) ∧
    |v * dtPerturbTrap 1000 1 0 ((-2 : ℝ) ^ 2)⁻¹ - dplus 1 0 ((-2 : ℝ) ^ 2)⁻¹ * 3| ≤
      5 / (4 * (1000 : ℕ) - 5) * (fomega 1 0 ((-2 : ℝ) ^ 2)⁻¹ + 3 / 2) / |fomegaTrap 1000 1 0 ((-2 : ℝ) ^ 2)⁻¹| *
        |dplus 1 0 ((-2 : ℝ) ^ 2)⁻¹ * 3| :=
  C114_code_partial ⟨one_pos, le_rfl, by norm_num⟩ (expands_matter (by norm_num)) (by norm_num) (by norm_num)
    (by simp [fomegaTrap]) 3

/-- The parameters of `Cosmo.h` at `a = 1/50`. -/
example : |dplusTrap 1000 (3 / 10) (7 / 10) (1 / 50) - dplus (3 / 10) (7 / 10) (1 / 50)|
    ≤ 1 / 800 * dplus (3 / 10) (7 / 10) (1 / 50) := by
  have h := C114_trapezoid (M := 3 / 10) (V := 7 / 10) (a := 1 / 50) ⟨by norm_num, by norm_num, by norm_num⟩ (by norm_num)
    (by norm_num) (n := 1000) (by norm_num)
  norm_num at h ⊢
  exact h

end Verif.Cosmo
