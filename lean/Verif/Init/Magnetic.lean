import Mathlib.Analysis.SpecialFunctions.Sqrt
import Mathlib.Analysis.SpecialFunctions.Trigonometric.Deriv
import Mathlib.Analysis.Real.Pi.Bounds
import Verif.Mhd.State

/-!
# C79: initial conditions with a magnetic field

Models of `core/src/init/InitialConditions_orszag_tang.cpp`, `core/src/init/InitialConditions_MHD_rotor.cpp` and of the states of
`core/src/init/InitialConditions_MHD_blast.cpp`, all for `MHDState`; for `GLMMHDState` they add `psi = 0`. Arithmetic is exact and over the real
numbers.
-/

namespace Verif.Init

open Verif.Mhd

/-! ### Model -/

/-- `InitialConditions_orszag_tang.cpp` L48-66. -/
noncomputable def otPrim (x : Fin 3 → ℝ) : Prim ℝ :=
  let rho0 := 25 / (36 * Real.pi)
  let P0 := 5 / (12 * Real.pi)
  let B0 := 1 / √(4 * Real.pi)
  let u := -Real.sin (2 * Real.pi * x 1)
  let v := Real.sin (2 * Real.pi * x 0)
  let Bx := -B0 * Real.sin (2 * Real.pi * x 1)
  let By := B0 * Real.sin (4 * Real.pi * x 0)
  ⟨rho0, P0, u, v, 0, Bx, By, 0⟩

/-- L71-72. -/
noncomputable def otValue (gamma : ℝ) (x : Fin 3 → ℝ) : Cons ℝ := primToCons 3 gamma (otPrim x)

/-- `InitialConditions_MHD_rotor.cpp` L53-97; `mid` is the middle of the domain (L33-34). -/
noncomputable def rotorPrim (mid : Fin 2 → ℝ) (x : Fin 3 → ℝ) : Prim ℝ :=
  let p0 := 1
  let rho0 := 10
  let rho2 := 1
  let r0 := 1 / 10
  let r1 := 115 / 1000
  let u0 := 2
  let ddx := mid 0 - x 0
  let ddy := mid 1 - x 1
  let r2 := ddx * ddx + ddy * ddy
  let r := √r2
  let f := (r1 - r) / (r1 - r0)
  let q := u0 / r0
  let Bx := 5 / √(4 * Real.pi)
  if r < r0 then ⟨rho0, p0, -q * ddy, q * ddx, 0, Bx, 0, 0⟩
  else if r1 < r then ⟨rho2, p0, 0, 0, 0, Bx, 0, 0⟩
  else ⟨rho2 + (rho0 - rho2) * f, p0, -f * q * ddy, f * q * ddx, 0, Bx, 0, 0⟩

/-- L102-104. -/
noncomputable def rotorValue (gamma : ℝ) (mid : Fin 2 → ℝ) (x : Fin 3 → ℝ) : Cons ℝ := primToCons 3 gamma (rotorPrim mid x)

/-- `InitialConditions_MHD_blast.cpp` L90-112: the state of density `rho` and pressure `p`. Which of the two states a cell gets is decided as in
`InitialConditions_blast.cpp` (C77). -/
noncomputable def blastState (gamma B angle rho p : ℝ) : Cons ℝ :=
  let Bx := B * Real.cos angle
  let By := B * Real.sin angle
  let Emag := 1 / 2 * (Bx * Bx + By * By)
  ⟨rho, Emag + p / (gamma - 1), 0, 0, 0, Bx, By, 0⟩

/-! ### Specification -/

/-- The vector field has no divergence at `x`: the derivatives of its components along their axes exist and sum up to 0. -/
def DivFree (B : (Fin 3 → ℝ) → Fin 3 → ℝ) (x : Fin 3 → ℝ) : Prop :=
  ∃ a : Fin 3 → ℝ, (∀ k, HasDerivAt (fun s => B (Function.update x k s) k) (a k) (x k)) ∧ a 0 + a 1 + a 2 = 0

/-- Nor has it a divergence on a mesh: differences of two points at any distances along the axes are 0 in sum. -/
def MeshDivFree (B : (Fin 3 → ℝ) → Fin 3 → ℝ) : Prop :=
  ∀ (x l r : Fin 3 → ℝ), ∑ k : Fin 3, (B (Function.update x k (r k)) k - B (Function.update x k (l k)) k) / (r k - l k) = 0

/-! ### Proofs -/

theorem pressure_prim {gamma : ℝ} (hg : gamma ≠ 1) (q : Prim ℝ) (_hr : q.rho ≠ 0) : pressure 3 gamma (primToCons 3 gamma q) = q.p := by
  have : gamma - 1 ≠ 0 := sub_ne_zero.2 hg
  simp only [pressure, kinetic, magnetic, primToCons, if_true]
  field_simp
  ring

/-- Each component does not depend on its own coordinate. -/
theorem divFree_of_indep {B : (Fin 3 → ℝ) → Fin 3 → ℝ} (h : ∀ x k s, B (Function.update x k s) k = B x k) :
    (∀ x, DivFree B x) ∧ MeshDivFree B := by
  constructor
  · intro x
    refine ⟨fun _ => 0, fun k => ?_, by norm_num⟩
    simp only [h]
    exact hasDerivAt_const _ _
  · intro x l r
    refine Finset.sum_eq_zero fun k _ => ?_
    rw [h, h, sub_self, zero_div]

/-- **C79** The field and the velocity of Orszag and Tang have no divergence, on a mesh neither; the states repeat with period 1 along both axes;
the pressure is the one that is meant. -/
theorem C79_orszag_tang {gamma : ℝ} (hg : gamma ≠ 1) :
    (∀ x, DivFree (fun x => (otValue gamma x).mag) x) ∧ MeshDivFree (fun x => (otValue gamma x).mag) ∧
    (∀ x, DivFree (fun x => (otPrim x).vel) x) ∧
    (∀ x k, k ≠ 2 → otValue gamma (Function.update x k (x k + 1)) = otValue gamma x) ∧
    (∀ x, pressure 3 gamma (otValue gamma x) = 5 / (12 * Real.pi)) := by
  have hB : ∀ x k s, (otValue gamma (Function.update x k s)).mag k = (otValue gamma x).mag k := by
    intro x k s
    fin_cases k
    · simp [otValue, primToCons, Cons.mag, otPrim]
    · simp [otValue, primToCons, Cons.mag, otPrim]
    · rfl
  have hv : ∀ x k s, (otPrim (Function.update x k s)).vel k = (otPrim x).vel k := by
    intro x k s
    fin_cases k
    · simp [Prim.vel, otPrim]
    · simp [Prim.vel, otPrim]
    · rfl
  have p2 : ∀ a : ℝ, Real.sin (2 * Real.pi * (a + 1)) = Real.sin (2 * Real.pi * a) := fun a => by
    rw [mul_add, mul_one, Real.sin_add_two_pi]
  have p4 : ∀ a : ℝ, Real.sin (4 * Real.pi * (a + 1)) = Real.sin (4 * Real.pi * a) := fun a => by
    rw [show 4 * Real.pi * (a + 1) = 4 * Real.pi * a + 2 * Real.pi + 2 * Real.pi by ring, Real.sin_add_two_pi, Real.sin_add_two_pi]
  have hpi := Real.pi_pos
  refine ⟨(divFree_of_indep hB).1, (divFree_of_indep hB).2, (divFree_of_indep hv).1, fun x k hk => ?_, fun x => ?_⟩
  · unfold otValue
    congr 1
    fin_cases k
    · simp [otPrim, p2, p4]
    · simp [otPrim, p2]
    · exact absurd rfl hk
  · exact pressure_prim hg _ (by simp only [otPrim]; positivity)

/-- **C79** With the ratio of specific heats 5/3 the speed of sound is 1, which the flow reaches. -/
theorem C79_orszag_tang_mach (x : Fin 3 → ℝ) :
    5 / 3 * (otPrim x).p / (otPrim x).rho = 1 ∧ |(otPrim x).u| ≤ 1 ∧ |(otPrim x).v| ≤ 1 := by
  have hpi := Real.pi_pos.ne'
  refine ⟨?_, ?_, ?_⟩
  · simp only [otPrim]
    field_simp
    norm_num
  · simp only [otPrim, abs_neg]
    exact Real.abs_sin_le_one _
  · exact Real.abs_sin_le_one _

/-- Distance to the middle of the domain. -/
noncomputable def dist2D (mid : Fin 2 → ℝ) (x : Fin 3 → ℝ) : ℝ := √((x 0 - mid 0) ^ 2 + (x 1 - mid 1) ^ 2)

theorem rotor_r (mid : Fin 2 → ℝ) (x : Fin 3 → ℝ) :
    √((mid 0 - x 0) * (mid 0 - x 0) + (mid 1 - x 1) * (mid 1 - x 1)) = dist2D mid x := by
  unfold dist2D
  congr 1
  ring

/-- How much of the rotation is left at the distance `r`: all of it within 0.1, nothing from 0.115 on. -/
noncomputable def taper (r : ℝ) : ℝ := max 0 (min 1 ((115 / 1000 - r) / (115 / 1000 - 1 / 10)))

theorem rotor_closed (mid : Fin 2 → ℝ) (x : Fin 3 → ℝ) :
    rotorPrim mid x = ⟨1 + 9 * taper (dist2D mid x), 1, 20 * taper (dist2D mid x) * (x 1 - mid 1),
      -(20 * taper (dist2D mid x) * (x 0 - mid 0)), 0, 5 / √(4 * Real.pi), 0, 0⟩ := by
  unfold rotorPrim
  simp only [rotor_r]
  generalize dist2D mid x = r
  unfold taper
  split_ifs with h1 h2
  · have : 1 ≤ (115 / 1000 - r) / (115 / 1000 - 1 / 10) := by
      rw [le_div_iff₀ (by norm_num)]; linarith
    rw [min_eq_left this, max_eq_right (by norm_num)]
    simp only [Prim.mk.injEq, true_and, and_true]
    refine ⟨by norm_num, by ring, by ring⟩
  · have : (115 / 1000 - r) / (115 / 1000 - 1 / 10) ≤ 0 := div_nonpos_of_nonpos_of_nonneg (by linarith) (by norm_num)
    rw [min_eq_right (by linarith), max_eq_left this]
    simp
  · have a : (115 / 1000 - r) / (115 / 1000 - 1 / 10) ≤ 1 := by
      rw [div_le_one (by norm_num)]; linarith
    have b : 0 ≤ (115 / 1000 - r) / (115 / 1000 - 1 / 10) := div_nonneg (by linarith) (by norm_num)
    rw [min_eq_right a, max_eq_right b]
    simp only [Prim.mk.injEq, true_and, and_true]
    refine ⟨by ring, by ring, by ring⟩

theorem dist2D_nonneg (mid : Fin 2 → ℝ) (x : Fin 3 → ℝ) : 0 ≤ dist2D mid x := Real.sqrt_nonneg _

theorem dist2D_sq (mid : Fin 2 → ℝ) (x : Fin 3 → ℝ) : dist2D mid x ^ 2 = (x 0 - mid 0) ^ 2 + (x 1 - mid 1) ^ 2 :=
  Real.sq_sqrt (by positivity)

/-- **C79** The disk of the rotor turns like a rigid body (at a distance of 0.1 with the speed 2, clockwise) with the density 10; from 0.115 on the gas
is at rest with the density 1; the pressure and the field are the same everywhere. -/
theorem C79_rotor {gamma : ℝ} (hg : gamma ≠ 1) (mid : Fin 2 → ℝ) (x : Fin 3 → ℝ) :
    (dist2D mid x ≤ 1 / 10 → (rotorPrim mid x).rho = 10 ∧ (rotorPrim mid x).u = 20 * (x 1 - mid 1) ∧
      (rotorPrim mid x).v = -(20 * (x 0 - mid 0))) ∧
    (115 / 1000 ≤ dist2D mid x → (rotorPrim mid x).rho = 1 ∧ (rotorPrim mid x).u = 0 ∧ (rotorPrim mid x).v = 0) ∧
    pressure 3 gamma (rotorValue gamma mid x) = 1 ∧ (∀ y, (rotorValue gamma mid y).mag = (rotorValue gamma mid x).mag) := by
  have t0 : 0 ≤ taper (dist2D mid x) := le_max_left _ _
  refine ⟨fun h => ?_, fun h => ?_, ?_, fun y => ?_⟩
  · have : taper (dist2D mid x) = 1 := by
      unfold taper
      rw [min_eq_left, max_eq_right (by norm_num)]
      rw [le_div_iff₀ (by norm_num)]; linarith
    rw [rotor_closed, this]
    refine ⟨by norm_num, by simp, by simp⟩
  · have : taper (dist2D mid x) = 0 := by
      unfold taper
      have : (115 / 1000 - dist2D mid x) / (115 / 1000 - 1 / 10) ≤ 0 := div_nonpos_of_nonpos_of_nonneg (by linarith) (by norm_num)
      rw [min_eq_right (by linarith), max_eq_left this]
    rw [rotor_closed, this]
    refine ⟨by norm_num, by simp, by simp⟩
  · rw [rotorValue, pressure_prim hg _ (by rw [rotor_closed]; simp only; positivity), rotor_closed]
  · funext k
    rw [rotorValue, rotorValue, rotor_closed, rotor_closed]
    fin_cases k <;> rfl

/-- **C79** Density and velocity of the rotor are continuous; the velocity is perpendicular to the radius and at most 2. -/
theorem C79_rotor_continuous (mid : Fin 2 → ℝ) :
    Continuous (fun x => (rotorPrim mid x).rho) ∧ Continuous (fun x => (rotorPrim mid x).u) ∧ Continuous (fun x => (rotorPrim mid x).v) ∧
    ∀ x, (rotorPrim mid x).u * (x 0 - mid 0) + (rotorPrim mid x).v * (x 1 - mid 1) = 0 ∧
      (rotorPrim mid x).u ^ 2 + (rotorPrim mid x).v ^ 2 ≤ 2 ^ 2 := by
  have c0 : Continuous fun x : Fin 3 → ℝ => x 0 := continuous_apply 0
  have c1 : Continuous fun x : Fin 3 → ℝ => x 1 := continuous_apply 1
  have cd : Continuous fun x => dist2D mid x := by
    unfold dist2D
    exact Real.continuous_sqrt.comp (((c0.sub continuous_const).pow 2).add ((c1.sub continuous_const).pow 2))
  have ct : Continuous fun x => taper (dist2D mid x) := by
    unfold taper
    exact continuous_const.max (continuous_const.min ((continuous_const.sub cd).div_const _))
  simp only [rotor_closed]
  refine ⟨continuous_const.add (continuous_const.mul ct), (continuous_const.mul ct).mul (c1.sub continuous_const),
    ((continuous_const.mul ct).mul (c0.sub continuous_const)).neg, fun x => ⟨by ring, ?_⟩⟩
  have hd := dist2D_sq mid x
  have hr := dist2D_nonneg mid x
  have e : (20 * taper (dist2D mid x) * (x 1 - mid 1)) ^ 2 + (-(20 * taper (dist2D mid x) * (x 0 - mid 0))) ^ 2 =
      (20 * taper (dist2D mid x) * dist2D mid x) ^ 2 := by
    rw [mul_pow _ (dist2D mid x), hd]; ring
  rw [e]
  generalize dist2D mid x = r at hr
  have key : 0 ≤ 20 * taper r * r ∧ 20 * taper r * r ≤ 2 := by
    unfold taper
    have h0 : (0 : ℝ) ≤ max 0 (min 1 ((115 / 1000 - r) / (115 / 1000 - 1 / 10))) := le_max_left _ _
    refine ⟨by positivity, ?_⟩
    rcases le_total r (1 / 10) with h | h
    · have : max 0 (min 1 ((115 / 1000 - r) / (115 / 1000 - 1 / 10))) ≤ 1 := max_le (by norm_num) (min_le_left _ _)
      nlinarith
    · rcases le_total r (115 / 1000) with h' | h'
      · have a : (115 / 1000 - r) / (115 / 1000 - 1 / 10) ≤ 1 := by
          rw [div_le_one (by norm_num)]; linarith
        have b : 0 ≤ (115 / 1000 - r) / (115 / 1000 - 1 / 10) := div_nonneg (by linarith) (by norm_num)
        rw [min_eq_right a, max_eq_right b]
        have : (115 / 1000 - r) / (115 / 1000 - 1 / 10) = (115 / 1000 - r) * (1000 / 15) := by
          rw [div_eq_mul_inv]; norm_num
        rw [this]
        nlinarith
      · have : (115 / 1000 - r) / (115 / 1000 - 1 / 10) ≤ 0 := div_nonpos_of_nonpos_of_nonneg (by linarith) (by norm_num)
        rw [min_eq_right (by linarith), max_eq_left this]
        norm_num
  exact pow_le_pow_left₀ key.1 key.2 2

/-- **C79** The states of the magnetic blast have the pressure and the strength of the field that are given, and are at rest. -/
theorem C79_blast {gamma : ℝ} (hg : gamma ≠ 1) (B angle rho p : ℝ) :
    pressure 3 gamma (blastState gamma B angle rho p) = p ∧
      magnetic (blastState gamma B angle rho p) = B ^ 2 / 2 ∧ kinetic 3 (blastState gamma B angle rho p) = 0 := by
  have : gamma - 1 ≠ 0 := sub_ne_zero.2 hg
  have hs := Real.sin_sq_add_cos_sq angle
  refine ⟨?_, ?_, ?_⟩
  · simp only [pressure, kinetic, magnetic, blastState, if_true]
    field_simp
    simp
  · simp only [magnetic, blastState]
    linear_combination B ^ 2 / 2 * hs
  · simp [kinetic, blastState]

/-! ### Examples -/

/-- At (1/8, 1/4) the field of Orszag and Tang has both components. -/
example : (otPrim ![1 / 8, 1 / 4, 0]).bx = -(1 / √(4 * Real.pi)) ∧ (otPrim ![1 / 8, 1 / 4, 0]).by' = 1 / √(4 * Real.pi) := by
  have a : Real.sin (2 * Real.pi * (1 / 4)) = 1 := by
    rw [show 2 * Real.pi * (1 / 4) = Real.pi / 2 by ring]; exact Real.sin_pi_div_two
  have b : Real.sin (4 * Real.pi * (1 / 8)) = 1 := by
    rw [show 4 * Real.pi * (1 / 8) = Real.pi / 2 by ring]; exact Real.sin_pi_div_two
  constructor
  · show -(1 / √(4 * Real.pi)) * Real.sin (2 * Real.pi * (1 / 4)) = _
    rw [a, mul_one]
  · show 1 / √(4 * Real.pi) * Real.sin (4 * Real.pi * (1 / 8)) = _
    rw [b, mul_one]

/-- In the disk of the rotor, above the middle. -/
example : (rotorPrim (fun _ => 1 / 2) ![1 / 2, 11 / 20, 0]).u = 1 ∧ (rotorPrim (fun _ => 1 / 2) ![1 / 2, 11 / 20, 0]).v = 0 := by
  have hd : dist2D (fun _ => 1 / 2) ![1 / 2, 11 / 20, 0] ≤ 1 / 10 := by
    unfold dist2D
    rw [Real.sqrt_le_left (by norm_num)]
    norm_num
  obtain ⟨-, h1, h2⟩ := (C79_rotor (gamma := 2) (by norm_num) (fun _ => 1 / 2) ![1 / 2, 11 / 20, 0]).1 hd
  rw [h1, h2]
  norm_num

end Verif.Init
