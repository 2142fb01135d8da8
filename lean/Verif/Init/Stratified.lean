import Mathlib.Analysis.SpecialFunctions.Pow.Deriv
import Mathlib.Analysis.SpecialFunctions.Trigonometric.Basic
import Verif.Hydro.State

/-!
# C76: initial conditions with gravity

Models of `core/src/init/wholesun/InitialConditions_C91.cpp`, of `InitialConditions_tri_layer.cpp` next to it and of
`core/src/init/InitialConditions_rayleigh_taylor.cpp`. Arithmetic is exact and over the real numbers. `pow` of a negative base is
not a number in the code; the theorems have hypotheses that exclude it.
-/

namespace Verif.Init

open Verif.Hydro

/-! ### Model -/

/-- `InitialConditions_C91.cpp` L70, `InitialConditions_tri_layer.cpp` L77, `InitialConditions_rayleigh_taylor.cpp` L75: the direction
of the gravity. -/
def vert (ndim : ℕ) : Fin 3 := if ndim = 2 then 1 else 2

/-- `InitialConditions_C91.cpp` L51, `InitialConditions_tri_layer.cpp` L57, `InitialConditions_rayleigh_taylor.cpp` L52: the seed of the
generator of random numbers of a process. Simplified: `int` without a bound. -/
def poolSeed (seed rank : ℤ) : ℤ := seed * rank + 1

/-- Settings of C91 (L23-34). -/
structure C91 where
  ndim : ℕ
  gamma : ℝ
  theta : ℝ
  amplitude : ℝ
  m : ℝ
  rho0 : ℝ
  T0 : ℝ

/-- `InitialConditions_C91.cpp` L67-91; `r x` is the random number in the interval from 0 to 1 that is drawn for the cell at `x`. -/
noncomputable def C91.value (F : C91) (r : (Fin 3 → ℝ) → ℝ) (x : Fin 3 → ℝ) : Cons ℝ :=
  let d := x (vert F.ndim)
  let T := F.T0 + F.theta * d
  let rho := F.rho0 * (T / F.T0) ^ F.m
  let p := F.rho0 * F.T0 * (T / F.T0) ^ (F.m + 1)
  let pert := F.amplitude * (r x * 2 - 1)
  let pert := if d < 1 / 10 ∨ 9 / 10 < d then 0 else pert
  ⟨rho, p * (1 + pert) / (F.gamma - 1), 0, 0, 0⟩

/-- Settings of tri_layer (L24-36). -/
structure TriLayer where
  ndim : ℕ
  gamma : ℝ
  z1 : ℝ
  z2 : ℝ
  theta1 : ℝ
  theta2 : ℝ
  m1 : ℝ
  m2 : ℝ
  rho0 : ℝ
  T0 : ℝ
  perturbation : ℝ

/-- L94. -/
noncomputable def TriLayer.T1 (F : TriLayer) : ℝ := F.T0 + F.theta2 * F.z1
/-- L95. -/
noncomputable def TriLayer.rho1 (F : TriLayer) : ℝ := F.rho0 * (F.T1 / F.T0) ^ F.m2
/-- L92 and L96. -/
noncomputable def TriLayer.p1 (F : TriLayer) : ℝ := F.rho0 * F.T0 * (F.T1 / F.T0) ^ (F.m2 + 1)
/-- L98. -/
noncomputable def TriLayer.T2 (F : TriLayer) : ℝ := F.T1 + F.theta1 * (F.z2 - F.z1)
/-- L99. -/
noncomputable def TriLayer.rho2 (F : TriLayer) : ℝ := F.rho1 * (F.T2 / F.T1) ^ F.m1
/-- L100. -/
noncomputable def TriLayer.p2 (F : TriLayer) : ℝ := F.p1 * (F.T2 / F.T1) ^ (F.m1 + 1)

/-- `InitialConditions_tri_layer.cpp` L74-135; `r x` is the random number in the interval from -1/2 to 1/2 that is drawn for the cell at
`x`. -/
noncomputable def TriLayer.value (F : TriLayer) (r : (Fin 3 → ℝ) → ℝ) (x : Fin 3 → ℝ) : Cons ℝ :=
  let d := x (vert F.ndim)
  if d ≤ F.z1 then
    let T := F.T0 + F.theta2 * d
    primToCons 3 F.gamma ⟨F.rho0 * (T / F.T0) ^ F.m2, F.rho0 * F.T0 * (T / F.T0) ^ (F.m2 + 1), 0, 0, 0⟩
  else if d ≤ F.z2 then
    let T := F.T1 + F.theta1 * (d - F.z1)
    let pert := F.perturbation * r x
    primToCons 3 F.gamma ⟨F.rho1 * (T / F.T1) ^ F.m1, F.p1 * (1 + pert) * (T / F.T1) ^ (F.m1 + 1), 0, 0, 0⟩
  else
    let T := F.T2 + F.theta2 * (d - F.z2)
    primToCons 3 F.gamma ⟨F.rho2 * (T / F.T2) ^ F.m2, F.p2 * (T / F.T2) ^ (F.m2 + 1), 0, 0, 0⟩

/-- Settings of the Rayleigh-Taylor instability (L18-35). -/
structure RT where
  ndim : ℕ
  gamma : ℝ
  rhoTop : ℝ
  rhoBot : ℝ
  z0 : ℝ
  P0 : ℝ
  amplitude : ℝ
  multiMode : Bool
  gz : ℝ

/-- `InitialConditions_rayleigh_taylor.cpp` L80-90: the vertical velocity. `r x` is a random number from 0 to 1. -/
noncomputable def RT.vz (F : RT) (r : (Fin 3 → ℝ) → ℝ) (x : Fin 3 → ℝ) : ℝ :=
  let z := x (vert F.ndim)
  if F.multiMode then F.amplitude * (r x - 1 / 2) * (1 + Real.cos (2 * Real.pi * z)) * (1 / 2)
  else
    let vz := F.amplitude * (1 + Real.cos (4 * Real.pi * x 0)) * (1 + Real.cos (2 * Real.pi * z)) * (1 / 4)
    if F.ndim = 3 then vz * (1 + Real.cos (4 * Real.pi * x 1)) else vz

/-- `InitialConditions_rayleigh_taylor.cpp` L71-108. -/
noncomputable def RT.value (F : RT) (r : (Fin 3 → ℝ) → ℝ) (x : Fin 3 → ℝ) : Cons ℝ :=
  let z := x (vert F.ndim)
  let rho := if F.z0 < z then F.rhoTop else F.rhoBot
  let u := 0
  let P := F.P0 + rho * F.gz * z
  let vz := F.vz r x
  let v := if F.ndim = 2 then vz else 0
  let w := if F.ndim = 2 then 0 else vz
  let Ek := 1 / 2 * rho * (u * u + v * v + w * w)
  ⟨rho, Ek + P / (F.gamma - 1), rho * u, rho * v, rho * w⟩

/-! ### Specification -/

/-- The gas is at rest. -/
def AtRest (U : Cons ℝ) : Prop := U.ru = 0 ∧ U.rv = 0 ∧ U.rw = 0

/-- At the point `x` the pressure of the states `U` carries the weight: its gradient is the density times the acceleration `g`. -/
def Balanced (U : (Fin 3 → ℝ) → Cons ℝ) (gamma : ℝ) (g : Fin 3 → ℝ) (x : Fin 3 → ℝ) : Prop :=
  ∀ k, HasDerivAt (fun s => pressure 3 gamma (U (Function.update x k s))) ((U x).rho * g k) (x k)

/-- The acceleration is of size `a`, along the axis `v`. -/
def Along (g : Fin 3 → ℝ) (v : Fin 3) (a : ℝ) : Prop := g v = a ∧ ∀ k, k ≠ v → g k = 0

/-! ### Proofs -/

theorem pressure_rest {gamma : ℝ} (h : gamma ≠ 1) (rho p : ℝ) :
    pressure 3 gamma ⟨rho, p / (gamma - 1), 0, 0, 0⟩ = p := by
  have : gamma - 1 ≠ 0 := sub_ne_zero.2 h
  simp only [pressure, kinetic]
  field_simp
  simp

/-- States that depend on the depth alone, near the depth of `x`. -/
theorem balanced_depth {U : (Fin 3 → ℝ) → Cons ℝ} {gamma : ℝ} {x : Fin 3 → ℝ} {v : Fin 3} {P : ℝ → ℝ}
    (hP : ∀ᶠ s in nhds (x v), ∀ y : Fin 3 → ℝ, y v = s → pressure 3 gamma (U y) = P s) {D : ℝ} (hD : HasDerivAt P D (x v))
    (hr : (U x).rho ≠ 0) (g : Fin 3 → ℝ) :
    Balanced U gamma g x ↔ Along g v (D / (U x).rho) := by
  have hv : ∀ E, HasDerivAt (fun s => pressure 3 gamma (U (Function.update x v s))) E (x v) ↔ E = D := by
    intro E
    have e : (fun s => pressure 3 gamma (U (Function.update x v s))) =ᶠ[nhds (x v)] P :=
      hP.mono fun s hs => hs _ (Function.update_self v s x)
    constructor
    · intro h
      exact (h.congr_of_eventuallyEq e.symm).unique hD
    · rintro rfl
      exact hD.congr_of_eventuallyEq e
  have hk : ∀ k, k ≠ v → ∀ E, HasDerivAt (fun s => pressure 3 gamma (U (Function.update x k s))) E (x k) ↔ E = 0 := by
    intro k hk E
    have e : (fun s => pressure 3 gamma (U (Function.update x k s))) = fun _ => P (x v) := by
      funext s
      exact hP.self_of_nhds _ (Function.update_of_ne hk.symm s x)
    rw [e]
    constructor
    · intro h
      exact h.unique (hasDerivAt_const _ _)
    · rintro rfl
      exact hasDerivAt_const _ _
  constructor
  · intro h
    refine ⟨?_, fun k hkv => ?_⟩
    · have := (hv _).1 (h v)
      rw [← this]
      field_simp
    · have := (hk k hkv _).1 (h k)
      simpa [hr] using this
  · rintro ⟨h1, h2⟩ k
    by_cases e : k = v
    · subst e
      rw [hv, h1]
      field_simp
    · rw [hk k e, h2 k e, mul_zero]

/-- The pressure of a polytrope. -/
theorem polytrope_deriv {rhob Tb theta m zb d : ℝ} (hb : 0 < Tb) (hT : 0 < Tb + theta * (d - zb)) :
    HasDerivAt (fun s => rhob * Tb * ((Tb + theta * (s - zb)) / Tb) ^ (m + 1))
      (rhob * ((Tb + theta * (d - zb)) / Tb) ^ m * ((m + 1) * theta)) d := by
  have h1 : HasDerivAt (fun s => (Tb + theta * (s - zb)) / Tb) (theta / Tb) d := by
    have := ((((hasDerivAt_id d).sub_const zb).const_mul theta).const_add Tb).div_const Tb
    simpa using this
  have h2 := (h1.rpow_const (p := m + 1) (Or.inl (div_pos hT hb).ne')).const_mul (rhob * Tb)
  refine h2.congr_deriv ?_
  rw [add_sub_cancel_right]
  field_simp

/-- A function made of two parts that meet with the same slope. -/
theorem hasDerivAt_ite {f g : ℝ → ℝ} {a c : ℝ} (hf : HasDerivAt f c a) (hg : HasDerivAt g c a) (h : f a = g a) :
    HasDerivAt (fun s => if s ≤ a then f s else g s) c a := by
  have h1 : HasDerivWithinAt (fun s => if s ≤ a then f s else g s) c (Set.Iic a) a :=
    hf.hasDerivWithinAt.congr (fun s hs => if_pos hs) (if_pos le_rfl)
  have h2 : HasDerivWithinAt (fun s => if s ≤ a then f s else g s) c (Set.Ici a) a := by
    refine hg.hasDerivWithinAt.congr (fun s hs => ?_) (by rw [if_pos le_rfl, h])
    rcases eq_or_lt_of_le (Set.mem_Ici.1 hs) with e | e
    · rw [← e, if_pos le_rfl, h]
    · rw [if_neg (not_le.2 e)]
  have := h1.union h2
  rwa [Set.Iic_union_Ici, hasDerivWithinAt_univ] at this

/-! ### C91 -/

/-- What the settings of C91 must satisfy. -/
structure C91.Ok (F : C91) : Prop where
  gamma : F.gamma ≠ 1
  rho0 : 0 < F.rho0
  T0 : 0 < F.T0

theorem C91.rho_pos {F : C91} (hF : F.Ok) {r : (Fin 3 → ℝ) → ℝ} {x : Fin 3 → ℝ} (hT : 0 < F.T0 + F.theta * x (vert F.ndim)) :
    0 < (F.value r x).rho :=
  mul_pos hF.rho0 (Real.rpow_pos_of_pos (div_pos hT hF.T0) _)

/-- **C76** C91 is at rest. Without perturbations, and within a tenth of the ends of the unit interval also with them, it is in
equilibrium for exactly one acceleration: `(m + 1) * theta` along the depth. -/
theorem C76_c91 {F : C91} (hF : F.Ok) (r : (Fin 3 → ℝ) → ℝ) {x : Fin 3 → ℝ} (hT : 0 < F.T0 + F.theta * x (vert F.ndim))
    (hA : F.amplitude = 0 ∨ x (vert F.ndim) < 1 / 10 ∨ 9 / 10 < x (vert F.ndim)) (g : Fin 3 → ℝ) :
    AtRest (F.value r x) ∧
      (Balanced (F.value r) F.gamma g x ↔ Along g (vert F.ndim) ((F.m + 1) * F.theta)) := by
  refine ⟨⟨rfl, rfl, rfl⟩, ?_⟩
  have hr := C91.rho_pos hF (r := r) hT
  have key := balanced_depth (U := F.value r) (gamma := F.gamma) (x := x) (v := vert F.ndim)
    (P := fun s => F.rho0 * F.T0 * ((F.T0 + F.theta * (s - 0)) / F.T0) ^ (F.m + 1)) ?_
    (polytrope_deriv (rhob := F.rho0) (theta := F.theta) (m := F.m) (zb := 0) (d := x (vert F.ndim)) hF.T0 (by simpa using hT))
    hr.ne' g
  · rw [key]
    have e : F.rho0 * ((F.T0 + F.theta * (x (vert F.ndim) - 0)) / F.T0) ^ F.m * ((F.m + 1) * F.theta) / (F.value r x).rho =
        (F.m + 1) * F.theta := by
      rw [div_eq_iff hr.ne']
      simp only [C91.value, sub_zero]
      ring
    rw [e]
  · have hev : ∀ᶠ s in nhds (x (vert F.ndim)), F.amplitude = 0 ∨ s < 1 / 10 ∨ 9 / 10 < s := by
      rcases hA with h | h | h
      · exact Filter.Eventually.of_forall fun _ => Or.inl h
      · exact (eventually_lt_nhds h).mono fun _ h => Or.inr (Or.inl h)
      · exact (eventually_gt_nhds h).mono fun _ h => Or.inr (Or.inr h)
    refine hev.mono fun s hs y hy => ?_
    have e : (if s < 1 / 10 ∨ 9 / 10 < s then (0 : ℝ) else F.amplitude * (r y * 2 - 1)) = 0 := by
      rcases hs with h | h
      · rw [h, zero_mul, ite_self]
      · rw [if_pos h]
    simp only [C91.value, hy, e, add_zero, mul_one, pressure_rest hF.gamma, sub_zero]

/-- **C76** The gas of C91 is an ideal gas: the pressure is the density times the temperature, up to the relative amplitude of the
perturbation. -/
theorem C76_c91_gas {F : C91} (hF : F.Ok) {r : (Fin 3 → ℝ) → ℝ} {x : Fin 3 → ℝ} (hT : 0 < F.T0 + F.theta * x (vert F.ndim))
    (h0 : 0 ≤ r x) (h1 : r x ≤ 1) (hA : 0 ≤ F.amplitude) :
    |pressure 3 F.gamma (F.value r x) - (F.value r x).rho * (F.T0 + F.theta * x (vert F.ndim))| ≤
      F.amplitude * ((F.value r x).rho * (F.T0 + F.theta * x (vert F.ndim))) := by
  have hr := C91.rho_pos hF (r := r) hT
  have hg : F.rho0 * F.T0 * ((F.T0 + F.theta * x (vert F.ndim)) / F.T0) ^ (F.m + 1) =
      (F.value r x).rho * (F.T0 + F.theta * x (vert F.ndim)) := by
    have h0 := hF.T0.ne'
    rw [Real.rpow_add (div_pos hT hF.T0), Real.rpow_one]
    simp only [C91.value]
    field_simp
  have hp : ∃ e, |e| ≤ F.amplitude ∧
      pressure 3 F.gamma (F.value r x) = (F.value r x).rho * (F.T0 + F.theta * x (vert F.ndim)) * (1 + e) := by
    refine ⟨if x (vert F.ndim) < 1 / 10 ∨ 9 / 10 < x (vert F.ndim) then 0 else F.amplitude * (r x * 2 - 1), ?_, ?_⟩
    · split_ifs
      · rwa [abs_zero]
      · rw [abs_mul, abs_of_nonneg hA]
        refine mul_le_of_le_one_right hA (abs_le.2 ⟨by linarith, by linarith⟩)
    · rw [← hg]
      exact pressure_rest hF.gamma _ _
  obtain ⟨e, he, hp⟩ := hp
  have hpos := mul_pos hr hT
  rw [hp, mul_add, mul_one, add_sub_cancel_left, abs_mul, abs_of_pos hpos, mul_comm]
  exact mul_le_mul_of_nonneg_right he hpos.le

/-! ### Three layers -/

/-- What the settings of tri_layer must satisfy. -/
structure TriLayer.Ok (F : TriLayer) : Prop where
  gamma : F.gamma ≠ 1
  rho0 : 0 < F.rho0
  T0 : 0 < F.T0
  theta1 : 0 ≤ F.theta1
  theta2 : 0 ≤ F.theta2
  z1 : 0 ≤ F.z1
  z2 : F.z1 ≤ F.z2

section

variable {F : TriLayer} (hF : F.Ok)
include hF

theorem TriLayer.T1_pos : 0 < F.T1 := by
  have := mul_nonneg hF.theta2 hF.z1
  have := hF.T0
  unfold TriLayer.T1
  linarith

theorem TriLayer.T2_pos : 0 < F.T2 := by
  have := mul_nonneg hF.theta1 (sub_nonneg.2 hF.z2)
  have := TriLayer.T1_pos hF
  unfold TriLayer.T2
  linarith

theorem TriLayer.p1_eq : F.p1 = F.rho1 * F.T1 := by
  have h0 := hF.T0
  have h1 := TriLayer.T1_pos hF
  rw [TriLayer.p1, Real.rpow_add (div_pos h1 h0), Real.rpow_one, TriLayer.rho1]
  field_simp

theorem TriLayer.p2_eq : F.p2 = F.rho2 * F.T2 := by
  have h1 := TriLayer.T1_pos hF
  have h2 := TriLayer.T2_pos hF
  rw [TriLayer.p2, Real.rpow_add (div_pos h2 h1), Real.rpow_one, TriLayer.rho2, TriLayer.p1_eq hF]
  field_simp

theorem TriLayer.rho1_pos : 0 < F.rho1 :=
  mul_pos hF.rho0 (Real.rpow_pos_of_pos (div_pos (TriLayer.T1_pos hF) hF.T0) _)

theorem TriLayer.rho2_pos : 0 < F.rho2 :=
  mul_pos (TriLayer.rho1_pos hF) (Real.rpow_pos_of_pos (div_pos (TriLayer.T2_pos hF) (TriLayer.T1_pos hF)) _)

omit hF in
/-- The unperturbed pressure at a depth. -/
noncomputable def TriLayer.P (F : TriLayer) (s : ℝ) : ℝ :=
  if s ≤ F.z1 then F.rho0 * F.T0 * ((F.T0 + F.theta2 * (s - 0)) / F.T0) ^ (F.m2 + 1)
  else if s ≤ F.z2 then F.rho1 * F.T1 * ((F.T1 + F.theta1 * (s - F.z1)) / F.T1) ^ (F.m1 + 1)
  else F.rho2 * F.T2 * ((F.T2 + F.theta2 * (s - F.z2)) / F.T2) ^ (F.m2 + 1)

omit hF in
/-- The density at a depth. -/
noncomputable def TriLayer.R (F : TriLayer) (s : ℝ) : ℝ :=
  if s ≤ F.z1 then F.rho0 * ((F.T0 + F.theta2 * (s - 0)) / F.T0) ^ F.m2
  else if s ≤ F.z2 then F.rho1 * ((F.T1 + F.theta1 * (s - F.z1)) / F.T1) ^ F.m1
  else F.rho2 * ((F.T2 + F.theta2 * (s - F.z2)) / F.T2) ^ F.m2

omit hF in
/-- The slope of the pressure over the density in each layer. -/
noncomputable def TriLayer.G (F : TriLayer) (s : ℝ) : ℝ :=
  if s ≤ F.z1 then (F.m2 + 1) * F.theta2 else if s ≤ F.z2 then (F.m1 + 1) * F.theta1 else (F.m2 + 1) * F.theta2

omit hF in
theorem TriLayer.value_rho (r : (Fin 3 → ℝ) → ℝ) (x : Fin 3 → ℝ) : (F.value r x).rho = F.R (x (vert F.ndim)) := by
  unfold TriLayer.value TriLayer.R
  simp only [sub_zero]
  split_ifs <;> rfl

omit hF in
theorem TriLayer.value_rest (r : (Fin 3 → ℝ) → ℝ) (x : Fin 3 → ℝ) : AtRest (F.value r x) := by
  unfold TriLayer.value AtRest
  simp only
  split_ifs <;> simp [primToCons]

omit hF in
theorem pressure_primToCons {gamma : ℝ} (h : gamma ≠ 1) (rho p : ℝ) : pressure 3 gamma (primToCons 3 gamma ⟨rho, p, 0, 0, 0⟩) = p := by
  have : gamma - 1 ≠ 0 := sub_ne_zero.2 h
  simp only [pressure, kinetic, primToCons]
  field_simp
  simp

theorem TriLayer.pressure_value (r : (Fin 3 → ℝ) → ℝ) (x : Fin 3 → ℝ) :
    pressure 3 F.gamma (F.value r x) = F.P (x (vert F.ndim)) *
      (1 + if F.z1 < x (vert F.ndim) ∧ x (vert F.ndim) ≤ F.z2 then F.perturbation * r x else 0) := by
  unfold TriLayer.value TriLayer.P
  rw [← TriLayer.p1_eq hF, ← TriLayer.p2_eq hF]
  simp only [sub_zero]
  by_cases h1 : x (vert F.ndim) ≤ F.z1
  · rw [if_pos h1, if_pos h1, if_neg (fun h => absurd h.1 (not_lt.2 h1)), pressure_primToCons hF.gamma, add_zero, mul_one]
  · by_cases h2 : x (vert F.ndim) ≤ F.z2
    · rw [if_neg h1, if_neg h1, if_pos h2, if_pos h2, if_pos ⟨not_le.1 h1, h2⟩, pressure_primToCons hF.gamma]
      ring
    · rw [if_neg h1, if_neg h1, if_neg h2, if_neg h2, if_neg (fun h => h2 h.2), pressure_primToCons hF.gamma, add_zero, mul_one]

theorem TriLayer.R_pos {s : ℝ} (hs : 0 ≤ s) : 0 < F.R s := by
  unfold TriLayer.R
  have h0 := hF.T0
  have h1 := TriLayer.T1_pos hF
  have h2 := TriLayer.T2_pos hF
  split_ifs with a b
  · refine mul_pos hF.rho0 (Real.rpow_pos_of_pos (div_pos ?_ h0) _)
    have := mul_nonneg hF.theta2 hs
    rw [sub_zero]; linarith
  · refine mul_pos (TriLayer.rho1_pos hF) (Real.rpow_pos_of_pos (div_pos ?_ h1) _)
    have := mul_nonneg hF.theta1 (sub_nonneg.2 (not_le.1 a).le)
    linarith
  · refine mul_pos (TriLayer.rho2_pos hF) (Real.rpow_pos_of_pos (div_pos ?_ h2) _)
    have := mul_nonneg hF.theta2 (sub_nonneg.2 (not_le.1 b).le)
    linarith

/-- Away from the two interfaces. -/
theorem TriLayer.P_deriv {s : ℝ} (hs : 0 ≤ s) (n1 : s ≠ F.z1) (n2 : s ≠ F.z2) : HasDerivAt F.P (F.R s * F.G s) s := by
  have h0 := hF.T0
  have h1 := TriLayer.T1_pos hF
  have h2 := TriLayer.T2_pos hF
  have hz := hF.z2
  rcases lt_or_gt_of_ne n1 with a | a
  · have e : F.P =ᶠ[nhds s] fun s => F.rho0 * F.T0 * ((F.T0 + F.theta2 * (s - 0)) / F.T0) ^ (F.m2 + 1) :=
      (eventually_lt_nhds a).mono fun t ht => if_pos (le_of_lt ht)
    have := mul_nonneg hF.theta2 hs
    rw [TriLayer.R, TriLayer.G, if_pos a.le, if_pos a.le]
    exact (polytrope_deriv h0 (by rw [sub_zero]; linarith)).congr_of_eventuallyEq e
  · rcases lt_or_gt_of_ne n2 with b | b
    · have e : F.P =ᶠ[nhds s] fun s => F.rho1 * F.T1 * ((F.T1 + F.theta1 * (s - F.z1)) / F.T1) ^ (F.m1 + 1) := by
        filter_upwards [eventually_gt_nhds a, eventually_lt_nhds b] with t h1 h2
        rw [TriLayer.P, if_neg (not_le.2 h1), if_pos h2.le]
      have := mul_nonneg hF.theta1 (sub_nonneg.2 a.le)
      rw [TriLayer.R, TriLayer.G, if_neg (not_le.2 a), if_neg (not_le.2 a), if_pos b.le, if_pos b.le]
      exact (polytrope_deriv h1 (by linarith)).congr_of_eventuallyEq e
    · have e : F.P =ᶠ[nhds s] fun s => F.rho2 * F.T2 * ((F.T2 + F.theta2 * (s - F.z2)) / F.T2) ^ (F.m2 + 1) := by
        filter_upwards [eventually_gt_nhds a, eventually_gt_nhds b] with t h1 h2
        rw [TriLayer.P, if_neg (not_le.2 h1), if_neg (not_le.2 h2)]
      have := mul_nonneg hF.theta2 (sub_nonneg.2 b.le)
      rw [TriLayer.R, TriLayer.G, if_neg (not_le.2 a), if_neg (not_le.2 a), if_neg (not_le.2 b), if_neg (not_le.2 b)]
      exact (polytrope_deriv h2 (by linarith)).congr_of_eventuallyEq e

/-- At the interfaces, if the layers ask for the same acceleration. -/
theorem TriLayer.P_deriv_all (hg : (F.m1 + 1) * F.theta1 = (F.m2 + 1) * F.theta2) {s : ℝ} (hs : 0 ≤ s) :
    HasDerivAt F.P (F.R s * ((F.m2 + 1) * F.theta2)) s := by
  have h0 := hF.T0
  have h1 := TriLayer.T1_pos hF
  have h2 := TriLayer.T2_pos hF
  have hz := hF.z2
  have hz1 := hF.z1
  have hG : F.G s = (F.m2 + 1) * F.theta2 := by
    unfold TriLayer.G; split_ifs <;> first | rfl | exact hg
  by_cases n1 : s = F.z1
  · -- the three formulas at `z1`
    subst n1
    have dA : HasDerivAt (fun s => F.rho0 * F.T0 * ((F.T0 + F.theta2 * (s - 0)) / F.T0) ^ (F.m2 + 1))
        (F.rho1 * ((F.m2 + 1) * F.theta2)) F.z1 := by
      have := polytrope_deriv (rhob := F.rho0) (theta := F.theta2) (m := F.m2) (zb := 0) (d := F.z1) h0
        (by rw [sub_zero]; exact h1)
      refine this.congr_deriv ?_
      rw [sub_zero]; rfl
    have dB : HasDerivAt (fun s => F.rho1 * F.T1 * ((F.T1 + F.theta1 * (s - F.z1)) / F.T1) ^ (F.m1 + 1))
        (F.rho1 * ((F.m2 + 1) * F.theta2)) F.z1 := by
      have := polytrope_deriv (rhob := F.rho1) (theta := F.theta1) (m := F.m1) (zb := F.z1) (d := F.z1) h1
        (by rw [sub_self, mul_zero, add_zero]; exact h1)
      refine this.congr_deriv ?_
      rw [sub_self, mul_zero, add_zero, div_self h1.ne', Real.one_rpow, hg, mul_one]
    have eA : F.rho0 * F.T0 * ((F.T0 + F.theta2 * (F.z1 - 0)) / F.T0) ^ (F.m2 + 1) = F.rho1 * F.T1 := by
      rw [← TriLayer.p1_eq hF, sub_zero]; rfl
    have eB : F.rho1 * F.T1 * ((F.T1 + F.theta1 * (F.z1 - F.z1)) / F.T1) ^ (F.m1 + 1) = F.rho1 * F.T1 := by
      rw [sub_self, mul_zero, add_zero, div_self h1.ne', Real.one_rpow, mul_one]
    have eR : F.R F.z1 = F.rho1 := by
      rw [TriLayer.R, if_pos le_rfl, sub_zero]; rfl
    rw [eR]
    rcases eq_or_lt_of_le hz with e | hlt
    · -- the middle layer has no thickness
      have eT : F.T2 = F.T1 := by rw [TriLayer.T2, ← e, sub_self, mul_zero, add_zero]
      have er : F.rho2 = F.rho1 := by rw [TriLayer.rho2, eT, div_self h1.ne', Real.one_rpow, mul_one]
      have dC : HasDerivAt (fun s => F.rho2 * F.T2 * ((F.T2 + F.theta2 * (s - F.z2)) / F.T2) ^ (F.m2 + 1))
          (F.rho1 * ((F.m2 + 1) * F.theta2)) F.z1 := by
        have := polytrope_deriv (rhob := F.rho2) (theta := F.theta2) (m := F.m2) (zb := F.z2) (d := F.z1) h2
          (by rw [e, sub_self, mul_zero, add_zero]; exact h2)
        refine this.congr_deriv ?_
        rw [← e, sub_self, mul_zero, add_zero, div_self h2.ne', Real.one_rpow, er, mul_one]
      have := hasDerivAt_ite dA dC (by
        rw [eA, ← e, sub_self, mul_zero, add_zero, div_self h2.ne', Real.one_rpow, er, eT, mul_one])
      refine this.congr_of_eventuallyEq (Filter.Eventually.of_forall fun t => ?_)
      by_cases ht : t ≤ F.z1
      · simp only [TriLayer.P, if_pos ht]
      · simp only [TriLayer.P, if_neg ht, if_neg (e ▸ ht : ¬ t ≤ F.z2)]
    · have := hasDerivAt_ite dA dB (by rw [eA, eB])
      refine this.congr_of_eventuallyEq ((eventually_lt_nhds hlt).mono fun t ht2 => ?_)
      by_cases ht : t ≤ F.z1
      · simp only [TriLayer.P, if_pos ht]
      · simp only [TriLayer.P, if_neg ht, if_pos ht2.le]
  · by_cases n2 : s = F.z2
    · subst n2
      have hlt : F.z1 < F.z2 := lt_of_le_of_ne hz (Ne.symm n1)
      have dB : HasDerivAt (fun s => F.rho1 * F.T1 * ((F.T1 + F.theta1 * (s - F.z1)) / F.T1) ^ (F.m1 + 1))
          (F.rho2 * ((F.m2 + 1) * F.theta2)) F.z2 := by
        have := polytrope_deriv (rhob := F.rho1) (theta := F.theta1) (m := F.m1) (zb := F.z1) (d := F.z2) h1 h2
        refine this.congr_deriv ?_
        rw [hg]; rfl
      have dC : HasDerivAt (fun s => F.rho2 * F.T2 * ((F.T2 + F.theta2 * (s - F.z2)) / F.T2) ^ (F.m2 + 1))
          (F.rho2 * ((F.m2 + 1) * F.theta2)) F.z2 := by
        have := polytrope_deriv (rhob := F.rho2) (theta := F.theta2) (m := F.m2) (zb := F.z2) (d := F.z2) h2
          (by rw [sub_self, mul_zero, add_zero]; exact h2)
        refine this.congr_deriv ?_
        rw [sub_self, mul_zero, add_zero, div_self h2.ne', Real.one_rpow, mul_one]
      have eR : F.R F.z2 = F.rho2 := by
        rw [TriLayer.R, if_neg (not_le.2 hlt), if_pos le_rfl]; rfl
      rw [eR]
      have := hasDerivAt_ite dB dC (by
        rw [sub_self, mul_zero, add_zero, div_self h2.ne', Real.one_rpow, mul_one, ← TriLayer.p2_eq hF, ← TriLayer.p1_eq hF]; rfl)
      refine this.congr_of_eventuallyEq ((eventually_gt_nhds hlt).mono fun t ht1 => ?_)
      by_cases ht : t ≤ F.z2
      · simp only [TriLayer.P, if_neg (not_le.2 ht1), if_pos ht]
      · simp only [TriLayer.P, if_neg (not_le.2 ht1), if_neg ht]
    · exact (TriLayer.P_deriv hF hs n1 n2).congr_deriv (by rw [hG])

/-- The pressure changes with the perturbation by no more than half of its relative amplitude, and outside of the middle layer not at all. -/
theorem C76_trilayer_perturbation {r : (Fin 3 → ℝ) → ℝ} {x : Fin 3 → ℝ} (hr : |r x| ≤ 1 / 2) (hA : 0 ≤ F.perturbation)
    (hx : 0 ≤ F.P (x (vert F.ndim))) (r0 : (Fin 3 → ℝ) → ℝ) :
    |pressure 3 F.gamma (F.value r x) - pressure 3 F.gamma ({ F with perturbation := 0 }.value r0 x)| ≤
      (if F.z1 < x (vert F.ndim) ∧ x (vert F.ndim) ≤ F.z2 then F.perturbation / 2 else 0) *
        pressure 3 F.gamma ({ F with perturbation := 0 }.value r0 x) := by
  have e : pressure 3 F.gamma ({ F with perturbation := 0 }.value r0 x) = F.P (x (vert F.ndim)) := by
    have hF' : ({ F with perturbation := 0 } : TriLayer).Ok := ⟨hF.1, hF.2, hF.3, hF.4, hF.5, hF.6, hF.7⟩
    have := TriLayer.pressure_value hF' r0 x
    simp only [zero_mul, ite_self, add_zero, mul_one] at this
    exact this
  rw [e, TriLayer.pressure_value hF]
  split_ifs
  · rw [mul_add, mul_one, add_sub_cancel_left, abs_mul, abs_of_nonneg hx, mul_comm, abs_mul, abs_of_nonneg hA]
    refine mul_le_mul_of_nonneg_right ?_ hx
    calc F.perturbation * |r x| ≤ F.perturbation * (1 / 2) := mul_le_mul_of_nonneg_left hr hA
      _ = F.perturbation / 2 := by ring
  · simp

/-- **C76** Three layers without perturbations are at rest. They are in equilibrium with an acceleration, at all depths and at the
interfaces too, if and only if it is along the depth and both `(m1 + 1) * theta1` and `(m2 + 1) * theta2`. -/
theorem C76_trilayer (hz : F.z1 < F.z2) (hA : F.perturbation = 0) (r : (Fin 3 → ℝ) → ℝ) (g : Fin 3 → ℝ) :
    (∀ x, AtRest (F.value r x)) ∧
      ((∀ x : Fin 3 → ℝ, 0 ≤ x (vert F.ndim) → Balanced (F.value r) F.gamma g x) ↔
        Along g (vert F.ndim) ((F.m1 + 1) * F.theta1) ∧ Along g (vert F.ndim) ((F.m2 + 1) * F.theta2)) := by
  refine ⟨fun x => TriLayer.value_rest r x, ?_⟩
  have hP : ∀ x : Fin 3 → ℝ, ∀ᶠ s in nhds (x (vert F.ndim)), ∀ y : Fin 3 → ℝ, y (vert F.ndim) = s →
      pressure 3 F.gamma (F.value r y) = F.P s := fun x => Filter.Eventually.of_forall fun s y hy => by
    rw [TriLayer.pressure_value hF, hA, zero_mul, ite_self, add_zero, mul_one, hy]
  have hrho : ∀ x : Fin 3 → ℝ, 0 ≤ x (vert F.ndim) → (F.value r x).rho ≠ 0 := fun x hx => by
    rw [TriLayer.value_rho]; exact (TriLayer.R_pos hF hx).ne'
  have hz1 := hF.z1
  constructor
  · intro h
    have at' : ∀ s, 0 ≤ s → s ≠ F.z1 → s ≠ F.z2 → Along g (vert F.ndim) (F.G s) := by
      intro s hs n1 n2
      have hx : (fun _ : Fin 3 => s) (vert F.ndim) = s := rfl
      have := (balanced_depth (hP fun _ => s) (TriLayer.P_deriv hF hs n1 n2) (hrho (fun _ => s) hs) g).1 (h (fun _ => s) hs)
      rw [TriLayer.value_rho] at this
      have e : F.R s * F.G s / F.R s = F.G s := mul_div_cancel_left₀ _ (TriLayer.R_pos hF hs).ne'
      rwa [e] at this
    refine ⟨?_, ?_⟩
    · have := at' ((F.z1 + F.z2) / 2) (by linarith) (by linarith) (by linarith)
      rwa [TriLayer.G, if_neg (by linarith), if_pos (by linarith)] at this
    · have := at' (F.z2 + 1) (by linarith) (by linarith) (by linarith)
      rwa [TriLayer.G, if_neg (by linarith), if_neg (by linarith)] at this
  · rintro ⟨h1, h2⟩ x hx
    refine (balanced_depth (hP x) (TriLayer.P_deriv_all hF (h1.1.symm.trans h2.1) hx) (hrho x hx) g).2 ?_
    rw [TriLayer.value_rho]
    have e : F.R (x (vert F.ndim)) * ((F.m2 + 1) * F.theta2) / F.R (x (vert F.ndim)) = (F.m2 + 1) * F.theta2 :=
      mul_div_cancel_left₀ _ (TriLayer.R_pos hF hx).ne'
    rwa [e]

end

/-! ### Rayleigh-Taylor -/

theorem RT.pressure_value {F : RT} (hg : F.gamma ≠ 1) (r : (Fin 3 → ℝ) → ℝ) (x : Fin 3 → ℝ) (_hr : (F.value r x).rho ≠ 0) :
    pressure 3 F.gamma (F.value r x) = F.P0 + (F.value r x).rho * F.gz * x (vert F.ndim) := by
  have : F.gamma - 1 ≠ 0 := sub_ne_zero.2 hg
  simp only [pressure, kinetic, RT.value, if_true] at _hr ⊢
  generalize (if F.z0 < x (vert F.ndim) then F.rhoTop else F.rhoBot) = rho at _hr ⊢
  generalize (if F.ndim = 2 then F.vz r x else 0) = v
  generalize (if F.ndim = 2 then 0 else F.vz r x) = w
  field_simp
  ring

/-- What the settings of the Rayleigh-Taylor instability must satisfy. -/
structure RT.Ok (F : RT) : Prop where
  gamma : F.gamma ≠ 1
  rhoTop : 0 < F.rhoTop
  rhoBot : 0 < F.rhoBot

theorem RT.rho_pos {F : RT} (hF : F.Ok) (r : (Fin 3 → ℝ) → ℝ) (x : Fin 3 → ℝ) : 0 < (F.value r x).rho := by
  simp only [RT.value]
  split_ifs
  · exact hF.rhoTop
  · exact hF.rhoBot

/-- The pressure at a height. -/
noncomputable def RT.P (F : RT) (s : ℝ) : ℝ := F.P0 + (if F.z0 < s then F.rhoTop else F.rhoBot) * F.gz * s

theorem RT.pressure_eq {F : RT} (hF : F.Ok) (r : (Fin 3 → ℝ) → ℝ) (x : Fin 3 → ℝ) :
    pressure 3 F.gamma (F.value r x) = F.P (x (vert F.ndim)) := by
  rw [RT.pressure_value hF.gamma r x (RT.rho_pos hF r x).ne']
  rfl

/-- **C76** Each of the two fluids of the Rayleigh-Taylor instability is in equilibrium with the gravity of the settings, and only with
this one, with or without initial velocities. -/
theorem C76_rt_layers {F : RT} (hF : F.Ok) (r : (Fin 3 → ℝ) → ℝ) {x : Fin 3 → ℝ} (hx : x (vert F.ndim) ≠ F.z0) (g : Fin 3 → ℝ) :
    Balanced (F.value r) F.gamma g x ↔ Along g (vert F.ndim) F.gz := by
  have hr := RT.rho_pos hF r x
  have hd : HasDerivAt F.P ((F.value r x).rho * F.gz) (x (vert F.ndim)) := by
    have e : F.P =ᶠ[nhds (x (vert F.ndim))] fun s => F.P0 + (F.value r x).rho * F.gz * s := by
      rcases lt_or_gt_of_ne hx with h | h
      · refine (eventually_lt_nhds h).mono fun s hs => ?_
        simp only [RT.P, RT.value, if_neg (not_lt.2 (le_of_lt hs)), if_neg (not_lt.2 h.le)]
      · refine (eventually_gt_nhds h).mono fun s hs => ?_
        simp only [RT.P, RT.value, if_pos (show F.z0 < s from hs), if_pos (show F.z0 < x (vert F.ndim) from h)]
    have := ((hasDerivAt_id (x (vert F.ndim))).const_mul ((F.value r x).rho * F.gz)).const_add F.P0
    rw [mul_one] at this
    exact this.congr_of_eventuallyEq e
  rw [balanced_depth (Filter.Eventually.of_forall fun s y hy => by rw [RT.pressure_eq hF, hy]) hd hr.ne' g]
  rw [mul_div_cancel_left₀ _ hr.ne']

/-- The two fluids press on each other equally: along every vertical line the pressure is continuous. -/
def SamePressure (U : (Fin 3 → ℝ) → Cons ℝ) (gamma : ℝ) (v : Fin 3) : Prop :=
  ∀ x : Fin 3 → ℝ, Continuous fun s => pressure 3 gamma (U (Function.update x v s))

/-- **C76** The pressure is the same on both sides of the interface only if the interface is at 0, or the densities are equal, or there is
no gravity. Missing: other heights of the interface (`C76_rt_fails`). -/
theorem C76_rt_partial {F : RT} (hF : F.Ok) (r : (Fin 3 → ℝ) → ℝ) :
    SamePressure (F.value r) F.gamma (vert F.ndim) ↔ F.z0 = 0 ∨ F.rhoTop = F.rhoBot ∨ F.gz = 0 := by
  have hP : ∀ x : Fin 3 → ℝ, (fun s => pressure 3 F.gamma (F.value r (Function.update x (vert F.ndim) s))) = F.P := by
    intro x; funext s
    rw [RT.pressure_eq hF, Function.update_self]
  have hlin : ∀ c : ℝ, Continuous fun s : ℝ => F.P0 + c * F.gz * s := fun c =>
    continuous_const.add (continuous_const.mul continuous_id)
  have hS : SamePressure (F.value r) F.gamma (vert F.ndim) ↔ Continuous F.P :=
    ⟨fun h => hP 0 ▸ h 0, fun h x => hP x ▸ h⟩
  rw [hS]
  constructor
  · intro h
    -- limits from above and at the interface
    have h1 : Filter.Tendsto F.P (nhdsWithin F.z0 (Set.Ioi F.z0)) (nhds (F.P F.z0)) := h.continuousWithinAt.tendsto
    have h2 : Filter.Tendsto F.P (nhdsWithin F.z0 (Set.Ioi F.z0)) (nhds (F.P0 + F.rhoTop * F.gz * F.z0)) := by
      refine ((hlin F.rhoTop).continuousWithinAt (s := Set.Ioi F.z0) (x := F.z0)).tendsto.congr' ?_
      filter_upwards [self_mem_nhdsWithin] with s hs
      rw [RT.P, if_pos (show F.z0 < s from hs)]
    have h3 := tendsto_nhds_unique h1 h2
    rw [RT.P, if_neg (lt_irrefl _)] at h3
    have h4 : F.z0 * ((F.rhoTop - F.rhoBot) * F.gz) = 0 := by linear_combination -h3
    rcases mul_eq_zero.1 h4 with h | h
    · exact Or.inl h
    · rcases mul_eq_zero.1 h with h | h
      · exact Or.inr (Or.inl (sub_eq_zero.1 h))
      · exact Or.inr (Or.inr h)
  · intro h
    have e : ∀ s, F.P s = if s ≤ F.z0 then F.P0 + F.rhoBot * F.gz * s else F.P0 + F.rhoTop * F.gz * s := by
      intro s
      by_cases hs : s ≤ F.z0
      · rw [RT.P, if_neg (not_lt.2 hs), if_pos hs]
      · rw [RT.P, if_pos (not_le.1 hs), if_neg hs]
    rw [show F.P = fun s => _ from funext e]
    refine Continuous.if_le (hlin _) (hlin _) continuous_id continuous_const fun s hs => ?_
    rcases h with h | h | h
    · rw [hs, h]; ring
    · rw [h]
    · rw [h]; ring

/-- **C76** does not hold for an interface at another height: with the densities, the pressure and the gravity of the default settings and
the interface in the middle of the unit cube, the pressure jumps there. -/
theorem C76_rt_fails : ∃ F : RT, F.Ok ∧ F.z0 = 1 / 2 ∧
    ∀ r, ¬ SamePressure (F.value r) F.gamma (vert F.ndim) := by
  refine ⟨⟨3, 7 / 5, 2, 1, 1 / 2, 5 / 2, 0, false, -1 / 10⟩, ⟨by norm_num, by norm_num, by norm_num⟩, rfl, fun r h => ?_⟩
  rw [C76_rt_partial ⟨by norm_num, by norm_num, by norm_num⟩ r] at h
  norm_num at h

/-- **C76** In two dimensions the vertical velocity of a single mode is at most the amplitude of the settings, which it reaches. Missing:
three dimensions (`C76_rt_amplitude_fails`). -/
theorem C76_rt_amplitude_partial {F : RT} (h2 : F.ndim = 2) (hm : F.multiMode = false) (hA : 0 ≤ F.amplitude) (r : (Fin 3 → ℝ) → ℝ) :
    (∀ x, 0 ≤ F.vz r x ∧ F.vz r x ≤ F.amplitude) ∧ F.vz r 0 = F.amplitude := by
  have e : ∀ x, F.vz r x = F.amplitude *
      ((1 + Real.cos (4 * Real.pi * x 0)) * (1 + Real.cos (2 * Real.pi * x (vert 2))) * (1 / 4)) := by
    intro x
    simp only [RT.vz, hm, h2]
    norm_num
    ring
  constructor
  · intro x
    rw [e]
    have a1 := Real.neg_one_le_cos (4 * Real.pi * x 0)
    have a2 := Real.cos_le_one (4 * Real.pi * x 0)
    have b1 := Real.neg_one_le_cos (2 * Real.pi * x (vert 2))
    have b2 := Real.cos_le_one (2 * Real.pi * x (vert 2))
    have c1 : 0 ≤ (1 + Real.cos (4 * Real.pi * x 0)) * (1 + Real.cos (2 * Real.pi * x (vert 2))) :=
      mul_nonneg (by linarith) (by linarith)
    have c2 : (1 + Real.cos (4 * Real.pi * x 0)) * (1 + Real.cos (2 * Real.pi * x (vert 2))) ≤ 2 * 2 :=
      mul_le_mul (by linarith) (by linarith) (by linarith) (by norm_num)
    exact ⟨mul_nonneg hA (by linarith), mul_le_of_le_one_right hA (by linarith)⟩
  · rw [e]
    simp only [Pi.zero_apply, mul_zero, Real.cos_zero]
    norm_num

/-- **C76** does not hold in three dimensions: the velocity reaches twice the amplitude of the settings. -/
theorem C76_rt_amplitude_fails {F : RT} (h3 : F.ndim = 3) (hm : F.multiMode = false) (r : (Fin 3 → ℝ) → ℝ) :
    F.vz r 0 = 2 * F.amplitude := by
  simp only [RT.vz, hm, h3, Pi.zero_apply, mul_zero, Real.cos_zero]
  norm_num
  ring

/-! ### Seeds -/

/-- **C76** The processes of a run draw different random numbers, and all but the first draw others if the seed of the settings changes.
Missing: the first process (`C76_seed_fails`). -/
theorem C76_seed_partial {seed : ℤ} (hs : seed ≠ 0) :
    (∀ a b, poolSeed seed a = poolSeed seed b → a = b) ∧
      ∀ seed' rank, rank ≠ 0 → poolSeed seed rank = poolSeed seed' rank → seed = seed' := by
  constructor
  · intro a b h
    exact mul_left_cancel₀ hs (add_right_cancel h)
  · intro seed' rank hr h
    exact mul_right_cancel₀ hr (add_right_cancel h)

/-- **C76** does not hold for the first process, the only one of a serial run: its generator starts with 1 whatever the seed. -/
theorem C76_seed_fails : ∀ seed seed', poolSeed seed 0 = poolSeed seed' 0 := by
  intro seed seed'; simp [poolSeed]

/-! ### Examples -/

/-- C91 with the default settings, in the middle of the box, without perturbations. -/
example : Balanced (C91.value ⟨2, 7 / 5, 10, 0, 1, 10, 10⟩ fun _ => 1 / 3) (7 / 5) ![0, 20, 0] (fun _ => 1 / 2) := by
  refine ((C76_c91 (F := ⟨2, 7 / 5, 10, 0, 1, 10, 10⟩) ⟨by norm_num, by norm_num, by norm_num⟩ (fun _ => 1 / 3)
    (by norm_num) (Or.inl rfl) ![0, 20, 0]).2).2 ⟨?_, ?_⟩
  · norm_num [vert]
  · intro k hk
    fin_cases k
    · rfl
    · exact absurd rfl hk
    · rfl

/-- Three layers with different slopes of the temperature that ask for the same acceleration 20. -/
example : ∀ x : Fin 3 → ℝ, 0 ≤ x 2 →
    Balanced (TriLayer.value ⟨3, 5 / 3, 1, 2, 10, 5, 1, 3, 10, 10, 0⟩ fun _ => 0) (5 / 3) ![0, 0, 20] x := by
  have hF : TriLayer.Ok ⟨3, 5 / 3, 1, 2, 10, 5, 1, 3, 10, 10, 0⟩ := by constructor <;> norm_num
  refine (C76_trilayer hF (by norm_num) rfl (fun _ => 0) ![0, 0, 20]).2.2 ⟨⟨?_, ?_⟩, ⟨?_, ?_⟩⟩
  · norm_num [vert]
    rfl
  · intro k hk
    fin_cases k
    · rfl
    · rfl
    · exact absurd rfl hk
  · norm_num [vert]
    rfl
  · intro k hk
    fin_cases k
    · rfl
    · rfl
    · exact absurd rfl hk

/-- Three layers with equal slopes and different indices are in equilibrium with no acceleration. -/
example (g : Fin 3 → ℝ) : ¬ ∀ x : Fin 3 → ℝ, 0 ≤ x 2 →
    Balanced (TriLayer.value ⟨3, 5 / 3, 1, 2, 1, 1, 1, 2, 10, 10, 0⟩ fun _ => 0) (5 / 3) g x := by
  have hF : TriLayer.Ok ⟨3, 5 / 3, 1, 2, 1, 1, 1, 2, 10, 10, 0⟩ := by constructor <;> norm_num
  intro h
  have := (C76_trilayer hF (by norm_num) rfl (fun _ => 0) g).2.1 h
  have := this.1.1.symm.trans this.2.1
  norm_num at this

/-- Rayleigh-Taylor with the default settings, in which the interface is at 0. -/
example : SamePressure (RT.value ⟨2, 7 / 5, 2, 1, 0, 5 / 2, 1 / 100, false, -1 / 10⟩ fun _ => 0) (7 / 5) 1 :=
  (C76_rt_partial (F := ⟨2, 7 / 5, 2, 1, 0, 5 / 2, 1 / 100, false, -1 / 10⟩) ⟨by norm_num, by norm_num, by norm_num⟩ _).2 (Or.inl rfl)

end Verif.Init
