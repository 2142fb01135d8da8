import Verif.Hydro.State
import Mathlib.Analysis.SpecialFunctions.Trigonometric.DerivHyp
import Mathlib.Analysis.SpecialFunctions.Sqrt
import Mathlib.Analysis.SpecialFunctions.Trigonometric.Basic
import Mathlib.Tactic.FinCases

/-!
# C104: the hydrodynamic test problems

Models of `core/src/init/InitialConditions_sod.cpp`, `InitialConditions_implode.cpp`, `InitialConditions_riemann2d.cpp` and
`InitialConditions_kelvin_helmholtz.cpp`: the states that they give to cells. Arithmetic is exact. The conservative states have
members that are 0 unless they are set (`core/src/states/State_hydro.h` L38-42).
-/

namespace Verif.Init.Problems

open Verif.Hydro

/-! ### Model -/

section

variable {K : Type} [Field K] [LinearOrder K]

/-- Two states of a gas at rest. -/
structure TwoStates (K : Type) where
  pA : K
  rhoA : K
  pB : K
  rhoB : K

/-- `InitialConditions_sod.cpp` L41-52. -/
def sodValue (s : TwoStates K) (x0 gamma x : K) : Cons K :=
  let p := if x < x0 then s.pA else s.pB
  let rho := if x < x0 then s.rhoA else s.rhoB
  ⟨rho, p / (gamma - 1), 0, 0, 0⟩

/-- `InitialConditions_sod.cpp` L34-39. -/
def sodNeedRefine (x0 x dx : K) : Bool := decide (|x - x0| < 11 / 10 * dx)

/-- `InitialConditions_implode.cpp` L58-76. -/
def implodeValue (s : TwoStates K) (x0 gamma x y : K) : Cons K :=
  let p := if y < x - x0 then s.pA else s.pB
  let rho := if y < x - x0 then s.rhoA else s.rhoB
  ⟨rho, p / (gamma - 1), 0, 0, 0⟩

end

/-! `InitialConditions_riemann2d.cpp`. -/

/-- L54-72: pressures, by test case and quadrant. -/
def pressures : Fin 19 → Fin 4 → ℚ :=
  ![![0.0439, 0.1500, 0.4000, 1.0000],
    ![1.0000, 0.4000, 0.4000, 1.0000],
    ![0.0290, 0.3000, 0.3000, 1.5000],
    ![1.1000, 0.3500, 0.3500, 1.1000],
    ![1.0000, 1.0000, 1.0000, 1.0000],
    ![1.0000, 1.0000, 1.0000, 1.0000],
    ![0.4000, 0.4000, 0.4000, 1.0000],
    ![1.0000, 1.0000, 1.0000, 0.4000],
    ![0.4000, 0.4000, 1.0000, 1.0000],
    ![0.3333, 0.3333, 1.0000, 1.0000],
    ![0.4000, 0.4000, 0.4000, 1.0000],
    ![1.0000, 1.0000, 1.0000, 0.4000],
    ![0.4000, 0.4000, 1.0000, 1.0000],
    ![2.6667, 2.6667, 8.0000, 8.0000],
    ![0.4000, 0.4000, 0.4000, 1.0000],
    ![1.0000, 1.0000, 1.0000, 0.4000],
    ![0.4000, 0.4000, 1.0000, 1.0000],
    ![0.4000, 0.4000, 1.0000, 1.0000],
    ![0.4000, 0.4000, 1.0000, 1.0000]]

/-- L74-92: densities, by test case and quadrant. -/
def densities : Fin 19 → Fin 4 → ℚ :=
  ![![0.1072, 0.2579, 0.5197, 1.0000],
    ![1.0000, 0.5197, 0.5197, 1.0000],
    ![0.1380, 0.5323, 0.5323, 1.5000],
    ![1.1000, 0.5065, 0.5065, 1.1000],
    ![1.0000, 3.0000, 2.0000, 1.0000],
    ![1.0000, 3.0000, 2.0000, 1.0000],
    ![0.8000, 0.5197, 0.5197, 1.0000],
    ![0.8000, 1.0000, 1.0000, 0.5197],
    ![1.0390, 0.5197, 2.0000, 1.0000],
    ![0.2281, 0.4562, 0.5000, 1.0000],
    ![0.8000, 0.5313, 0.5313, 1.0000],
    ![0.8000, 1.0000, 1.0000, 0.5313],
    ![1.0625, 0.5313, 2.0000, 1.0000],
    ![0.4736, 0.9474, 1.0000, 2.0000],
    ![0.8000, 0.5313, 0.5197, 1.0000],
    ![0.8000, 1.0000, 1.0222, 0.5313],
    ![1.0625, 0.5197, 2.0000, 1.0000],
    ![1.0625, 0.5197, 2.0000, 1.0000],
    ![1.0625, 0.5197, 2.0000, 1.0000]]

/-- L94-112: velocities along x, by test case and quadrant. -/
def velX : Fin 19 → Fin 4 → ℚ :=
  ![![-0.7259, 0.0000, -0.7259, 0.0000],
    ![-0.7259, 0.0000, -0.7259, 0.0000],
    ![1.2060, 0.0000, 1.2060, 0.0000],
    ![0.8939, 0.0000, 0.8939, 0.0000],
    ![0.7500, 0.7500, -0.7500, -0.7500],
    ![-0.7500, -0.7500, 0.7500, 0.7500],
    ![0.1000, 0.1000, -0.6259, 0.1000],
    ![0.1000, 0.1000, -0.6259, 0.1000],
    ![0.0000, 0.0000, 0.0000, 0.0000],
    ![0.0000, 0.0000, 0.0000, 0.0000],
    ![0.1000, 0.1000, 0.8276, 0.1000],
    ![0.0000, 0.0000, 0.7276, 0.0000],
    ![0.0000, 0.0000, 0.0000, 0.0000],
    ![0.0000, 0.0000, 0.0000, 0.0000],
    ![0.1000, 0.1000, -0.6259, 0.1000],
    ![0.1000, 0.1000, -0.6179, 0.1000],
    ![0.0000, 0.0000, 0.0000, 0.0000],
    ![0.0000, 0.0000, 0.0000, 0.0000],
    ![0.0000, 0.0000, 0.0000, 0.0000]]

/-- L114-132: velocities along y, by test case and quadrant. -/
def velY : Fin 19 → Fin 4 → ℚ :=
  ![![-1.4045, -1.4045, 0.0000, 0.0000],
    ![-0.7259, -0.7259, 0.0000, 0.0000],
    ![1.2060, 1.2060, 0.0000, 0.0000],
    ![0.8939, 0.8939, 0.0000, 0.0000],
    ![0.5000, -0.5000, 0.5000, -0.5000],
    ![0.5000, -0.5000, 0.5000, -0.5000],
    ![0.1000, -0.6259, 0.1000, 0.1000],
    ![0.1000, -0.6259, 0.1000, 0.1000],
    ![-0.8133, -0.4259, -0.3000, 0.3000],
    ![-0.6076, -0.4297, 0.6076, 0.4297],
    ![0.0000, 0.7276, 0.0000, 0.0000],
    ![0.0000, 0.7276, 0.0000, 0.0000],
    ![0.8145, 0.4276, 0.3000, -0.3000],
    ![1.2172, 1.1606, -1.2172, -0.5606],
    ![-0.3000, 0.4276, -0.3000, -0.3000],
    ![0.1000, 0.8276, 0.1000, 0.1000],
    ![0.2145, -1.1259, -0.3000, -0.4000],
    ![0.2145, 0.2741, -0.3000, 1.0000],
    ![0.2145, -0.4259, -0.3000, 0.3000]]

/-- L133-137. -/
def quadrant {K : Type} [LinearOrder K] (x0 y0 x y : K) : Fin 4 :=
  if y < y0 then (if x < x0 then 0 else 1) else (if x < x0 then 2 else 3)

/-- L34-38 (integers are unbounded here): `riemann2d/test_case` counts from 1; `none` if the assertion fails. -/
def testCase (n : ℤ) : Option (Fin 19) :=
  let k := n - 1
  if h : 0 ≤ k ∧ k < 19 then some ⟨k.toNat, by omega⟩ else none

/-- L139-149. -/
noncomputable def riemannValue (k : Fin 19) (x0 y0 gamma x y : ℝ) : Cons ℝ :=
  let q := quadrant x0 y0 x y
  let rho : ℝ := densities k q
  let u : ℝ := velX k q
  let v : ℝ := velY k q
  let Ek := 1 / 2 * rho * (u * u + v * v)
  ⟨rho, Ek + pressures k q / (gamma - 1), rho * u, rho * v, 0⟩

/-- `InitialConditions_kelvin_helmholtz.cpp` L22-29. -/
structure ShearFlow where
  rhoFac : ℝ
  z1 : ℝ
  z2 : ℝ
  a : ℝ
  amp : ℝ
  sigma : ℝ
  p0 : ℝ
  uflow : ℝ

/-- `InitialConditions_kelvin_helmholtz.cpp` L62-82. -/
noncomputable def shearValue (s : ShearFlow) (gamma x y : ℝ) : Cons ℝ :=
  let q1 := Real.tanh ((y - s.z1) / s.a)
  let q2 := Real.tanh ((y - s.z2) / s.a)
  let s2 := s.sigma * s.sigma
  let dz1 := (y - s.z1) * (y - s.z1)
  let dz2 := (y - s.z2) * (y - s.z2)
  let rho := 1 + s.rhoFac * (1 / 2) * (q1 - q2)
  let u := s.uflow * (q1 - q2 - 1)
  let v := s.amp * Real.sin (2 * Real.pi * x) * (Real.exp (-dz1 / s2) + Real.exp (-dz2 / s2))
  let Ek := rho * (1 / 2) * (u * u + v * v)
  ⟨rho, Ek + s.p0 / (gamma - 1), rho * u, rho * v, 0⟩

/-! ### Specification -/

/-- The three elementary waves. -/
inductive Wave where
  | contact | shock | rarefaction
  deriving DecidableEq

/-- State on one side of an interface: velocity normal to it and along it. -/
structure Side where
  rho : ℝ
  p : ℝ
  n : ℝ
  t : ℝ

/-- `a` is `b` up to a relative error. -/
def Near (tol a b : ℝ) : Prop := |a - b| ≤ tol * |b|

/-- Speed of sound in a gas with `gamma = 7/5`. -/
noncomputable def Side.sound (s : Side) : ℝ := √(7 / 5 * s.p / s.rho)

/-- The jump from the lower side `l` to the upper side `r` is a single wave of the given kind, for `gamma = 7/5` and up to a
relative error. Contact: same pressure and normal velocity. Shock: the conditions of Rankine and Hugoniot, the gas being compressed.
Rarefaction: same entropy, and the change of the normal velocity is 5 times that of the speed of sound, the gas being
expanded. -/
def SingleWave (tol : ℝ) (l r : Side) : Wave → Prop
  | .contact => l.p = r.p ∧ l.n = r.n
  | .shock => l.t = r.t ∧ r.n < l.n ∧ Near tol ((l.p - r.p) * (l.rho - r.rho)) (l.rho * r.rho * (l.n - r.n) ^ 2) ∧
      Near tol (l.rho * (l.p + 6 * r.p)) (r.rho * (6 * l.p + r.p))
  | .rarefaction => l.t = r.t ∧ l.n < r.n ∧ Near tol (l.p ^ 5 * r.rho ^ 7) (r.p ^ 5 * l.rho ^ 7) ∧
      Near tol (5 * |l.sound - r.sound|) |l.n - r.n|

/-- The four interfaces: the upper half and the lower half of the line `x = x0`, the left half and the right half of
`y = y0`. -/
inductive Interface where
  | north | south | west | east
  deriving DecidableEq

/-- A point of the quadrant below (left of) an interface, as signs of `x - x0` and `y - y0`. -/
def Interface.lower : Interface → Bool × Bool
  | .north => (false, true)
  | .south => (false, false)
  | .west => (false, false)
  | .east => (true, false)

/-- The same for the quadrant above (right of) an interface. -/
def Interface.upper : Interface → Bool × Bool
  | .north => (true, true)
  | .south => (true, false)
  | .west => (false, true)
  | .east => (true, true)

/-- The waves of the configurations of Lax and Liu (1998). -/
def laxLiu : Fin 19 → Interface → Wave := fun k i =>
  let R := Wave.rarefaction
  let S := Wave.shock
  let J := Wave.contact
  let row : Fin 19 → Wave × Wave × Wave × Wave :=
    ![(R, R, R, R), (R, R, R, R), (S, S, S, S), (S, S, S, S), (J, J, J, J), (J, J, J, J), (R, J, J, R), (R, J, J, R),
      (J, J, R, R), (J, J, R, R), (S, J, J, S), (S, J, J, S), (J, J, S, S), (J, J, S, S), (R, J, J, S), (R, J, J, S),
      (J, J, S, R), (J, J, S, R), (J, J, S, R)]
  match i with
  | .north => (row k).1
  | .south => (row k).2.1
  | .west => (row k).2.2.1
  | .east => (row k).2.2.2

/-- The state that the mesh gets in the quadrant with the given signs, seen from an interface. -/
noncomputable def sideOf (i : Interface) (Q : Prim ℝ) : Side :=
  match i with
  | .north | .south => ⟨Q.rho, Q.p, Q.u, Q.v⟩
  | .west | .east => ⟨Q.rho, Q.p, Q.v, Q.u⟩

/-- A point is in the quadrant with the given signs. -/
def InQuadrant (x0 y0 : ℝ) (s : Bool × Bool) (x y : ℝ) : Prop :=
  (if s.1 then x0 ≤ x else x < x0) ∧ (if s.2 then y0 ≤ y else y < y0)

/-! ### Two states at rest -/

section

variable {K : Type} [Field K] [LinearOrder K] [IsStrictOrderedRing K]

omit [IsStrictOrderedRing K] in
/-- **C104** (Sod) The gas is at rest and has the left state left of the interface, the right state elsewhere. -/
theorem C104_sod (s : TwoStates K) {gamma : K} (hg : gamma ≠ 1) (x0 x : K) (ndim : ℕ) :
    consToPrim ndim gamma (sodValue s x0 gamma x) =
      if x < x0 then ⟨s.rhoA, s.pA, 0, 0, 0⟩ else ⟨s.rhoB, s.pB, 0, 0, 0⟩ := by
  have h : gamma - 1 ≠ 0 := sub_ne_zero.mpr hg
  unfold sodValue consToPrim
  by_cases hx : x < x0 <;> simp [hx, div_mul_cancel₀ _ h]

/-- **C104** (Sod) A cell that the interface crosses or touches is refined. -/
theorem C104_sod_refine {x0 x dx : K} (hd : 0 < dx) (h1 : x - dx / 2 ≤ x0) (h2 : x0 ≤ x + dx / 2) :
    sodNeedRefine x0 x dx = true := by
  unfold sodNeedRefine
  rw [decide_eq_true_eq, abs_lt]
  constructor <;> linarith

/-- **C104** (implosion) The gas is at rest and has the inner state below the line of slope 1 through `(x0, 0)`, the outer state
elsewhere. -/
theorem C104_implode (s : TwoStates K) {gamma : K} (hg : gamma ≠ 1) (x0 x y : K) (ndim : ℕ) :
    consToPrim ndim gamma (implodeValue s x0 gamma x y) =
      if x0 + y < x then ⟨s.rhoA, s.pA, 0, 0, 0⟩ else ⟨s.rhoB, s.pB, 0, 0, 0⟩ := by
  have h : gamma - 1 ≠ 0 := sub_ne_zero.mpr hg
  have e : y < x - x0 ↔ x0 + y < x := by constructor <;> intro h <;> linarith
  unfold implodeValue consToPrim
  by_cases hx : x0 + y < x <;> simp [e, hx, div_mul_cancel₀ _ h]

end

/-! ### Riemann problems in 2D -/

theorem densities_pos (k : Fin 19) (q : Fin 4) : 0 < densities k q := by
  revert k q
  decide +kernel

theorem pressures_pos (k : Fin 19) (q : Fin 4) : 0 < pressures k q := by
  revert k q
  decide +kernel

/-- The number of a quadrant. -/
def quadrantOf (s : Bool × Bool) : Fin 4 :=
  if s.2 then (if s.1 then 3 else 2) else (if s.1 then 1 else 0)

theorem quadrant_eq {x0 y0 x y : ℝ} {s : Bool × Bool} (h : InQuadrant x0 y0 s x y) :
    quadrant x0 y0 x y = quadrantOf s := by
  obtain ⟨a, b⟩ := s
  obtain ⟨h1, h2⟩ := h
  unfold quadrant quadrantOf
  cases a <;> cases b <;> simp at h1 h2 ⊢ <;> simp [h1, h2, not_lt.mpr]

/-- Primitive state of a conservative state that is given by density, velocity in the plane and pressure. -/
theorem prim_of {rho u v p gamma : ℝ} (hg : gamma ≠ 1) (hr : rho ≠ 0) :
    consToPrim 2 gamma (⟨rho, 1 / 2 * rho * (u * u + v * v) + p / (gamma - 1), rho * u, rho * v, 0⟩ : Cons ℝ) =
      ⟨rho, p, u, v, 0⟩ := by
  have h : gamma - 1 ≠ 0 := sub_ne_zero.mpr hg
  have e2 : rho * u / rho = u := by field_simp
  have e3 : rho * v / rho = v := by field_simp
  unfold consToPrim
  simp only [Prim.mk.injEq, true_and, e2, e3]
  refine ⟨?_, ?_⟩
  · field_simp
    ring
  · simp

/-- The primitive state that cells of a quadrant get. -/
theorem riemann_prim (k : Fin 19) {x0 y0 gamma x y : ℝ} (hg : gamma ≠ 1) :
    consToPrim 2 gamma (riemannValue k x0 y0 gamma x y) =
      ⟨densities k (quadrant x0 y0 x y), pressures k (quadrant x0 y0 x y), velX k (quadrant x0 y0 x y),
        velY k (quadrant x0 y0 x y), 0⟩ := by
  have hr : (densities k (quadrant x0 y0 x y) : ℝ) ≠ 0 := by
    have := densities_pos k (quadrant x0 y0 x y)
    exact_mod_cast this.ne'
  exact prim_of hg hr

/-- A side with rational values. -/
structure QSide where
  rho : ℚ
  p : ℚ
  n : ℚ
  t : ℚ

/-- The side of an interface, from the tables. -/
def qside (k : Fin 19) (i : Interface) (s : Bool × Bool) : QSide :=
  let q := quadrantOf s
  match i with
  | .north | .south => ⟨densities k q, pressures k q, velX k q, velY k q⟩
  | .west | .east => ⟨densities k q, pressures k q, velY k q, velX k q⟩

/-- Square of the speed of sound. -/
def QSide.c2 (s : QSide) : ℚ := 7 / 5 * s.p / s.rho

/-- A condition on rational numbers that gives `SingleWave` with the error `1/200`. -/
def qwave (l r : QSide) : Wave → Bool
  | .contact => decide (l.p = r.p ∧ l.n = r.n)
  | .shock => decide (l.t = r.t ∧ r.n < l.n ∧
      |(l.p - r.p) * (l.rho - r.rho) - l.rho * r.rho * (l.n - r.n) ^ 2| ≤ 1 / 200 * |l.rho * r.rho * (l.n - r.n) ^ 2| ∧
      |l.rho * (l.p + 6 * r.p) - r.rho * (6 * l.p + r.p)| ≤ 1 / 200 * |r.rho * (6 * l.p + r.p)|)
  | .rarefaction => decide (l.t = r.t ∧ l.n < r.n ∧
      |l.p ^ 5 * r.rho ^ 7 - r.p ^ 5 * l.rho ^ 7| ≤ 1 / 200 * |r.p ^ 5 * l.rho ^ 7| ∧
      0 ≤ l.c2 + r.c2 - (201 / 200 * ((l.n - r.n) / 5)) ^ 2 ∧
      (l.c2 + r.c2 - (201 / 200 * ((l.n - r.n) / 5)) ^ 2) ^ 2 ≤ 4 * l.c2 * r.c2 ∧
      4 * l.c2 * r.c2 ≤ (l.c2 + r.c2 - (199 / 200 * ((l.n - r.n) / 5)) ^ 2) ^ 2)

instance : Fintype Interface := ⟨{.north, .south, .west, .east}, fun i => by cases i <;> decide⟩

theorem qwave_all : ∀ (k : Fin 19) (i : Interface), qwave (qside k i i.lower) (qside k i i.upper) (laxLiu k i) = true := by
  decide +kernel

/-- The side as real numbers. -/
def QSide.real (s : QSide) : Side := ⟨s.rho, s.p, s.n, s.t⟩

theorem near_cast {a b : ℚ} (h : |a - b| ≤ 1 / 200 * |b|) : Near (1 / 200) (a : ℝ) (b : ℝ) := by
  unfold Near
  have : ((|a - b| : ℚ) : ℝ) ≤ ((1 / 200 * |b| : ℚ) : ℝ) := by exact_mod_cast h
  push_cast at this
  exact this

/-- The bounds of `qwave` on squares give bounds on the difference of the speeds of sound. -/
theorem sound_bound {a b d s t : ℝ} (ha : 0 ≤ a) (hb : 0 ≤ b) (hs : 0 ≤ s * d) (ht : 0 ≤ t * d)
    (hst : (t * d) ^ 2 ≤ (s * d) ^ 2) (h0 : 0 ≤ a + b - (s * d) ^ 2)
    (h1 : (a + b - (s * d) ^ 2) ^ 2 ≤ 4 * a * b) (h2 : 4 * a * b ≤ (a + b - (t * d) ^ 2) ^ 2) :
    |√a - √b| ≤ s * d ∧ t * d ≤ |√a - √b| := by
  have e : (2 * (√a * √b)) ^ 2 = 4 * a * b := by
    rw [mul_pow, mul_pow, Real.sq_sqrt ha, Real.sq_sqrt hb]
    ring
  have hp : 0 ≤ 2 * (√a * √b) := by positivity
  have hsq : (√a - √b) ^ 2 = a + b - 2 * (√a * √b) := by
    have h1 := Real.sq_sqrt ha
    have h2 := Real.sq_sqrt hb
    nlinarith
  rw [← e] at h1 h2
  have g1 := (abs_le_of_sq_le_sq' h1 hp).2
  have g2 : 2 * (√a * √b) ≤ a + b - (t * d) ^ 2 := (abs_le_of_sq_le_sq' h2 (by linarith)).2
  constructor
  · apply abs_le.mpr (abs_le_of_sq_le_sq' _ hs)
    rw [hsq]
    linarith
  · have : (t * d) ^ 2 ≤ (√a - √b) ^ 2 := by
      rw [hsq]
      linarith
    have := sq_le_sq.mp this
    rwa [abs_of_nonneg ht] at this

theorem qwave_single {l r : QSide} {w : Wave} (hl : 0 < l.rho ∧ 0 < l.p) (hr : 0 < r.rho ∧ 0 < r.p)
    (h : qwave l r w = true) : SingleWave (1 / 200) l.real r.real w := by
  cases w with
  | contact =>
    obtain ⟨h1, h2⟩ := of_decide_eq_true h
    exact ⟨by simp [QSide.real, h1], by simp [QSide.real, h2]⟩
  | shock =>
    obtain ⟨h1, h2, h3, h4⟩ := of_decide_eq_true h
    refine ⟨by simp [QSide.real, h1], by simp [QSide.real, h2], ?_, ?_⟩
    · have := near_cast h3
      simp only [QSide.real]
      push_cast at this
      exact this
    · have := near_cast h4
      simp only [QSide.real]
      push_cast at this
      exact this
  | rarefaction =>
    obtain ⟨h1, h2, h3, h4, h5, h6⟩ := of_decide_eq_true h
    refine ⟨by simp [QSide.real, h1], by simp [QSide.real, h2], ?_, ?_⟩
    · have := near_cast h3
      simp only [QSide.real]
      push_cast at this
      exact this
    · have cl : 0 ≤ l.c2 := by
        unfold QSide.c2
        have := hl.1
        have := hl.2
        positivity
      have cr : 0 ≤ r.c2 := by
        unfold QSide.c2
        have := hr.1
        have := hr.2
        positivity
      have el : l.real.sound = √((l.c2 : ℚ) : ℝ) := by
        simp [Side.sound, QSide.real, QSide.c2]
      have er : r.real.sound = √((r.c2 : ℚ) : ℝ) := by
        simp [Side.sound, QSide.real, QSide.c2]
      have hd : (0 : ℝ) < (r.n : ℝ) - l.n := by
        have : (l.n : ℝ) < r.n := by exact_mod_cast h2
        linarith
      have h4' : (0 : ℝ) ≤ (l.c2 : ℝ) + r.c2 - (201 / 200 * (((r.n : ℝ) - l.n) / 5)) ^ 2 := by
        have : ((0 : ℚ) : ℝ) ≤ ((l.c2 + r.c2 - (201 / 200 * ((l.n - r.n) / 5)) ^ 2 : ℚ) : ℝ) := by exact_mod_cast h4
        push_cast at this
        linarith
      have h5' : ((l.c2 : ℝ) + r.c2 - (201 / 200 * (((r.n : ℝ) - l.n) / 5)) ^ 2) ^ 2 ≤ 4 * l.c2 * r.c2 := by
        have : (((l.c2 + r.c2 - (201 / 200 * ((l.n - r.n) / 5)) ^ 2) ^ 2 : ℚ) : ℝ) ≤ ((4 * l.c2 * r.c2 : ℚ) : ℝ) := by
          exact_mod_cast h5
        push_cast at this
        have e : (201 / 200 * (((r.n : ℝ) - l.n) / 5)) ^ 2 = (201 / 200 * (((l.n : ℝ) - r.n) / 5)) ^ 2 := by ring
        rw [e]
        exact this
      have h6' : 4 * (l.c2 : ℝ) * r.c2 ≤ ((l.c2 : ℝ) + r.c2 - (199 / 200 * (((r.n : ℝ) - l.n) / 5)) ^ 2) ^ 2 := by
        have : ((4 * l.c2 * r.c2 : ℚ) : ℝ) ≤ (((l.c2 + r.c2 - (199 / 200 * ((l.n - r.n) / 5)) ^ 2) ^ 2 : ℚ) : ℝ) := by
          exact_mod_cast h6
        push_cast at this
        have e : (199 / 200 * (((r.n : ℝ) - l.n) / 5)) ^ 2 = (199 / 200 * (((l.n : ℝ) - r.n) / 5)) ^ 2 := by ring
        rw [e]
        exact this
      have hst : (199 / 200 * (((r.n : ℝ) - l.n) / 5)) ^ 2 ≤ (201 / 200 * (((r.n : ℝ) - l.n) / 5)) ^ 2 := by
        apply pow_le_pow_left₀ (by positivity)
        nlinarith
      obtain ⟨b1, b2⟩ := sound_bound (by exact_mod_cast cl) (by exact_mod_cast cr) (by positivity) (by positivity) hst h4' h5' h6'
      unfold Near
      rw [el, er]
      have en : |l.real.n - r.real.n| = (r.n : ℝ) - l.n := by
        simp only [QSide.real]
        rw [abs_sub_comm, abs_of_pos hd]
      rw [en, abs_of_pos hd, abs_le]
      constructor <;> linarith

/-- **C104** (Riemann problems) With `gamma = 7/5`, the states of each of the 19 test cases are such that the two quadrants at
each of the four interfaces are separated by a single elementary wave, of the kind that Lax and Liu list, up to a relative error of
`1/200`. The states are those that any cell in the quadrant gets. -/
theorem C104_riemann (k : Fin 19) (i : Interface) {x0 y0 x y x' y' : ℝ} (h : InQuadrant x0 y0 i.lower x y)
    (h' : InQuadrant x0 y0 i.upper x' y') :
    SingleWave (1 / 200) (sideOf i (consToPrim 2 (7 / 5) (riemannValue k x0 y0 (7 / 5) x y)))
      (sideOf i (consToPrim 2 (7 / 5) (riemannValue k x0 y0 (7 / 5) x' y'))) (laxLiu k i) := by
  have hg : (7 / 5 : ℝ) ≠ 1 := by norm_num
  rw [riemann_prim k hg, riemann_prim k hg, quadrant_eq h, quadrant_eq h']
  have := qwave_single (l := qside k i i.lower) (r := qside k i i.upper)
    (by cases i <;> exact ⟨densities_pos _ _, pressures_pos _ _⟩)
    (by cases i <;> exact ⟨densities_pos _ _, pressures_pos _ _⟩) (qwave_all k i)
  cases i <;> exact this

/-- **C104** (Riemann problems) For every `gamma` above 1 the density and the pressure of every cell are positive, and the third velocity
is 0. -/
theorem C104_riemann_pos (k : Fin 19) {gamma : ℝ} (hg : 1 < gamma) (x0 y0 x y : ℝ) :
    let Q := consToPrim 2 gamma (riemannValue k x0 y0 gamma x y)
    0 < Q.rho ∧ 0 < Q.p ∧ Q.w = 0 := by
  intro Q
  have e : Q = _ := riemann_prim k hg.ne'
  rw [e]
  have h1 : (0 : ℝ) < densities k (quadrant x0 y0 x y) := by exact_mod_cast densities_pos _ _
  have h2 : (0 : ℝ) < pressures k (quadrant x0 y0 x y) := by exact_mod_cast pressures_pos _ _
  exact ⟨h1, h2, rfl⟩

/-- **C104** (Riemann problems) The numbers that are accepted, and the row that is used. -/
theorem C104_test_case (n : ℤ) (k : Fin 19) : testCase n = some k ↔ n = (k : ℤ) + 1 := by
  unfold testCase
  simp only
  constructor
  · intro h
    split at h
    · have := congrArg Fin.val (Option.some.inj h)
      simp only at this
      omega
    · cases h
  · intro h
    have hk := k.isLt
    rw [dif_pos ⟨by omega, by omega⟩]
    congr 1
    apply Fin.ext
    simp only
    omega

/-! ### Shear flow -/

theorem tanh_mono {x y : ℝ} (h : x ≤ y) : Real.tanh x ≤ Real.tanh y := by
  have e : Real.sinh (y - x) = Real.sinh y * Real.cosh x - Real.cosh y * Real.sinh x := Real.sinh_sub y x
  have hs : 0 ≤ Real.sinh (y - x) := Real.sinh_nonneg_iff.mpr (by linarith)
  rw [Real.tanh_eq_sinh_div_cosh, Real.tanh_eq_sinh_div_cosh, div_le_div_iff₀ (Real.cosh_pos _) (Real.cosh_pos _)]
  linarith

/-- The profile between the two layers lies between 0 and 2. -/
theorem profile_bounds {s : ShearFlow} (ha : 0 < s.a) (hz : s.z1 ≤ s.z2) (y : ℝ) :
    0 ≤ Real.tanh ((y - s.z1) / s.a) - Real.tanh ((y - s.z2) / s.a) ∧
      Real.tanh ((y - s.z1) / s.a) - Real.tanh ((y - s.z2) / s.a) < 2 := by
  constructor
  · have := tanh_mono (x := (y - s.z2) / s.a) (y := (y - s.z1) / s.a) (by gcongr)
    linarith
  · have h1 := Real.tanh_lt_one ((y - s.z1) / s.a)
    have h2 := Real.neg_one_lt_tanh ((y - s.z2) / s.a)
    linarith

/-- **C104** (Kelvin-Helmholtz) The pressure is `P0` everywhere, the density lies between that of the flow outside and that of the
layer, the horizontal velocity between `-uflow` and `uflow`, the vertical velocity is at most `2 A`. -/
theorem C104_shear {s : ShearFlow} (ha : 0 < s.a) (_hs : s.sigma ≠ 0) (hz : s.z1 ≤ s.z2) (hr : -1 < s.rhoFac)
    {gamma : ℝ} (hg : gamma ≠ 1) (x y : ℝ) :
    let Q := consToPrim 2 gamma (shearValue s gamma x y)
    Q.p = s.p0 ∧ 0 < Q.rho ∧ min 1 (1 + s.rhoFac) ≤ Q.rho ∧ Q.rho ≤ max 1 (1 + s.rhoFac) ∧
      |Q.u| ≤ |s.uflow| ∧ |Q.v| ≤ 2 * |s.amp| ∧ Q.w = 0 := by
  intro Q
  obtain ⟨b0, b2⟩ := profile_bounds ha hz y
  set q := Real.tanh ((y - s.z1) / s.a) - Real.tanh ((y - s.z2) / s.a) with hq
  have hrho : Q.rho = 1 + s.rhoFac * (1 / 2) * q := rfl
  have hpos : 0 < 1 + s.rhoFac * (1 / 2) * q := by nlinarith
  have hne := hpos.ne'
  have eQ : Q = ⟨1 + s.rhoFac * (1 / 2) * q, s.p0, s.uflow * (q - 1), s.amp * Real.sin (2 * Real.pi * x) *
      (Real.exp (-((y - s.z1) * (y - s.z1)) / (s.sigma * s.sigma)) + Real.exp (-((y - s.z2) * (y - s.z2)) / (s.sigma * s.sigma))),
      0⟩ := by
    rw [← prim_of hg hne]
    show consToPrim 2 gamma (shearValue s gamma x y) = _
    unfold shearValue
    simp only [← hq]
    congr 2
    ring
  have hu := congrArg Prim.u eQ
  have hv := congrArg Prim.v eQ
  have hp := congrArg Prim.p eQ
  refine ⟨hp, hrho ▸ hpos, ?_, ?_, ?_, ?_, congrArg Prim.w eQ⟩
  · rw [hrho]
    by_cases h0 : 0 ≤ s.rhoFac
    · exact le_trans (min_le_left _ _) (by nlinarith)
    · exact le_trans (min_le_right _ _) (by nlinarith)
  · rw [hrho]
    by_cases h0 : 0 ≤ s.rhoFac
    · exact le_trans (by nlinarith) (le_max_right _ _)
    · exact le_trans (by nlinarith) (le_max_left _ _)
  · rw [hu, abs_mul]
    have : |q - 1| ≤ 1 := abs_le.mpr ⟨by linarith, by linarith⟩
    calc |s.uflow| * |q - 1| ≤ |s.uflow| * 1 := by gcongr
      _ = |s.uflow| := mul_one _
  · rw [hv, abs_mul, abs_mul]
    have h1 : |Real.sin (2 * Real.pi * x)| ≤ 1 := Real.abs_sin_le_one _
    have e1 : Real.exp (-((y - s.z1) * (y - s.z1)) / (s.sigma * s.sigma)) ≤ 1 := Real.exp_le_one_iff.mpr
      (div_nonpos_of_nonpos_of_nonneg (by nlinarith [mul_self_nonneg (y - s.z1)]) (mul_self_nonneg _))
    have e2 : Real.exp (-((y - s.z2) * (y - s.z2)) / (s.sigma * s.sigma)) ≤ 1 := Real.exp_le_one_iff.mpr
      (div_nonpos_of_nonpos_of_nonneg (by nlinarith [mul_self_nonneg (y - s.z2)]) (mul_self_nonneg _))
    have p1 := Real.exp_pos (-((y - s.z1) * (y - s.z1)) / (s.sigma * s.sigma))
    have p2 := Real.exp_pos (-((y - s.z2) * (y - s.z2)) / (s.sigma * s.sigma))
    rw [abs_of_pos (a := Real.exp _ + Real.exp _) (by linarith)]
    calc |s.amp| * |Real.sin (2 * Real.pi * x)| * _ ≤ |s.amp| * 1 * 2 := by
          gcongr
          linarith
      _ = 2 * |s.amp| := by ring

/-! ### Examples -/

/-- The defaults of the shear flow meet the hypotheses. -/
example : ∃ s : ShearFlow, s = ⟨0, 1 / 2, 3 / 2, 1 / 20, 1 / 100, 1 / 5, 1, 1⟩ ∧ 0 < s.a ∧ s.sigma ≠ 0 ∧
    s.z1 ≤ s.z2 ∧ -1 < s.rhoFac :=
  ⟨_, rfl, by norm_num, by norm_num, by norm_num, by norm_num⟩

/-- Sod's problem with the default states, on both sides. -/
example : consToPrim 2 (7 / 5) (sodValue (⟨1, 1, 1 / 10, 1 / 8⟩ : TwoStates ℚ) (1 / 2) (7 / 5) (1 / 4)) = ⟨1, 1, 0, 0, 0⟩ ∧
    consToPrim 2 (7 / 5) (sodValue (⟨1, 1, 1 / 10, 1 / 8⟩ : TwoStates ℚ) (1 / 2) (7 / 5) (1 / 2)) = ⟨1 / 8, 1 / 10, 0, 0, 0⟩ := by
  rw [C104_sod _ (by norm_num), C104_sod _ (by norm_num)]
  norm_num

/-- Points on both sides of an interface; three kinds of waves appear in test case 15. -/
example : InQuadrant (1 / 2) (1 / 2) (Interface.north).lower (1 / 4) (3 / 4) ∧
    InQuadrant (1 / 2) (1 / 2) (Interface.north).upper (3 / 4) (3 / 4) ∧
    laxLiu 14 .north = .rarefaction ∧ laxLiu 14 .south = .contact ∧ laxLiu 14 .east = .shock := by
  refine ⟨⟨?_, ?_⟩, ⟨?_, ?_⟩, by decide, by decide, by decide⟩ <;> norm_num [Interface.lower, Interface.upper]

end Verif.Init.Problems
