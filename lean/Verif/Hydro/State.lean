import Mathlib.Algebra.Order.Field.Basic
import Mathlib.Algebra.Order.Ring.Rat
import Mathlib.Tactic.FieldSimp
import Mathlib.Tactic.Linarith
import Mathlib.Tactic.NormNum
import Mathlib.Tactic.Positivity
import Mathlib.Tactic.Ring
import Mathlib.Data.Fin.VecNotation

/-!
# C43, C48, C51: states, gravity correction, repair of negative values

Models of `core/src/states/State_hydro.h`, of `apply_gravity_correction` and of
`clean_negative_primitive_values`. Arithmetic is exact. Divisions by the density are only used where
the theorems have a hypothesis that it is not 0.
-/

namespace Verif.Hydro

/-! ### Model -/

/-- `State_hydro.h` L14-43. -/
structure Cons (K : Type) where
  rho : K
  e : K
  ru : K
  rv : K
  rw : K
deriving DecidableEq

/-- `State_hydro.h` L55-84. -/
structure Prim (K : Type) where
  rho : K
  p : K
  u : K
  v : K
  w : K
deriving DecidableEq

section

variable {K : Type} [Field K]

/-- L118-125: in 2D the third momentum is not read. `U` are the five arrays at the cell. -/
def getCons (ndim : ℕ) (U : Cons K) : Cons K := { U with rw := if ndim = 3 then U.rw else 0 }

/-- L186-193: in 2D the third momentum is not written. `old` is what was stored. -/
def setCons (ndim : ℕ) (old u : Cons K) : Cons K := { u with rw := if ndim = 3 then u.rw else old.rw }

/-- L204-214. -/
def consToPrim (ndim : ℕ) (gamma : K) (U : Cons K) : Prim K :=
  let Ek := 1 / 2 * (U.ru * U.ru + U.rv * U.rv + U.rw * U.rw) / U.rho
  ⟨U.rho, (U.e - Ek) * (gamma - 1), U.ru / U.rho, U.rv / U.rho, if ndim = 3 then U.rw / U.rho else 0⟩

/-- L225-235. -/
def primToCons (ndim : ℕ) (gamma : K) (Q : Prim K) : Cons K :=
  let Ek := 1 / 2 * Q.rho * (Q.u * Q.u + Q.v * Q.v + Q.w * Q.w)
  ⟨Q.rho, Ek + Q.p / (gamma - 1), Q.rho * Q.u, Q.rho * Q.v, if ndim = 3 then Q.rho * Q.w else 0⟩

/-- L246-260; `dir` is 0, 1 or 2. -/
def swapPrim (dir : Fin 3) (q : Prim K) : Prim K :=
  match dir with
  | 0 => q
  | 1 => ⟨q.rho, q.p, q.v, q.u, q.w⟩
  | 2 => ⟨q.rho, q.p, q.w, q.v, q.u⟩

/-- L271-285. -/
def swapCons (dir : Fin 3) (u : Cons K) : Cons K :=
  match dir with
  | 0 => u
  | 1 => ⟨u.rho, u.e, u.rv, u.ru, u.rw⟩
  | 2 => ⟨u.rho, u.e, u.rw, u.rv, u.ru⟩

/-- `HydroUpdate_euler.cpp` L28-77 and `HydroUpdate_hancock_oneneighbor.cpp` L422-472, the same code:
`rhoOld` is the density before the update, `u` the stored state after it, `g` the acceleration. -/
def gravityCorrection (ndim : ℕ) (dt rhoOld : K) (g : Fin 3 → K) (u : Cons K) : Cons K :=
  let ekinOld := 1 / 2 * (if ndim = 3 then u.ru * u.ru + u.rv * u.rv + u.rw * u.rw
    else u.ru * u.ru + u.rv * u.rv) / u.rho
  let ru := u.ru + 1 / 2 * dt * g 0 * (rhoOld + u.rho)
  let rv := u.rv + 1 / 2 * dt * g 1 * (rhoOld + u.rho)
  let rw := if ndim = 3 then u.rw + 1 / 2 * dt * g 2 * (rhoOld + u.rho) else u.rw
  let ekinNew := 1 / 2 * (if ndim = 3 then ru * ru + rv * rv + rw * rw else ru * ru + rv * rv) / u.rho
  ⟨u.rho, u.e + (ekinNew - ekinOld), ru, rv, rw⟩

variable [LinearOrder K]

/-- `HydroUpdate_utils.h` L642-657, one cell. `old` is the stored state. -/
def cleanNegative (ndim : ℕ) (gamma smallr smallp : K) (old : Cons K) : Cons K :=
  let q := consToPrim ndim gamma (getCons ndim old)
  if q.rho < 0 ∨ q.p < 0 then
    let q := if q.rho < 0 then { q with rho := smallr } else q
    let q := if q.p < 0 then { q with p := smallp } else q
    setCons ndim old (primToCons ndim gamma q)
  else old

end

/-! ### Specification -/

section

variable {K : Type} [Field K]

/-- Kinetic energy per volume: half the squared momentum over the density. -/
def kinetic (ndim : ℕ) (U : Cons K) : K :=
  (U.ru ^ 2 + U.rv ^ 2 + (if ndim = 3 then U.rw ^ 2 else 0)) / (2 * U.rho)

/-- Pressure of an ideal gas of energy `e`. -/
def pressure (ndim : ℕ) (gamma : K) (U : Cons K) : K := (gamma - 1) * (U.e - kinetic ndim U)

/-! ### C43 -/

variable [CharZero K]

/-- **C43** In 3D, conservative to primitive and back is the identity. -/
theorem C43_cons_prim_cons {gamma : K} (hg : gamma ≠ 1) (U : Cons K) (hr : U.rho ≠ 0) :
    primToCons 3 gamma (consToPrim 3 gamma U) = U := by
  have h : gamma - 1 ≠ 0 := sub_ne_zero.2 hg
  unfold primToCons consToPrim
  obtain ⟨r, e, a, b, c⟩ := U
  simp only at hr
  simp only [if_true, Cons.mk.injEq, true_and]
  refine ⟨?_, ?_, ?_, ?_⟩ <;> field_simp
  ring

/-- **C43** In 3D, primitive to conservative and back is the identity. -/
theorem C43_prim_cons_prim {gamma : K} (hg : gamma ≠ 1) (Q : Prim K) (hr : Q.rho ≠ 0) :
    consToPrim 3 gamma (primToCons 3 gamma Q) = Q := by
  have h : gamma - 1 ≠ 0 := sub_ne_zero.2 hg
  unfold primToCons consToPrim
  obtain ⟨r, p, a, b, c⟩ := Q
  simp only at hr
  simp only [if_true, Prim.mk.injEq, true_and]
  refine ⟨?_, ?_, ?_, ?_⟩ <;> field_simp
  ring

/-- **C43** In 2D the round trips are the identity for states as they are read from the arrays, that is
without third component. -/
theorem C43_2d {gamma : K} (hg : gamma ≠ 1) :
    (∀ U : Cons K, U.rho ≠ 0 → primToCons 2 gamma (consToPrim 2 gamma (getCons 2 U)) = getCons 2 U) ∧
      ∀ Q : Prim K, Q.rho ≠ 0 → Q.w = 0 → consToPrim 2 gamma (primToCons 2 gamma Q) = Q := by
  have h : gamma - 1 ≠ 0 := sub_ne_zero.2 hg
  constructor
  · rintro ⟨r, e, a, b, c⟩ hr
    simp only at hr
    simp only [primToCons, consToPrim, getCons, Cons.mk.injEq, true_and]
    refine ⟨?_, ?_, ?_, ?_⟩ <;> norm_num <;> field_simp
    ring
  · rintro ⟨r, p, a, b, c⟩ hr hc
    simp only at hr hc
    subst hc
    simp only [primToCons, consToPrim, Prim.mk.injEq, true_and]
    refine ⟨?_, ?_, ?_, ?_⟩ <;> norm_num <;> field_simp
    ring

/-- The primitive pressure is that of the ideal gas. -/
theorem C43_pressure (gamma : K) (U : Cons K) (hr : U.rho ≠ 0) :
    (consToPrim 3 gamma U).p = pressure 3 gamma U := by
  unfold consToPrim pressure kinetic
  simp only [if_true]
  field_simp

/-- In 2D a third momentum is lost by the round trip (`consToPrim<2>` counts it in the energy). -/
theorem C43_2d_third_component_fails :
    primToCons 2 (2 : ℚ) (consToPrim 2 2 ⟨1, 1, 0, 0, 1⟩) ≠ ⟨1, 1, 0, 0, 1⟩ := by decide +kernel

example : primToCons 3 (7 / 5 : ℚ) (consToPrim 3 (7 / 5) ⟨2, 10, 1, -3, 4⟩) = ⟨2, 10, 1, -3, 4⟩ :=
  C43_cons_prim_cons (by norm_num) _ (by norm_num)

example : consToPrim 3 (7 / 5 : ℚ) ⟨2, 10, 1, -3, 4⟩ = ⟨2, 7 / 5, 1 / 2, -3 / 2, 2⟩ := by decide +kernel

/-! ### C48 -/

/-- **C48** The gravity correction keeps the density, adds acceleration times time step times mean
density to the momentum, and keeps the internal energy, hence the pressure. -/
theorem C48_gravity_correction (ndim : ℕ) (hd : ndim = 2 ∨ ndim = 3) (dt rhoOld gamma : K)
    (g : Fin 3 → K) (u : Cons K) (hr : u.rho ≠ 0) :
    let u' := gravityCorrection ndim dt rhoOld g u
    u'.rho = u.rho ∧ u'.ru = u.ru + dt * g 0 * ((rhoOld + u.rho) / 2) ∧
      u'.rv = u.rv + dt * g 1 * ((rhoOld + u.rho) / 2) ∧
      u'.rw = (if ndim = 3 then u.rw + dt * g 2 * ((rhoOld + u.rho) / 2) else u.rw) ∧
      u'.e - kinetic ndim u' = u.e - kinetic ndim u ∧
      pressure ndim gamma u' = pressure ndim gamma u := by
  have key : ∀ u' : Cons K, u'.e - kinetic ndim u' = u.e - kinetic ndim u →
      pressure ndim gamma u' = pressure ndim gamma u := by
    intro u' h; unfold pressure; rw [h]
  have h2 : (2 : K) ≠ 0 := by norm_num
  refine ⟨rfl, ?_, ?_, ?_, ?_, ?_⟩
  · simp only [gravityCorrection]; ring
  · simp only [gravityCorrection]; ring
  · simp only [gravityCorrection]; split <;> ring
  · rcases hd with rfl | rfl
    · simp [gravityCorrection, kinetic]; field_simp; ring
    · simp [gravityCorrection, kinetic]; field_simp; ring
  · apply key
    rcases hd with rfl | rfl
    · simp [gravityCorrection, kinetic]; field_simp; ring
    · simp [gravityCorrection, kinetic]; field_simp; ring

example : gravityCorrection 3 (1 / 2 : ℚ) 1 ![0, 0, -2] ⟨3, 20, 1, 1, 4⟩ = ⟨3, 18, 1, 1, 2⟩ := by
  decide +kernel

end

/-! ### C51 -/

section

variable {K : Type} [Field K] [LinearOrder K] [IsStrictOrderedRing K]

/-- Pressure of a stored state, as the code computes it. -/
theorem storedPressure (ndim : ℕ) (hd : ndim = 2 ∨ ndim = 3) (gamma : K) (U : Cons K) :
    (consToPrim ndim gamma (getCons ndim U)).p = pressure ndim gamma U := by
  unfold consToPrim pressure kinetic getCons
  rcases hd with rfl | rfl
  · simp; ring
  · simp; ring

theorem pressure_primToCons (ndim : ℕ) (hd : ndim = 2 ∨ ndim = 3) {gamma : K} (hg : gamma ≠ 1)
    (old : Cons K) (Q : Prim K) (hr : Q.rho ≠ 0) (hw : ndim = 2 → Q.w = 0) :
    pressure ndim gamma (setCons ndim old (primToCons ndim gamma Q)) = Q.p := by
  have h : gamma - 1 ≠ 0 := sub_ne_zero.2 hg
  have hr' := hr
  unfold pressure kinetic setCons primToCons
  rcases hd with rfl | rfl
  · simp [hw rfl]; field_simp; ring
  · simp; field_simp; ring

/-- **C51** After the repair, density and pressure of every cell are non-negative (a density of exactly 0
has no pressure and is excluded). -/
theorem C51_repaired (ndim : ℕ) (hd : ndim = 2 ∨ ndim = 3) {gamma smallr smallp : K} (hg : gamma ≠ 1)
    (hsr : 0 < smallr) (hsp : 0 < smallp) (u : Cons K) (hr : u.rho ≠ 0) :
    0 < (cleanNegative ndim gamma smallr smallp u).rho ∧
      0 ≤ pressure ndim gamma (cleanNegative ndim gamma smallr smallp u) := by
  unfold cleanNegative
  simp only
  have hp := storedPressure ndim hd gamma u
  have hrho : (consToPrim ndim gamma (getCons ndim u)).rho = u.rho := rfl
  have hw : ndim = 2 → (consToPrim ndim gamma (getCons ndim u)).w = 0 := by
    rintro rfl; rfl
  generalize consToPrim ndim gamma (getCons ndim u) = q at *
  by_cases hc : q.rho < 0 ∨ q.p < 0
  · rw [if_pos hc]
    have key : ∀ q' : Prim K, 0 < q'.rho → 0 ≤ q'.p → (ndim = 2 → q'.w = 0) →
        0 < (setCons ndim u (primToCons ndim gamma q')).rho ∧
          0 ≤ pressure ndim gamma (setCons ndim u (primToCons ndim gamma q')) := by
      intro q' h1 h2 h3
      refine ⟨h1, ?_⟩
      rw [pressure_primToCons ndim hd hg u q' h1.ne' h3]
      exact h2
    apply key
    · by_cases h1 : q.rho < 0
      · rw [if_pos h1]; split <;> exact hsr
      · rw [if_neg h1]
        have : 0 < q.rho := lt_of_le_of_ne (not_lt.1 h1) (by rw [hrho]; exact hr.symm)
        split <;> exact this
    · by_cases h1 : q.rho < 0
      · rw [if_pos h1]; split
        · exact hsp.le
        · rename_i h; exact not_lt.1 h
      · rw [if_neg h1]; split
        · exact hsp.le
        · rename_i h; exact not_lt.1 h
    · intro h
      by_cases h1 : q.rho < 0
      · rw [if_pos h1]; split <;> exact hw h
      · rw [if_neg h1]; split <;> exact hw h
  · rw [if_neg hc]
    rw [not_or, not_lt, not_lt] at hc
    exact ⟨lt_of_le_of_ne (hrho ▸ hc.1) hr.symm, hp ▸ hc.2⟩

/-- **C51** Valid cells are not changed. -/
theorem C51_valid_unchanged (ndim : ℕ) (hd : ndim = 2 ∨ ndim = 3) (gamma smallr smallp : K) (u : Cons K)
    (hr : 0 < u.rho) (hp : 0 ≤ pressure ndim gamma u) :
    cleanNegative ndim gamma smallr smallp u = u := by
  unfold cleanNegative
  simp only
  rw [if_neg]
  rw [storedPressure ndim hd gamma u, not_or, not_lt, not_lt]
  exact ⟨hr.le, hp⟩

/-- **C51** What is repaired: the velocity is kept; the density is kept if it was not negative; the
pressure is kept if it was not negative. -/
theorem C51_repair_minimal {gamma smallr smallp : K} (hg : gamma ≠ 1) (hsr : 0 < smallr) (u : Cons K)
    (hr : u.rho ≠ 0) :
    consToPrim 3 gamma (cleanNegative 3 gamma smallr smallp u) =
      ⟨if u.rho < 0 then smallr else u.rho,
        if pressure 3 gamma u < 0 then smallp else pressure 3 gamma u,
        u.ru / u.rho, u.rv / u.rho, u.rw / u.rho⟩ := by
  have hget : ∀ x : Cons K, getCons 3 x = x := fun x => rfl
  have hset : ∀ x y : Cons K, setCons 3 x y = y := fun x y => rfl
  have hq : consToPrim 3 gamma u = ⟨u.rho, pressure 3 gamma u, u.ru / u.rho, u.rv / u.rho,
      u.rw / u.rho⟩ := by
    rw [← C43_pressure gamma u hr]; rfl
  unfold cleanNegative
  simp only [hget, hset, hq]
  by_cases h1 : u.rho < 0
  · by_cases h2 : pressure 3 gamma u < 0
    · simp only [h1, h2, if_true, or_true]
      exact C43_prim_cons_prim hg _ hsr.ne'
    · simp only [h1, h2, if_true, or_false, if_false]
      exact C43_prim_cons_prim hg _ hsr.ne'
  · by_cases h2 : pressure 3 gamma u < 0
    · simp only [h1, h2, if_true, or_true, if_false]
      exact C43_prim_cons_prim hg _ hr
    · simp only [h1, h2, or_false, if_false]
      exact hq

/-- Two cells that are repaired, one that is not. -/
example : cleanNegative 3 (2 : ℚ) (1 / 100) (1 / 10) ⟨-1, 1, 2, 0, 0⟩ =
      ⟨1 / 100, 3 + 1 / 50, -2 / 100, 0, 0⟩ ∧
    cleanNegative 3 (2 : ℚ) (1 / 100) (1 / 10) ⟨1, 1, 2, 0, 0⟩ = ⟨1, 21 / 10, 2, 0, 0⟩ ∧
    cleanNegative 3 (2 : ℚ) (1 / 100) (1 / 10) ⟨1, 3, 2, 0, 0⟩ = ⟨1, 3, 2, 0, 0⟩ := by decide +kernel

end

end Verif.Hydro
