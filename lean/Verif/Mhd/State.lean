import Mathlib.Algebra.Order.Field.Basic
import Mathlib.Algebra.Order.Ring.Rat
import Mathlib.Data.Fintype.Basic
import Mathlib.Tactic.FieldSimp
import Mathlib.Tactic.FinCases
import Mathlib.Tactic.Linarith
import Mathlib.Tactic.NormNum
import Mathlib.Tactic.Ring

/-!
# C69: states of magnetohydrodynamics

Models of `core/src/states/State_MHD.h`, `core/src/states/State_GLMMHD.h` and of
`clean_negative_primitive_values` for these states. Arithmetic is exact. Divisions by the density are
only used where the theorems have a hypothesis that it is not 0.
-/

namespace Verif.Mhd

/-! ### Model -/

/-- `State_MHD.h` L12-60. -/
structure Cons (K : Type) where
  rho : K
  e : K
  ru : K
  rv : K
  rw : K
  bx : K
  by' : K
  bz : K
deriving DecidableEq

/-- `State_MHD.h` L75-123. -/
structure Prim (K : Type) where
  rho : K
  p : K
  u : K
  v : K
  w : K
  bx : K
  by' : K
  bz : K
deriving DecidableEq

/-- `State_GLMMHD.h` L15-67: the same variables and the divergence cleaning potential `psi`. -/
structure GCons (K : Type) where
  rho : K
  e : K
  ru : K
  rv : K
  rw : K
  bx : K
  by' : K
  bz : K
  psi : K
deriving DecidableEq

/-- `State_GLMMHD.h` L83-136. -/
structure GPrim (K : Type) where
  rho : K
  p : K
  u : K
  v : K
  w : K
  bx : K
  by' : K
  bz : K
  psi : K
deriving DecidableEq

section

variable {K : Type} [Field K]

/-- `State_MHD.h` L158-172: in 2D the third momentum is not read; the third component of the field is.
`U` are the eight arrays at the cell. -/
def getCons (ndim : ℕ) (U : Cons K) : Cons K := { U with rw := if ndim = 3 then U.rw else 0 }

/-- `State_MHD.h` L237-249: in 2D the third momentum is not written. `old` is what was stored. -/
def setCons (ndim : ℕ) (old u : Cons K) : Cons K := { u with rw := if ndim = 3 then u.rw else old.rw }

/-- `State_MHD.h` L260-277. -/
def consToPrim (ndim : ℕ) (gamma : K) (U : Cons K) : Prim K :=
  let Ek := 1 / 2 * (U.ru * U.ru + U.rv * U.rv + (if ndim = 3 then U.rw * U.rw else 0)) / U.rho
  let Em := 1 / 2 * (U.bx * U.bx + U.by' * U.by' + U.bz * U.bz)
  let p := (U.e - Ek - Em) * (gamma - 1)
  ⟨U.rho, p, U.ru / U.rho, U.rv / U.rho, if ndim = 3 then U.rw / U.rho else 0, U.bx, U.by', U.bz⟩

/-- `State_MHD.h` L288-305. -/
def primToCons (ndim : ℕ) (gamma : K) (Q : Prim K) : Cons K :=
  let Ek := 1 / 2 * Q.rho * (Q.u * Q.u + Q.v * Q.v + (if ndim = 3 then Q.w * Q.w else 0))
  let Em := 1 / 2 * (Q.bx * Q.bx + Q.by' * Q.by' + Q.bz * Q.bz)
  let E := Ek + Em + Q.p / (gamma - 1)
  ⟨Q.rho, E, Q.rho * Q.u, Q.rho * Q.v, if ndim = 3 then Q.rho * Q.w else 0, Q.bx, Q.by', Q.bz⟩

/-- `State_MHD.h` L316-330. -/
def swapPrim (dir : Fin 3) (q : Prim K) : Prim K :=
  match dir with
  | 0 => q
  | 1 => ⟨q.rho, q.p, q.v, q.u, q.w, q.by', q.bx, q.bz⟩
  | 2 => ⟨q.rho, q.p, q.w, q.v, q.u, q.bz, q.by', q.bx⟩

/-- `State_MHD.h` L341-355. -/
def swapCons (dir : Fin 3) (u : Cons K) : Cons K :=
  match dir with
  | 0 => u
  | 1 => ⟨u.rho, u.e, u.rv, u.ru, u.rw, u.by', u.bx, u.bz⟩
  | 2 => ⟨u.rho, u.e, u.rw, u.rv, u.ru, u.bz, u.by', u.bx⟩

/-- `State_GLMMHD.h` L172-187. -/
def getGCons (ndim : ℕ) (U : GCons K) : GCons K := { U with rw := if ndim = 3 then U.rw else 0 }

/-- `State_GLMMHD.h` L255-269. -/
def setGCons (ndim : ℕ) (old u : GCons K) : GCons K :=
  { u with rw := if ndim = 3 then u.rw else old.rw }

/-- `State_GLMMHD.h` L280-298. -/
def gconsToPrim (ndim : ℕ) (gamma : K) (U : GCons K) : GPrim K :=
  let Ek := 1 / 2 * (U.ru * U.ru + U.rv * U.rv + (if ndim = 3 then U.rw * U.rw else 0)) / U.rho
  let Em := 1 / 2 * (U.bx * U.bx + U.by' * U.by' + U.bz * U.bz)
  let p := (U.e - Ek - Em) * (gamma - 1)
  ⟨U.rho, p, U.ru / U.rho, U.rv / U.rho, if ndim = 3 then U.rw / U.rho else 0, U.bx, U.by', U.bz,
    U.psi⟩

/-- `State_GLMMHD.h` L309-327. -/
def gprimToCons (ndim : ℕ) (gamma : K) (Q : GPrim K) : GCons K :=
  let Ek := 1 / 2 * Q.rho * (Q.u * Q.u + Q.v * Q.v + (if ndim = 3 then Q.w * Q.w else 0))
  let Em := 1 / 2 * (Q.bx * Q.bx + Q.by' * Q.by' + Q.bz * Q.bz)
  let E := Ek + Em + Q.p / (gamma - 1)
  ⟨Q.rho, E, Q.rho * Q.u, Q.rho * Q.v, if ndim = 3 then Q.rho * Q.w else 0, Q.bx, Q.by', Q.bz, Q.psi⟩

/-- `State_GLMMHD.h` L338-352. -/
def gswapPrim (dir : Fin 3) (q : GPrim K) : GPrim K :=
  match dir with
  | 0 => q
  | 1 => ⟨q.rho, q.p, q.v, q.u, q.w, q.by', q.bx, q.bz, q.psi⟩
  | 2 => ⟨q.rho, q.p, q.w, q.v, q.u, q.bz, q.by', q.bx, q.psi⟩

/-- `State_GLMMHD.h` L363-377. -/
def gswapCons (dir : Fin 3) (u : GCons K) : GCons K :=
  match dir with
  | 0 => u
  | 1 => ⟨u.rho, u.e, u.rv, u.ru, u.rw, u.by', u.bx, u.bz, u.psi⟩
  | 2 => ⟨u.rho, u.e, u.rw, u.rv, u.ru, u.bz, u.by', u.bx, u.psi⟩

/-- `State_GLMMHD.h` L382-385. -/
def glmToMhd (q : GPrim K) : Prim K := ⟨q.rho, q.p, q.u, q.v, q.w, q.bx, q.by', q.bz⟩

variable [LinearOrder K]

/-- `HydroUpdate_utils.h` L642-657 for `MHDState`, one cell. `old` is the stored state. -/
def cleanNegative (ndim : ℕ) (gamma smallr smallp : K) (old : Cons K) : Cons K :=
  let q := consToPrim ndim gamma (getCons ndim old)
  if q.rho < 0 ∨ q.p < 0 then
    let q := if q.rho < 0 then { q with rho := smallr } else q
    let q := if q.p < 0 then { q with p := smallp } else q
    setCons ndim old (primToCons ndim gamma q)
  else old

end

/-! ### Specification -/

section

variable {K : Type}

/-- Velocity, momentum and magnetic field as vectors. -/
def Prim.vel (q : Prim K) : Fin 3 → K
  | 0 => q.u
  | 1 => q.v
  | 2 => q.w

def Prim.mag (q : Prim K) : Fin 3 → K
  | 0 => q.bx
  | 1 => q.by'
  | 2 => q.bz

def Cons.mom (q : Cons K) : Fin 3 → K
  | 0 => q.ru
  | 1 => q.rv
  | 2 => q.rw

def Cons.mag (q : Cons K) : Fin 3 → K
  | 0 => q.bx
  | 1 => q.by'
  | 2 => q.bz

/-- The part of a state with divergence cleaning without `psi`. -/
def GCons.mhd (u : GCons K) : Cons K := ⟨u.rho, u.e, u.ru, u.rv, u.rw, u.bx, u.by', u.bz⟩

/-- Exchange of direction `d` with the first. -/
def exchange (d i : Fin 3) : Fin 3 := if i = 0 then d else if i = d then 0 else i

variable [Field K]

/-- Kinetic and magnetic energy per volume. -/
def kinetic (ndim : ℕ) (U : Cons K) : K :=
  (U.ru ^ 2 + U.rv ^ 2 + (if ndim = 3 then U.rw ^ 2 else 0)) / (2 * U.rho)

def magnetic (U : Cons K) : K := (U.bx ^ 2 + U.by' ^ 2 + U.bz ^ 2) / 2

/-- Pressure of an ideal gas: what remains of the total energy is internal energy. -/
def pressure (ndim : ℕ) (gamma : K) (U : Cons K) : K :=
  (gamma - 1) * (U.e - kinetic ndim U - magnetic U)

/-! ### C69: conversions -/

variable [CharZero K]

/-- **C69** Conservative to primitive and back is the identity in 3D, and in 2D for states as they are
read from the arrays. -/
theorem C69_cons_prim_cons {gamma : K} (hg : gamma ≠ 1) (ndim : ℕ) (hd : ndim = 2 ∨ ndim = 3) (U : Cons K)
    (hr : U.rho ≠ 0) :
    primToCons ndim gamma (consToPrim ndim gamma (getCons ndim U)) = getCons ndim U := by
  have h : gamma - 1 ≠ 0 := sub_ne_zero.2 hg
  obtain ⟨r, e, a, b, c, x, y, z⟩ := U
  simp only at hr
  rcases hd with rfl | rfl
  · simp only [primToCons, consToPrim, getCons, Cons.mk.injEq, true_and, and_true]
    refine ⟨?_, ?_, ?_, ?_⟩ <;> norm_num <;> field_simp
    ring
  · simp only [primToCons, consToPrim, getCons, Cons.mk.injEq, if_true, true_and, and_true]
    refine ⟨?_, ?_, ?_, ?_⟩ <;> field_simp
    ring

/-- **C69** Primitive to conservative and back is the identity, in 2D for states without third velocity. -/
theorem C69_prim_cons_prim {gamma : K} (hg : gamma ≠ 1) (ndim : ℕ) (hd : ndim = 2 ∨ ndim = 3) (Q : Prim K)
    (hr : Q.rho ≠ 0) (hw : ndim = 2 → Q.w = 0) :
    consToPrim ndim gamma (primToCons ndim gamma Q) = Q := by
  have h : gamma - 1 ≠ 0 := sub_ne_zero.2 hg
  obtain ⟨r, p, a, b, c, x, y, z⟩ := Q
  simp only at hr hw
  rcases hd with rfl | rfl
  · obtain rfl := hw rfl
    simp only [primToCons, consToPrim, Prim.mk.injEq, true_and, and_true]
    refine ⟨?_, ?_, ?_, ?_⟩ <;> norm_num <;> field_simp
    ring
  · simp only [primToCons, consToPrim, Prim.mk.injEq, if_true, true_and, and_true]
    refine ⟨?_, ?_, ?_, ?_⟩ <;> field_simp
    ring

/-- **C69** The primitive variables are density, gas pressure, velocity and magnetic field. -/
theorem C69_primitive (gamma : K) (ndim : ℕ) (hd : ndim = 2 ∨ ndim = 3) (U : Cons K) :
    let q := consToPrim ndim gamma (getCons ndim U)
    q.rho = U.rho ∧ q.p = pressure ndim gamma U ∧ q.mag = U.mag ∧
      ∀ i : Fin 3, q.vel i = if i.val < ndim then U.mom i / U.rho else 0 := by
  refine ⟨rfl, ?_, ?_, ?_⟩
  · unfold consToPrim pressure kinetic magnetic getCons
    rcases hd with rfl | rfl
    · simp; ring
    · simp; ring
  · funext i
    fin_cases i <;> rfl
  · intro i
    rcases hd with rfl | rfl <;> fin_cases i <;> simp [consToPrim, getCons, Prim.vel, Cons.mom]

/-- **C69** In 2D a third momentum in the arrays is not changed by reading, converting and writing. -/
theorem C69_store {gamma : K} (hg : gamma ≠ 1) (ndim : ℕ) (hd : ndim = 2 ∨ ndim = 3) (U : Cons K)
    (hr : U.rho ≠ 0) :
    setCons ndim U (primToCons ndim gamma (consToPrim ndim gamma (getCons ndim U))) = U := by
  rw [C69_cons_prim_cons hg ndim hd U hr]
  rcases hd with rfl | rfl <;> rfl

/-! ### C69: exchange of directions -/

omit [CharZero K]

omit [Field K] in
/-- **C69** The exchange of a direction with the first exchanges the components of velocity, momentum
and field and nothing else. -/
theorem C69_swap (d : Fin 3) (q : Prim K) (u : Cons K) :
    (swapPrim d q).rho = q.rho ∧ (swapPrim d q).p = q.p ∧
      (∀ i, (swapPrim d q).vel i = q.vel (exchange d i)) ∧
      (∀ i, (swapPrim d q).mag i = q.mag (exchange d i)) ∧
      (swapCons d u).rho = u.rho ∧ (swapCons d u).e = u.e ∧
      (∀ i, (swapCons d u).mom i = u.mom (exchange d i)) ∧
      ∀ i, (swapCons d u).mag i = u.mag (exchange d i) := by
  refine ⟨?_, ?_, ?_, ?_, ?_, ?_, ?_, ?_⟩
  · fin_cases d <;> rfl
  · fin_cases d <;> rfl
  · intro i; fin_cases d <;> fin_cases i <;> rfl
  · intro i; fin_cases d <;> fin_cases i <;> rfl
  · fin_cases d <;> rfl
  · fin_cases d <;> rfl
  · intro i; fin_cases d <;> fin_cases i <;> rfl
  · intro i; fin_cases d <;> fin_cases i <;> rfl

/-- **C69** Exchanging twice changes nothing, and in 3D the exchange commutes with the conversions. -/
theorem C69_swap_swap (d : Fin 3) (q : Prim K) (u : Cons K) (gamma : K) :
    swapPrim d (swapPrim d q) = q ∧ swapCons d (swapCons d u) = u ∧
      consToPrim 3 gamma (swapCons d u) = swapPrim d (consToPrim 3 gamma u) ∧
      primToCons 3 gamma (swapPrim d q) = swapCons d (primToCons 3 gamma q) := by
  refine ⟨by fin_cases d <;> rfl, by fin_cases d <;> rfl, ?_, ?_⟩
  · fin_cases d <;> simp only [consToPrim, swapCons, swapPrim, if_true, Prim.mk.injEq, true_and, and_true]
    · ring
    · ring
  · fin_cases d <;> simp only [primToCons, swapCons, swapPrim, if_true, Cons.mk.injEq, true_and, and_true]
    · ring
    · ring

/-- **C69** With divergence cleaning: dropping `psi` commutes with reading, converting and exchanging
directions, and `psi` is never changed. -/
theorem C69_glm (ndim : ℕ) (d : Fin 3) (gamma : K) (u old : GCons K) (q : GPrim K) :
    (getGCons ndim u).mhd = getCons ndim u.mhd ∧ (getGCons ndim u).psi = u.psi ∧
      (setGCons ndim old u).mhd = setCons ndim old.mhd u.mhd ∧ (setGCons ndim old u).psi = u.psi ∧
      glmToMhd (gconsToPrim ndim gamma u) = consToPrim ndim gamma u.mhd ∧
      (gconsToPrim ndim gamma u).psi = u.psi ∧
      (gprimToCons ndim gamma q).mhd = primToCons ndim gamma (glmToMhd q) ∧
      (gprimToCons ndim gamma q).psi = q.psi ∧
      glmToMhd (gswapPrim d q) = swapPrim d (glmToMhd q) ∧ (gswapPrim d q).psi = q.psi ∧
      (gswapCons d u).mhd = swapCons d u.mhd ∧ (gswapCons d u).psi = u.psi := by
  refine ⟨rfl, rfl, rfl, rfl, rfl, rfl, rfl, rfl, ?_, ?_, ?_, ?_⟩ <;> fin_cases d <;> rfl

end

example : primToCons 2 (7 / 5 : ℚ) (consToPrim 2 (7 / 5) (getCons 2 ⟨2, 10, 1, -3, 4, 1, 2, 3⟩)) =
    ⟨2, 10, 1, -3, 0, 1, 2, 3⟩ :=
  C69_cons_prim_cons (by norm_num) 2 (Or.inl rfl) _ (by norm_num)

example : consToPrim 3 (7 / 5 : ℚ) ⟨2, 17, 1, -3, 4, 1, 2, 3⟩ =
    ⟨2, 7 / 5, 1 / 2, -3 / 2, 2, 1, 2, 3⟩ := by decide +kernel

/-! ### C69: repair of negative values -/

section

variable {K : Type} [Field K] [LinearOrder K] [IsStrictOrderedRing K]

/-- **C69** The repair of negative densities and pressures: density, pressure, velocity and field of the
cell afterwards. -/
theorem C69_repair {gamma smallr smallp : K} (hg : gamma ≠ 1) (ndim : ℕ) (hd : ndim = 2 ∨ ndim = 3)
    (hsr : 0 < smallr) (u : Cons K) (hr : u.rho ≠ 0) :
    let u' := cleanNegative ndim gamma smallr smallp u
    u'.rho = (if u.rho < 0 then smallr else u.rho) ∧
      pressure ndim gamma u' = (if pressure ndim gamma u < 0 then smallp else pressure ndim gamma u) ∧
      u'.mag = u.mag ∧
      (∀ i : Fin 3, i.val < ndim → u'.mom i / u'.rho = u.mom i / u.rho) ∧
      ∀ i : Fin 3, ¬ i.val < ndim → u'.mom i = u.mom i := by
  intro u'
  have hq := C69_primitive gamma ndim hd u
  have hw : ndim = 2 → (consToPrim ndim gamma (getCons ndim u)).w = 0 := by
    rintro rfl; rfl
  have hu' : u' = cleanNegative ndim gamma smallr smallp u := rfl
  unfold cleanNegative at hu'
  simp only at hu' hq
  generalize consToPrim ndim gamma (getCons ndim u) = q at *
  obtain ⟨q1, q2, q3, q4⟩ := hq
  -- what is stored is a primitive state with the density, pressure, velocity and field claimed
  have store : ∀ q' : Prim K, q'.rho ≠ 0 → q'.rho = (if u.rho < 0 then smallr else u.rho) →
      q'.p = (if pressure ndim gamma u < 0 then smallp else pressure ndim gamma u) →
      q'.mag = q.mag → q'.vel = q.vel → (ndim = 2 → q'.w = 0) →
      u' = setCons ndim u (primToCons ndim gamma q') →
      u'.rho = (if u.rho < 0 then smallr else u.rho) ∧
      pressure ndim gamma u' = (if pressure ndim gamma u < 0 then smallp else pressure ndim gamma u) ∧
      u'.mag = u.mag ∧
      (∀ i : Fin 3, i.val < ndim → u'.mom i / u'.rho = u.mom i / u.rho) ∧
      ∀ i : Fin 3, ¬ i.val < ndim → u'.mom i = u.mom i := by
    intro q' h0 h1 h2 h3 h4 h5 h6
    have hrt := C69_prim_cons_prim hg ndim hd q' h0 h5
    have hgs : getCons ndim u' = primToCons ndim gamma q' := by
      rw [h6]
      rcases hd with rfl | rfl <;> rfl
    have hq' := C69_primitive gamma ndim hd u'
    simp only [hgs, hrt] at hq'
    obtain ⟨r1, r2, r3, r4⟩ := hq'
    refine ⟨r1 ▸ h1, r2 ▸ h2, r3.symm.trans (h3.trans q3), ?_, ?_⟩
    · intro i hi
      have a := r4 i
      have b := q4 i
      rw [if_pos hi] at a b
      rw [← a, ← b, h4]
    · intro i hi
      rw [h6]
      rcases hd with rfl | rfl
      · fin_cases i
        · exact absurd (by decide) hi
        · exact absurd (by decide) hi
        · rfl
      · exact absurd i.isLt hi
  by_cases c1 : q.rho < 0
  · have c1' : u.rho < 0 := q1 ▸ c1
    rw [if_pos (Or.inl c1), if_pos c1] at hu'
    by_cases c2 : q.p < 0
    · have c2' : pressure ndim gamma u < 0 := q2 ▸ c2
      rw [if_pos (show ({ q with rho := smallr } : Prim K).p < 0 from c2)] at hu'
      exact store { q with rho := smallr, p := smallp } hsr.ne' (by rw [if_pos c1']) (by rw [if_pos c2']) rfl rfl hw hu'
    · have c2' : ¬ pressure ndim gamma u < 0 := q2 ▸ c2
      rw [if_neg (show ¬ ({ q with rho := smallr } : Prim K).p < 0 from c2)] at hu'
      exact store { q with rho := smallr } hsr.ne' (by rw [if_pos c1']) (by rw [if_neg c2', ← q2]) rfl rfl hw hu'
  · have c1' : ¬ u.rho < 0 := q1 ▸ c1
    by_cases c2 : q.p < 0
    · have c2' : pressure ndim gamma u < 0 := q2 ▸ c2
      rw [if_pos (Or.inr c2), if_neg c1, if_pos c2] at hu'
      exact store { q with p := smallp } (by rw [show ({ q with p := smallp } : Prim K).rho = u.rho from q1]; exact hr)
        (by rw [if_neg c1']; exact q1) (by rw [if_pos c2']) rfl rfl hw hu'
    · have c2' : ¬ pressure ndim gamma u < 0 := q2 ▸ c2
      rw [if_neg (not_or.2 ⟨c1, c2⟩)] at hu'
      rw [hu', if_neg c1', if_neg c2']
      exact ⟨rfl, rfl, rfl, fun _ _ => rfl, fun _ _ => rfl⟩

/-- A cell whose energy is less than that of its field. -/
example : cleanNegative 3 (2 : ℚ) (1 / 100) (1 / 10) ⟨1, 1, 2, 0, 0, 0, 3, 0⟩ =
    ⟨1, 2 + 9 / 2 + 1 / 10, 2, 0, 0, 0, 3, 0⟩ := by decide +kernel

end

end Verif.Mhd
