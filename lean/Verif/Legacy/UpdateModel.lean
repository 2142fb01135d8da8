import Mathlib.Algebra.BigOperators.Fin
import Mathlib.Logic.Equiv.Basic
import Verif.Hydro.Riemann
import Verif.Legacy.Model

/-!
# Model of the block-based hydro update

`core/src/legacy/MusclBlockGodunovUpdateFunctor.h` and `ConvertToPrimitivesHydroFunctor.h`, called by
`core/src/hydro/HydroUpdate_legacy.cpp` L150-180 for each block after its ghost cells are filled
(`Verif.Legacy.Model`).

The versions for 2 and 3 dimensions differ only in the number of components and in gravity; here both
are the functions for `d` dimensions. Real numbers replace floating-point numbers (no NaN).
-/

namespace Verif.Legacy

open Verif.Octree

noncomputable section

variable {d : ℕ}

/-- The members of `HydroState2d` and `HydroState3d` (`ID`, `IP = IE`, `IU..IW`): density, total
energy (or pressure), momentum (or velocity). -/
inductive HV (d : ℕ)
  | rho | e
  | mom (k : Fin d)
deriving DecidableEq

/-- `states/State_Nd.h`: one number per member. -/
abbrev State (d : ℕ) := HV d → ℝ

/-- `LegacyDataArray.h` L8-10: the field of the mesh that a member comes from. -/
def HV.var : HV d → Var d
  | .rho => .rho
  | .e => .etot
  | .mom k => .mom k

/-- `enums.h` L33-44. -/
inductive Gravity
  | none | cstScalar | field | cstField
deriving DecidableEq

/-- `gravity_type & GRAVITY_FIELD`. -/
def Gravity.hasField : Gravity → Bool
  | .field => true
  | .cstField => true
  | _ => false

/-- `MusclBlockGodunovUpdateFunctor.h` L239-273, `Params`. -/
structure UPar (d : ℕ) where
  /-- `riemann_params` -/
  rp : Hydro.Params
  gravity : Gravity
  /-- `gx`, `gy`, `gz` -/
  g : Fin d → ℝ
  slopeType : ℤ
  /-- `xmax - xmin`, … -/
  L : Fin d → ℝ
  /-- `updateType == UPDATE_CONSERVATIVE_SUM` -/
  conservative : Bool

/-! ### Primitive variables and slopes -/

/-- `utils_hydro.h` L17-48, `computePrimitives`, as used in `ConvertToPrimitivesHydroFunctor.h`
L100-129 (in 2D the third component is 0). -/
def toPrim (P : Hydro.Params) (u : State d) : State d :=
  let r := max (u .rho) P.smallr
  let eken := 1 / 2 * ∑ k, u (.mom k) / r * (u (.mom k) / r)
  let e := u .e / r - eken
  fun
    | .rho => r
    | .e => max ((P.gamma - 1) * r * e) (r * P.smallp)
    | .mom k => u (.mom k) / r

/-- L557-573, `get_cons_variables`. -/
def getCons (B : Block d) (p : Fin d → ℤ) : State d := fun v => B p v.var

/-- L586-604, `get_prim_variables`; `Qgroup` is filled in all cells of the ghosted block. -/
def getPrim (UP : UPar d) (B : Block d) (p : Fin d → ℤ) : State d := toPrim UP.rp (getCons B p)

/-- L664-700, `slope_unsplit_scalar`. -/
def slopeScalar (slopeType : ℤ) (q qPlus qMinus : ℝ) : ℝ :=
  if slopeType = 1 ∨ slopeType = 2 then
    let dlft := slopeType * (q - qMinus)
    let drgt := slopeType * (qPlus - q)
    let dcen := 1 / 2 * (qPlus - qMinus)
    let dsgn : ℝ := if 0 ≤ dcen then 1 else -1
    let slop := min |dlft| |drgt|
    let dlim := if dlft * drgt ≤ 0 then 0 else slop
    dsgn * min dlim |dcen|
  else 0

/-- L1039-1098 and L1861-1931, `compute_slopes`: slopes along `k` in the cells that are not in the
outermost layer of the ghosted block; the arrays are 0 elsewhere. -/
def slopes (P : Par d) (UP : UPar d) (B : Block d) (k : Fin d) (p : Fin d → ℤ) : State d := fun v =>
  if ∀ i, -(P.w : ℤ) + 1 ≤ p i ∧ p i < P.b i + P.w - 1 then
    slopeScalar UP.slopeType (getPrim UP B p v) (getPrim UP B (p + Pi.single k 1) v)
      (getPrim UP B (p - Pi.single k 1) v)
  else 0

/-! ### Fluxes -/

/-- L902-954, L965-1034, `reconstruct_state`: `r k` is `dt / dx` in direction `k`. -/
def reconstruct (P : Hydro.Params) (r : Fin d → ℝ) (q : State d) (dq : Fin d → State d)
    (offsets : Fin d → ℝ) : State d :=
  let h : Fin d → State d := fun k v => dq k v * (1 / 2)
  fun
    | .rho => max P.smallr (q .rho +
        ∑ k, (-q (.mom k) * h k .rho - h k (.mom k) * q .rho) * r k + ∑ k, offsets k * h k .rho)
    | .e => q .e + ∑ k, (-q (.mom k) * h k .e - h k (.mom k) * P.gamma * q .e) * r k +
        ∑ k, offsets k * h k .e
    | .mom j => q (.mom j) +
        ∑ k, (-q (.mom k) * h k (.mom j) - if j = k then h k .e / q .rho else 0) * r k +
        ∑ k, offsets k * h k (.mom j)

/-- L1538-1543, L2034-2040: exchange of the first component with component `k`. -/
def swapDir (k : Fin d) (q : State d) : State d
  | .mom j => q (.mom (Equiv.swap ⟨0, k.pos⟩ k j))
  | v => q v

/-- L60-97: a state as argument of `riemann_hllc`; missing components are 0. -/
def toHydro (q : State d) : Hydro.Prim ℝ :=
  let c : ℕ → ℝ := fun j => if h : j < d then q (.mom ⟨j, h⟩) else 0
  ⟨q .rho, q .e, c 0, c 1, c 2⟩

/-- L60-97: the result of `riemann_hllc` as a state. -/
def ofFlux (f : Hydro.Cons ℝ) : State d
  | .rho => f.rho
  | .e => f.e
  | .mom j => if (j : ℕ) = 0 then f.ru else if (j : ℕ) = 1 then f.rv else f.rw

/-- L60-97, `riemann_hydro`. -/
def riemannHydro (P : Hydro.Params) (l r : State d) : State d :=
  ofFlux (Hydro.hllc P (toHydro l) (toHydro r))

/-- L525-546, `get_gravity_field`: nothing for `GRAVITY_FIELD`. -/
def getGravity (UP : UPar d) (B : Block d) (p : Fin d → ℤ) (k : Fin d) : ℝ :=
  match UP.gravity with
  | .cstScalar => UP.g k
  | .cstField => B p (.grav k)
  | _ => 0

/-- L735-745, `apply_gravity_prediction`, called in the conservative update in 2D only (L1528-1532;
commented out in L2019-2023). -/
def predict (UP : UPar d) (dt : ℝ) (q : State d) (g : Fin d → ℝ) : State d
  | .mom k => if d = 2 ∧ UP.conservative ∧ UP.gravity ≠ .none then q (.mom k) + 1 / 2 * dt * g k
      else q (.mom k)
  | v => q v

/-- L1505-1551, L2002-2044, `process_axis`: what is added to `qcons` for the face of cell `p` in
direction `k`, on the lower side if `left`. The non-conservative update L1642-1760 is the same,
written out, without gravity. `RS` is the Riemann solver. -/
def processAxis (RS : State d → State d → State d) (P : Par d) (UP : UPar d) (dt : ℝ)
    (r : Fin d → ℝ) (B : Block d) (p : Fin d → ℤ) (k : Fin d) (left : Bool) : State d :=
  let faceSign : ℤ := if left then -1 else 1
  let offsets : Fin d → ℝ := Pi.single k ((-faceSign : ℤ) : ℝ)
  let pn := p + Pi.single k faceSign
  let qout := predict UP dt (reconstruct UP.rp r (getPrim UP B pn)
    (fun j => slopes P UP B j pn) offsets) (getGravity UP B pn)
  let qin := predict UP dt (reconstruct UP.rp r (getPrim UP B p)
    (fun j => slopes P UP B j p) (-offsets)) (getGravity UP B p)
  let qL := if left then qout else qin
  let qR := if left then qin else qout
  let flux := swapDir k (RS (swapDir k qL) (swapDir k qR))
  fun v => -(flux v * ∑ j, (-offsets) j * r j)

/-- L1553-1573, L2046-2076: all faces of a cell. `isFaceConformal` is always true: nothing calls
`setFaceBigger` or `setFaceSmaller`. -/
def allFaces (RS : State d → State d → State d) (P : Par d) (UP : UPar d) (dt : ℝ)
    (r : Fin d → ℝ) (B : Block d) (p : Fin d → ℤ) : State d :=
  getCons B p + ∑ k, (processAxis RS P UP dt r B p k true + processAxis RS P UP dt r B p k false)

/-- L1473-1481, L1955-1965 and, without the size of the domain, L1612-1617: `dt / dx`. -/
def dtdx (P : Par d) (UP : UPar d) (dt : ℝ) (o : Oct d) (k : Fin d) : ℝ :=
  dt / (((getSize P.G o k : ℚ) : ℝ) * (if UP.conservative then UP.L k else 1) / P.b k)

/-! ### Gravity -/

/-- `index` of an inner cell, L810-816. -/
def flatIndex (b : Fin d → ℕ) (x : Fin d → ℕ) : ℕ :=
  ∑ i : Fin d, x i * ∏ j : Fin i, b (Fin.castLE i.is_lt.le j)

/-- The cell of the ghosted block with that index. -/
def cellOfIndex (P : Par d) (index : ℕ) (i : Fin d) : ℤ :=
  (indexToCoord (fun j => P.b j + 2 * P.w) index i : ℤ) - P.w

/-- L764-795, L1833-1857: momentum and energy after acceleration `g`; `u` is the state after the
fluxes, `rhoOld` the density before. -/
def accelerate (dt rhoOld rhoNew : ℝ) (g : Fin d → ℝ) (u : State d) : State d :=
  let m : Fin d → ℝ := fun k => u (.mom k) + 1 / 2 * dt * g k * (rhoOld + rhoNew)
  let ekinOld := 1 / 2 * (∑ k, u (.mom k) * u (.mom k)) / rhoNew
  let ekinNew := 1 / 2 * (∑ k, m k * m k) / rhoNew
  fun
    | .rho => u .rho
    | .e => u .e + (ekinNew - ekinOld)
    | .mom k => m k

/-- The correction for gravity. In 2D L749-824, `apply_gravity_correction`: a field is read at the
index of the cell in the block without ghosts. In 3D L1824-1858: always a field; `none` if there is
none (the index of the missing field is out of bounds). -/
def correct (P : Par d) (UP : UPar d) (dt : ℝ) (B : Block d) (x : Fin d → ℕ) (u : State d) :
    Option (State d) :=
  let p : Fin d → ℤ := fun i => x i
  if UP.gravity = .none then some u
  else if d = 2 then
    let g : Fin d → ℝ := if UP.gravity.hasField then
        fun k => B (cellOfIndex P (flatIndex P.b x)) (.grav k)
      else UP.g
    some (accelerate dt (B p .rho) (max UP.rp.smallr (u .rho)) g u)
  else if UP.gravity.hasField then
    some (accelerate dt (B p .rho) (u .rho) (fun k => B p (.grav k)) u)
  else none

/-- L1782-1797 and L2092-2105: new values of cell `x` of octant `o`; `none` for the update that is
not implemented. -/
def updateCell (RS : State d → State d → State d) (P : Par d) (UP : UPar d) (dt : ℝ) (o : Oct d)
    (B : Block d) (x : Fin d → ℕ) : Option (State d) :=
  if UP.conservative = false ∧ d ≠ 2 then none
  else correct P UP dt B x (allFaces RS P UP dt (dtdx P UP dt o) B fun i => x i)

/-- `HydroUpdate_legacy.cpp` L50-184, `update`, for one cell of one octant: the ghosts of its block
are filled, then the cell is updated. `B` is what the group array contained. Octants are independent
of each other: the input is `U`, the output goes to other arrays. -/
def step (RS : State d → State d → State d) (P : Par d) (UP : UPar d) (dt : ℝ)
    (M : Finset (Oct d)) (U : Mesh d) (B : Block d) (o : Oct d) (x : Fin d → ℕ) :
    Option (State d) :=
  (fillGhosts P M U o B).bind fun B' => updateCell RS P UP dt o B' x

end

end Verif.Legacy
