import Mathlib.Data.String.Basic
import Verif.Fields.Props

/-!
# Model of what a time step does with the fields

`step` of `core/src/DyabloTimeLoop.h` (L563-809) on the slots of `Verif.Fields.Model`: which fields are created, renamed,
exchanged, given to which solver, and deleted. The numerical work of a solver is any function of the arrays it has asked
for, so what is proved holds for all solvers that keep to their accessors. Outputs, the time step (`compute_dt` only
reads), timers and scalars are left out; particles appear in the functions that project them.

`none`: exception or failed release assertion.
-/

namespace Verif.StepFields

open Verif.Fields

section Kernel

variable {N L H α : Type} [LinearOrder N] [Zero α]

/-- Argument of `getAccessor`: names with their positions as ids. The ids of the code are other numbers, all different
(`{"rho", ID}, {"e_tot", IE}`, …). -/
def infos (names : List N) : List (N × ℕ) := names.zipIdx

/-- Arrays read through an accessor; a solver cannot see the others. -/
def seen (s : State N L H α) (names : List N) : N → L ⊕ H → α :=
  fun n => if n ∈ names then s.U (s.idx n) else fun _ => 0

/-- A solver: asks for `ins`, asks for the arrays of `outs`, which are called `nm k`, then writes these. `f` gets the arrays
of both (a solver may read what it adds to). -/
def kernel (ins outs : List N) (nm : N → N) (f : (N → L ⊕ H → α) → N → L ⊕ H → α) (s : State N L H α) :
    Option (State N L H α) :=
  (getAccessor s (infos ins)).bind fun _ => (getAccessor s (infos (outs.map nm))).bind fun _ =>
    some { s with U := fun i => match outs.find? fun k => s.idx (nm k) = i with
      | some k => f (seen s (ins ++ outs.map nm)) k
      | none => s.U i }

/-- A solver that changes no field and returns something. -/
def look {M : Type} (ins : List N) (g : (N → L ⊕ H → α) → M) (s : State N L H α) : Option M :=
  (getAccessor s (infos ins)).map fun _ => g (seen s ins)

/-- `amr/MapUserData_mean.cpp` L28-46 `remap` with the `extend_fields` at the end (L45). -/
def remap (f : (L ⊕ H → α) → L ⊕ H → α) (s : State N L H α) : Option (State N L H α) :=
  (remapWith f s).bind extendFields

end Kernel

/-! ## Settings -/

/-- `core/src/enums.h` L34-44 `GravityType`. -/
def GRAVITY_NONE : ℕ := 0
/-- L39 -/
def GRAVITY_FIELD : ℕ := 2
/-- L42, `GRAVITY_CONSTANT` of L38. -/
def GRAVITY_CST_SCALAR : ℕ := 1
/-- L43, `GRAVITY_CONSTANT | GRAVITY_FIELD`. -/
def GRAVITY_CST_FIELD : ℕ := 1 ||| 2

/-- `type & GRAVITY_FIELD`. -/
def usesField (type : ℕ) : Bool := type &&& GRAVITY_FIELD != 0

/-- `gravity/GravitySolver.h` L20-22, the registered solvers. -/
inductive GravitySolver
  | constant | cg | pointMass
  deriving DecidableEq, Repr

/-- The gravity type that the constructor of a solver requires: `GravitySolver_constant.cpp` L21-22,
`GravitySolver_cg.cpp` L61-62, `GravitySolver_analytical.tpp` L45-47. -/
def GravitySolver.requires : GravitySolver → ℕ
  | .constant => GRAVITY_CST_SCALAR
  | .cg => GRAVITY_FIELD
  | .pointMass => GRAVITY_CST_FIELD

/-- `s.find(t) != std::string::npos`. -/
def contains (s t : String) : Bool := s.toList.tails.any fun u => t.toList.isPrefixOf u

/-- Settings of a run that decide about fields. -/
structure Setup where
  /-- `gravity/solver` -/
  solver : Option GravitySolver
  /-- `gravity/gravity_type`, with the default of the first module that reads it -/
  type : ℕ
  /-- `hydro/update` -/
  hydroId : String
  /-- `particles/update_density` is not `none` -/
  density : Bool
  /-- fields read by `particles/update_position`, `none` if it is `none`: `gx`, `gy`, `gz` (`ParticleUpdate_NGP_move.cpp`
  L41, `ParticleUpdate_CIC_move.cpp` L53) or density and momentum (`ParticleUpdate_tracers_move.cpp` L30) -/
  moveReads : Option (List String)
  /-- fields read by `amr/markers_kernel`, `none` for `RefineCondition_mass` -/
  markReads : Option (List String)

/-- `DyabloTimeLoop.h` L299-302 `m_gravity_type`. -/
def Setup.gravityType (S : Setup) : ℕ := if S.solver.isSome then S.type else GRAVITY_NONE

/-- L307 -/
def Setup.hasMhd (S : Setup) : Bool := contains S.hydroId "MHD"

/-- L308 -/
def Setup.isGlm (S : Setup) : Bool := contains S.hydroId "GLM"

/-- The constructors of the gravity solvers did not stop the program. -/
def Setup.Valid (S : Setup) : Prop := ∀ g, S.solver = some g → S.type = g.requires

/-- States of the solvers: `states/State_hydro.h` L24-31, `State_MHD.h` L25-36, `State_GLMMHD.h` L29-41, names of
`getFieldsInfo`. -/
def hydroFields : List String := ["rho", "e_tot", "rho_vx", "rho_vy", "rho_vz"]
/-- Of MHD. -/
def mhdFields : List String := hydroFields ++ ["Bx", "By", "Bz"]
/-- Of MHD with cleaning of the divergence. -/
def glmFields : List String := mhdFields ++ ["psi"]

/-- Registered hydro solvers (`hydro/HydroUpdate_RK2.cpp` L283-293, `_euler.cpp` L246-256, `_hancock.cpp` L480-486,
`_hancock_oneneighbor.cpp` L611-616, `_legacy.cpp` L189) with the names of their state; the older solver asks for the fields of
the gas (`_legacy.cpp` L75-101). -/
def registered : List (String × List String) :=
  [("HydroUpdate_RK2", hydroFields), ("MHDUpdate_RK2", mhdFields), ("GLMMHDUpdate_RK2", glmFields),
   ("HydroUpdate_euler", hydroFields), ("MHDUpdate_euler", mhdFields), ("GLMMHDUpdate_euler", glmFields),
   ("HydroUpdate_hancock", hydroFields), ("MHDUpdate_hancock", mhdFields),
   ("HydroUpdate_hancock_oneneighbor", hydroFields), ("MHDUpdate_hancock_oneneighbor", mhdFields),
   ("HydroUpdate_legacy", hydroFields)]

/-- `HydroUpdateFactory::make_instance` (`utils/misc/RegisteringFactory.h` L62-84): no solver for `none`, otherwise the
registered one; the names of its state. `some none`: no solver. `none`: exception. -/
def makeHydro (id : String) : Option (Option (List String)) :=
  if id = "none" then some none
  else ((registered.find? fun p => p.1 = id).map Prod.snd).map some

/-! ## The step -/

/-- What the solvers do with the arrays in one step. -/
structure Work (C α M : Type) where
  /-- exchange of ghosts of one array -/
  exchange : (C → α) → C → α
  /-- projection of the particles for gravity: density of the gas, what `rho_g` holds before -/
  project : (C → α) → (C → α) → C → α
  /-- the gravity solver: value of each field it writes -/
  gravity : (String → C → α) → String → C → α
  /-- the hydro solver: value of `n_next` for each field `n` of its state -/
  hydro : (String → C → α) → String → C → α
  /-- viscosity, conduction, cooling in this order: fields; value of `n_next` from the fields and from what is in their
  `_next` -/
  extras : List (List String × ((String → C → α) → (String → C → α) → String → C → α))
  /-- projection for the refinement criterion, after the particles have moved -/
  projectMark : (C → α) → (C → α) → C → α
  /-- the criterion -/
  mark : (String → C → α) → M
  /-- adaptation and remapping -/
  adapt : M → (C → α) → C → α

variable {L H α M : Type} [Zero α]

/-- `p.name += "_next"`. -/
def next (n : String) : String := n ++ "_next"

/-- `DyabloTimeLoop.h` L642-649 `communicate_ghosts`. -/
def communicate (W : Work (L ⊕ H) α M) (names : List String) (s : State String L H α) : Option (State String L H α) :=
  kernel names names id (fun d n => W.exchange (d n)) s

/-- `DyabloTimeLoop.h` L659-671 `fields_to_exchange`. -/
def exchanged (S : Setup) : List String :=
  hydroFields ++ (if S.hasMhd then ["Bx", "By", "Bz"] ++ (if S.isGlm then ["psi"] else []) else []) ++
    (if usesField S.gravityType then ["gphi"] else [])

/-- `DyabloTimeLoop.h` L651-656: the fields of gravity are created if they are not there. The names of a `std::set` in order. -/
def createGravity (S : Setup) (s : State String L H α) : Option (State String L H α) :=
  if usesField S.gravityType then
    (if "gx" ∈ s.keys then some s else newFields s ["gx", "gy", "gz"]).bind fun s =>
      if "gphi" ∈ s.keys then some s else newFields s ["gphi"]
  else some s

/-- `ParticleUpdate_CIC_density.cpp` L44-126, `ParticleUpdate_NGP_density.cpp` L31: `rho_g` gets the density of the gas and
the particles; the cells of ghosts add to what they hold. -/
def projection (p : (L ⊕ H → α) → (L ⊕ H → α) → L ⊕ H → α) (s : State String L H α) : Option (State String L H α) :=
  kernel ["rho", "rho_g"] ["rho_g"] id (fun d _ => p (d "rho") (d "rho_g")) s

/-- `update_gravity_field` of the solvers: `GravitySolver_constant.cpp` L25-28 does nothing, `GravitySolver_cg.cpp` L249
and L372-377, `GravitySolver_analytical.tpp` L62. -/
def updateGravity (W : Work (L ⊕ H) α M) : GravitySolver → State String L H α → Option (State String L H α)
  | .constant, s => some s
  | .cg, s => kernel ["rho", "gphi"] ["gx", "gy", "gz", "gphi"] id W.gravity s
  | .pointMass, s => kernel ["gx", "gy", "gz"] ["gx", "gy", "gz"] id W.gravity s

/-- `DyabloTimeLoop.h` L677-700: gravity. -/
def gravityPart (S : Setup) (W : Work (L ⊕ H) α M) (s : State String L H α) : Option (State String L H α) :=
  match S.solver with
  | none => some s
  | some g =>
    (if S.density then
      (((newFields s ["rho_g"]).bind (projection W.project)).bind fun s =>
        moveField s "rho_bak" "rho").bind fun s => moveField s "rho" "rho_g"
     else some s).bind fun s =>
    (updateGravity W g s).bind fun s =>
    (communicate W ["gx", "gy", "gz"] s).bind fun s =>
    if S.density then moveField s "rho" "rho_bak" else some s

/-- `DyabloTimeLoop.h` L703-707: motion of particles, which reads fields. -/
def movePart (S : Setup) (s : State String L H α) : Option (State String L H α) :=
  match S.moveReads with
  | none => some s
  | some names => (look names (fun _ => ()) s).map fun _ => s

/-- `DyabloTimeLoop.h` L712-718: new fields, three calls; names in order. -/
def createNext (S : Setup) (s : State String L H α) : Option (State String L H α) :=
  (newFields s ["e_tot_next", "rho_next", "rho_vx_next", "rho_vy_next", "rho_vz_next"]).bind fun s =>
    if S.hasMhd then
      (newFields s ["Bx_next", "By_next", "Bz_next"]).bind fun s =>
        if S.isGlm then newFields s ["psi_next"] else some s
    else some s

/-- Fields of gravity that a hydro solver asks for (`hydro/HydroUpdate_RK2.cpp` L148-149, `_euler.cpp` L168-169,
`_hancock_oneneighbor.cpp` L543-544, `_hancock.cpp` L401-407, `_legacy.cpp` L75-86): it reads the setting itself. -/
def hydroGravity (S : Setup) : List String := if usesField S.type then ["gx", "gy", "gz"] else []

/-- `DyabloTimeLoop.h` L729-741. -/
def moveNext (names : List String) (s : State String L H α) : Option (State String L H α) :=
  names.foldlM (fun s n => moveField s n (next n)) s

/-- `DyabloTimeLoop.h` L729-741, the names in the order of the code. -/
def movedBack (S : Setup) : List String :=
  hydroFields ++ if S.hasMhd then ["Bx", "By", "Bz"] ++ (if S.isGlm then ["psi"] else []) else []

/-- `parabolic/ParabolicUpdate_explicit.cpp` L104-109 and L141-147, `cooling/CoolingUpdate_FF.cpp` L70-71 and L106: the fields are
read, their new values are added to. -/
def extra (e : List String × ((String → L ⊕ H → α) → (String → L ⊕ H → α) → String → L ⊕ H → α)) (s : State String L H α) :
    Option (State String L H α) :=
  kernel e.1 e.1 next (fun d => e.2 (fun n => if n ∈ e.1 then d n else fun _ => 0)
    fun n => if n ∈ e.1 then d (next n) else fun _ => 0) s

/-- `DyabloTimeLoop.h` L710-742: hydro. -/
def hydroPart (S : Setup) (W : Work (L ⊕ H) α M) (s : State String L H α) : Option (State String L H α) :=
  (makeHydro S.hydroId).bind fun
  | none => some s
  | some names =>
    (createNext S s).bind fun s =>
    (kernel (names ++ hydroGravity S) names next W.hydro s).bind fun s =>
    (W.extras.foldlM (fun s e => extra e s) s).bind fun s =>
    moveNext (movedBack S) s

/-- `mark_cells`: `refine_condition/RefineCondition_mass.cpp` L74-90, or a criterion that reads fields. -/
def markCells (S : Setup) (W : Work (L ⊕ H) α M) (s : State String L H α) : Option (M × State String L H α) :=
  match S.markReads with
  | some names => (look names W.mark s).map fun m => (m, s)
  | none =>
    if S.density then
      (if "rho_g" ∈ s.keys then some s else newFields s ["rho_g"]).bind fun s =>
      (projection W.projectMark s).bind fun s =>
      (look ["rho_g"] W.mark s).map fun m => (m, deleteField s "rho_g")
    else (look ["rho"] W.mark s).map fun m => (m, s)

/-- `DyabloTimeLoop.h` L757-794: the AMR cycle. -/
def cyclePart (S : Setup) (W : Work (L ⊕ H) α M) (s : State String L H α) : Option (State String L H α) :=
  (communicate W (exchanged S) s).bind fun s =>
  (markCells S W s).bind fun ms => remap (W.adapt ms.1) ms.2

/-- `DyabloTimeLoop.h` L651-742: everything before the AMR cycle. -/
def flowPart (S : Setup) (W : Work (L ⊕ H) α M) (s : State String L H α) : Option (State String L H α) :=
  (createGravity S s).bind fun s =>
  (communicate W (exchanged S) s).bind fun s =>
  (gravityPart S W s).bind fun s =>
  (movePart S s).bind fun s => hydroPart S W s

/-- `DyabloTimeLoop.h` L563-809 `step`; `cycle`: the AMR cycle is due; `balance`: load balancing is due, `R` moves the octants (C22). -/
def step (S : Setup) (W : Work (L ⊕ H) α M) (cycle : Bool) (balance : Option ((L → α) → L → α))
    (s : State String L H α) : Option (State String L H α) :=
  (flowPart S W s).bind fun s =>
  (if cycle then cyclePart S W s else some s).bind fun s =>
  match balance with
  | some R => exchangeLoadbalance R s
  | none => some s

end Verif.StepFields
