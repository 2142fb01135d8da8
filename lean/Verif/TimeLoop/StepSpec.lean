import Verif.TimeLoop.StepFields

/-!
# Specification: a step without temporary fields

What a step must do to the fields of the run, written as equations between arrays, one after the other. There is no
slot, no accessor and no temporary name here. `d n` is the array of the field `n`.
-/

namespace Verif.StepFields

variable {C L H α M : Type} [Zero α]

/-- The arrays of some names; a solver gets zeros for others. -/
def only (names : List String) (d : String → C → α) : String → C → α :=
  fun n => if n ∈ names then d n else fun _ => 0

/-- The fields of gravity. -/
def gravityFields : List String := ["gx", "gy", "gz", "gphi"]

/-- Fields of the run after a step. -/
def fieldsAfter (S : Setup) (F : Finset String) : Finset String :=
  F ∪ if usesField S.gravityType then gravityFields.toFinset else ∅

/-- Fields that are not there yet are zero. -/
def started (F : Finset String) (d : String → C → α) : String → C → α :=
  fun n => if n ∈ F then d n else fun _ => 0

/-- Fields whose ghosts the solvers need: the state of the hydro solver (the gas if there is none) and the potential. -/
def shared (S : Setup) (state : Option (List String)) : List String :=
  state.getD ["rho", "e_tot", "rho_vx", "rho_vy", "rho_vz"] ++ if usesField S.gravityType then ["gphi"] else []

/-- The ghosts of these are exchanged. -/
def synced (S : Setup) (W : Work C α M) (state : Option (List String)) (d : String → C → α) : String → C → α :=
  fun n => if n ∈ shared S state then W.exchange (d n) else d n

/-- The density that attracts: of the gas, and of the particles if they are projected (on zeros). -/
def attracting (S : Setup) (W : Work C α M) (d : String → C → α) : C → α :=
  if S.density then W.project (d "rho") (fun _ => 0) else d "rho"

/-- Gravity: the potential and the acceleration of the attracting density; the density of the gas stays. -/
def withGravity (S : Setup) (W : Work C α M) (d : String → C → α) : String → C → α :=
  match S.solver with
  | some .cg =>
    let e := fun n => if n = "rho" then attracting S W d else d n
    let g := W.gravity (only ["rho", "gphi", "gx", "gy", "gz"] e)
    fun n => if n ∈ ["gx", "gy", "gz"] then W.exchange (g n) else if n = "gphi" then g n else d n
  | some .pointMass =>
    let g := W.gravity (only ["gx", "gy", "gz"] d)
    fun n => if n ∈ ["gx", "gy", "gz"] then W.exchange (g n) else d n
  | _ => d

/-- The new values of the gas with state `names`: hydro solver, then viscosity, conduction and cooling one after the other. -/
def gas (S : Setup) (W : Work C α M) (names : List String) (d : String → C → α) : String → C → α :=
  W.extras.foldl (fun new e n => if n ∈ e.1 then e.2 (only e.1 d) (only e.1 new) n else new n)
    (W.hydro (only (names ++ if usesField S.type then ["gx", "gy", "gz"] else []) d))

/-- All fields after the motion of the gas; `state`: names of the state of the hydro solver. -/
def flowed (S : Setup) (W : Work C α M) (state : Option (List String)) (d : String → C → α) : String → C → α :=
  match state with
  | none => d
  | some names => fun n => if n ∈ names then gas S W names d n else d n

/-- What the refinement criterion looks at: the fields it reads, or the density of gas and particles. -/
def judged (S : Setup) (W : Work C α M) (d : String → C → α) : String → C → α :=
  match S.markReads with
  | some names => only names d
  | none =>
    if S.density then fun n => if n = "rho_g" then W.projectMark (d "rho") (fun _ => 0) else fun _ => 0
    else only ["rho"] d

/-- Arrays after the AMR cycle. -/
def cycled (S : Setup) (W : Work C α M) (state : Option (List String)) (d : String → C → α) : String → C → α :=
  fun n => W.adapt (W.mark (judged S W (synced S W state d))) (synced S W state d n)

/-- Arrays after load balancing; ghosts are not filled. -/
def balanced (R : (L → α) → L → α) (d : String → L ⊕ H → α) : String → L ⊕ H → α :=
  fun n => Sum.elim (R fun l => d n (.inl l)) fun _ => 0

/-- Arrays after the part of the step before the AMR cycle. -/
def flowSpec (S : Setup) (W : Work C α M) (state : Option (List String)) (F : Finset String)
    (d : String → C → α) : String → C → α :=
  flowed S W state (withGravity S W (synced S W state (started F d)))

/-- Arrays after a step. -/
def stepSpec (S : Setup) (W : Work (L ⊕ H) α M) (state : Option (List String)) (cycle : Bool)
    (balance : Option ((L → α) → L → α)) (F : Finset String) (d : String → L ⊕ H → α) : String → L ⊕ H → α :=
  let d := flowSpec S W state F d
  let d := if cycle then cycled S W state d else d
  match balance with
  | some R => balanced R d
  | none => d

/-- Names that a step uses for a while. -/
def Temporary (n : String) : Prop := n = "rho_g" ∨ n = "rho_bak" ∨ ∃ m, n = next m

/-- What the settings and the fields `F` of a run must fulfil: the fields of the gas are there, those of the magnetic field
if the solver needs them, those of gravity all or none, no name is temporary, modules read fields that are there, and
there are at most 32 fields. -/
structure Fits (S : Setup) (F : Finset String) (state : Option (List String)) : Prop where
  valid : S.Valid
  made : makeHydro S.hydroId = some state
  fluid : ∀ n ∈ hydroFields, n ∈ F
  vars : ∀ names, state = some names → ∀ n ∈ names, n ∈ F
  acceleration : ("gx" ∈ F ↔ "gy" ∈ F) ∧ ("gx" ∈ F ↔ "gz" ∈ F)
  needs : S.solver = none → state ≠ none → usesField S.type = false
  names : ∀ n ∈ F, ¬ Temporary n
  move : ∀ l, S.moveReads = some l → l ≠ [] ∧ l.length ≤ 32 ∧ ∀ n ∈ l, n ∈ fieldsAfter S F
  mark : ∀ l, S.markReads = some l → l ≠ [] ∧ l.length ≤ 32 ∧ ∀ n ∈ l, n ∈ fieldsAfter S F
  few : (fieldsAfter S F).card ≤ 32

/-- Viscosity, conduction and cooling work on fields of the state. -/
def Work.Fits (W : Work C α M) (state : Option (List String)) : Prop :=
  ∀ names, state = some names → ∀ e ∈ W.extras, e.1 ≠ [] ∧ e.1.length ≤ 32 ∧ ∀ n ∈ e.1, n ∈ names

end Verif.StepFields
