import Verif.Run.Model
import Verif.Remap.Model
import Verif.Hydro.OneNeighbor
import Verif.Hydro.Slope
import Verif.Refine.Cellwise

/-!
# A simulation with data

`core/src/DyabloTimeLoop.h` with `HydroUpdate_hancock_oneneighbor`, `Compute_dt_hydro`,
one of the refinement conditions but `RefineCondition_legacy`, `MapUserData_mean`, `InitialConditions_analytical` and
`AMRmesh_hashmap_new`, on all ranks. The mesh operations are those of `Verif.Run`; every rank has its own copy of the
fields and reads only its octants and ghosts. Gravity fields, particles, output, parabolic terms and cooling are left
out. Arithmetic is exact.
-/

namespace Verif.Sim

open Verif.Octree Verif.Cells Verif.Adapt Verif.Flux Verif.Hydro Verif.Hydro.OneNeighbor Verif.Refine Verif.Remap Verif.Run
open Verif.Partition (InLayers Face)

/-- Which refinement condition is used (`DyabloTimeLoop.h` L382-386) and its parameters. `RefineCondition_mass` without
particles. -/
inductive Condition (d : ℕ) (K ι : Type) (blk : Fin d → ℕ)
  | pseudoGradient
  | mass (massRefine massCoarsen : K)
  /-- `downflow_sign`, and the momentum in the last direction of a state (`RefineCondition_downflows.cpp` L42-43). -/
  | downflows (sign : K) (rhoV : (ι → K) → K) (vRefine vCoarsen : K)
  /-- Precision of `real_t`, the density and the pressure of a state, values beyond boundaries from those in the block
  (`BoundaryConditions::getBoundaryValue`), and the mean of smaller cells (`CopyGhostBlockCellData.h` L49-57). -/
  | secondDerivative (eps : K) (prim : List ((ι → K) → K))
      (bval : ((∀ k, Fin (blk k)) → ι → K) → CellIndex d → ι → K) (avg : List (ι → K) → ι → K)

/-- Configuration and the formulas that work on the values of one cell. `ι` are the conserved variables, `ν` the
primitive variables, `S` reconstructed states. -/
structure Config (d : ℕ) (K ι ν S : Type) where
  dom : Domain d
  grid : Grid d
  /-- Cells of a block. -/
  blk : Fin d → ℕ
  /-- Bits per level in Morton keys. -/
  bits : ℕ
  /-- `level_max`. -/
  lmax : ℕ
  /-- `InitialConditions_analytical.h` L73 `need_refine` and L116 `value` at a cell. -/
  need : Oct d → (Fin d → ℕ) → Bool
  init : Oct d → (Fin d → ℕ) → ι → K
  /-- `Compute_dt_hydro.cpp` L75-119: the rate of a cell, from its values and size. -/
  rate : (ι → K) → (Fin d → ℚ) → K
  /-- Neutral element of the reduction. -/
  lowest : K
  /-- `numeric_limits<real_t>::max()`. -/
  maxReal : K
  cfl : K
  /-- `t_end` if it is used. -/
  tEnd : Option K
  /-- `consToPrim`. -/
  toPrim : (ι → K) → ν → K
  /-- `big_real`. -/
  big : K
  /-- `HydroUpdate_hancock_oneneighbor.cpp` L241-276: from the time step, the primitive variables, the slopes, the
  position on the face and the size of the cell. -/
  recon : K → (ν → K) → (Fin d → ν → K) → (Fin d → ℚ) → (Fin d → ℚ) → S
  flux : Fin d → S → S → ι → K
  /-- L289-297: flux at the boundary of the domain, from the values in the block. -/
  bflux : ((∀ k, Fin (blk k)) → ι → K) → Oct d → (Fin d → ℕ) → Fin d → ℤ → ι → K
  /-- L588-594: what is done to a cell after the fluxes (constant gravity, `clean_negative_primitive_values`), from
  the time step, the values before the step and those after the fluxes. -/
  post : K → (ι → K) → (ι → K) → ι → K
  condition : Condition d K ι blk := .pseudoGradient
  /-- The density, for the refinement condition. -/
  rho : (ι → K) → K
  /-- `error_min` and `error_max` (`RefineCondition_pseudo_gradient.cpp` L17-18,
  `RefineCondition_second_derivative_error.cpp` L81-82). -/
  errorMin : K
  errorMax : K
  /-- Bound for the depth of the recursion of `remap_aux`. -/
  depth : ℕ

variable {d P : ℕ} {K ι ν S : Type} [Field K] [LinearOrder K]

/-- The state of all ranks: octants, ghosts, fields of the local octants, and the time. -/
structure State (d P : ℕ) (K ι : Type) where
  ranks : Ranks d P
  data : Fin P → Oct d → (Fin d → ℕ) → ι → K
  time : K

/-- Octants that rank `r` stores. -/
def rankMap [NeZero P] (s : Ranks d P) (r : Fin P) : Finset (Oct d) := localMap s.dist s.mesh r

/-- `GhostCommunicator_full_blocks::exchange_ghosts` (C19, C20): ghosts get the values of their owner. -/
def exchange [NeZero P] {T : Type} (s : Ranks d P) (F : Fin P → Oct d → (Fin d → ℕ) → T) :
    Fin P → Oct d → (Fin d → ℕ) → T :=
  fun r o => if o ∈ s.ghost r then F (owner s.octs o) o else F r o

/-- `GhostCommunicator::exchange_ghosts`, which is `GhostCommunicator_partial_blocks` here (`GhostCommunicator.h` L84-86,
C21, C58): the cells of a ghost in `gc` layers at the faces of its mask get the values of their owner, its other cells
keep what they have. -/
def exchangeLayers [NeZero P] {T : Type} (s : Ranks d P) (blk : Fin d → ℕ) (gc : ℕ)
    (F : Fin P → Oct d → (Fin d → ℕ) → T) : Fin P → Oct d → (Fin d → ℕ) → T :=
  fun r o x => if o ∈ s.ghost r ∧ InLayers blk gc (s.faces r o) x then F (owner s.octs o) o x else F r o x

/-- `DyabloTimeLoop.h` L311-321: `ghost_count` for `HydroUpdate_hancock_oneneighbor`. -/
def loopGhosts (blk : Fin d → ℕ) : ℕ := (((List.finRange d).filter fun k : Fin d => decide (k.val < 2)).map blk).foldl min 2

/-- The cells of a block in storage order. -/
def cells (b : Fin d → ℕ) : List (Fin d → ℕ) := loops fun k => List.range (b k)

/-- A cell of the loop over the cells of an array. -/
def cellAt (b : Fin d → ℕ) (o : Oct d) (x : Fin d → ℕ) : CellIndex d := ⟨o, x, b, .localToBlock⟩

/-! ### Time step -/

/-- `Compute_dt_hydro.cpp` L68-119 on one rank: `inv_dt`. -/
def invDt (C : Config d K ι ν S) (octs : List (Oct d)) (U : Oct d → (Fin d → ℕ) → ι → K) : K :=
  ((octs.flatMap fun o => (cells C.blk).map fun x =>
    C.rate (U o x) (getCellSize C.dom C.grid (cellAt C.blk o x))).foldl max C.lowest)

/-- L121-123: `cfl / inv_dt`, where `none` is infinity; fails if it is not positive. -/
def localDt (C : Config d K ι ν S) (inv : K) : Option (Option K) :=
  if inv = 0 then if 0 < C.cfl then some none else none
  else if 0 < C.cfl / inv then some (some (C.cfl / inv)) else none

/-- L39-54 and `DyabloTimeLoop.h` L609-616: the smallest of all ranks, at most `max()`. -/
def computeDt (C : Config d K ι ν S) (s : State d P K ι) : Option K :=
  ((List.finRange P).mapM fun r => localDt C (invDt C (s.ranks.octs r) (s.data r))).map fun l =>
    (l.filterMap id).foldl min C.maxReal

/-- `DyabloTimeLoop.h` L184-196 `correct_dt_end` with `t_end_var = "time"`. -/
def correctDt (C : Config d K ι ν S) (time dt : K) : K :=
  match C.tEnd with
  | none => dt
  | some t => if t < time + dt then t - time else dt

/-! ### Hydro -/

/-- `HydroUpdate_hancock_oneneighbor.cpp` L121-143 `process_neighbors`: values and signed distances on one side, for
one variable. -/
def slopeSide (C : Config d K ι ν S) (Mr : Finset (Oct d)) (Q : Oct d → (Fin d → ℕ) → ν → K) (c : CellIndex d)
    (j : Fin d) (s : ℤ) (v : ν) : Option (List (K × K)) :=
  let size : K := (getCellSize C.dom C.grid c j : ℚ)
  match getNeighborGhost C.grid Mr c (faceOff j s) with
  | none => none
  | some r =>
    if r.status = .boundary then some []
    else if r.levelDiff = 0 then some [(Q r.oct r.idx v, s * size)]
    else if r.levelDiff = 1 then some [(Q r.oct r.idx v, 3 / 2 * s * size)]
    else if r.levelDiff = -1 then
      (loops fun k => if faceOff j s k = 0 then [(0 : ℤ), 1] else [0]).mapM fun δ =>
        (getNeighborGhost C.grid Mr r δ).map fun n => (Q n.oct n.idx v, 3 / 4 * s * size)
    else some []

/-- L67-163: the limited slope of variable `v` in direction `j`. -/
def slope (C : Config d K ι ν S) (Mr : Finset (Oct d)) (Q : Oct d → (Fin d → ℕ) → ν → K) (c : CellIndex d) (j : Fin d)
    (v : ν) : Option K :=
  (slopeSide C Mr Q c j 1 v).bind fun a => (slopeSide C Mr Q c j (-1) v).map fun e =>
    limitedSlope C.big (Q c.oct c.idx v) (a ++ e)

/-- What the flux kernel (L177-409) reads, for conserved variable `i`. -/
def scheme (C : Config d K ι ν S) (dt : K) (U : Oct d → (Fin d → ℕ) → ι → K) (Q : Oct d → (Fin d → ℕ) → ν → K)
    (Sl : Oct d → (Fin d → ℕ) → Fin d → ν → K) (i : ι) : Scheme d K S where
  recon o x off size := C.recon dt (Q o x) (Sl o x) off size
  flux j l r := C.flux j l r i
  bflux o x j s := C.bflux (fun y => U o fun k => y k) o x j s i

/-- L531 (`nb_ghosts` is 1) and L554-561: primitive variables, with ghosts. -/
def primitives [NeZero P] (C : Config d K ι ν S) (s : State d P K ι) : Fin P → Oct d → (Fin d → ℕ) → ν → K :=
  exchangeLayers s.ranks C.blk 1 fun r o x => C.toPrim (s.data r o x)

/-- L572-581: slopes, with ghosts. -/
def slopes [NeZero P] (C : Config d K ι ν S) (s : State d P K ι) : Fin P → Oct d → (Fin d → ℕ) → Fin d → ν → K :=
  exchangeLayers s.ranks C.blk 1 fun r o x j v => (slope C (rankMap s.ranks r) (primitives C s r) (cellAt C.blk o x) j v).getD 0

/-- L584-589: variable `i` after the fluxes. -/
def fluxed [NeZero P] (C : Config d K ι ν S) (s : State d P K ι) (dt : K) (r : Fin P) (o : Oct d) (x : Fin d → ℕ)
    (i : ι) : Option K :=
  updateCell (scheme C dt (s.data r) (primitives C s r) (slopes C s r) i) C.dom C.grid (rankMap s.ranks r) dt
    (s.data r o x i) (cellAt C.blk o x)

/-- All kernels of the hydro update are free of undefined behaviour. -/
def HydroDefined [NeZero P] (C : Config d K ι ν S) (s : State d P K ι) (dt : K) : Prop :=
  ∀ r, ∀ o ∈ s.ranks.octs r, ∀ x ∈ cells C.blk,
    (∀ j v, (slope C (rankMap s.ranks r) (primitives C s r) (cellAt C.blk o x) j v).isSome) ∧
      ∀ i, (fluxed C s dt r o x i).isSome

open Classical in
/-- `DyabloTimeLoop.h` L605-622, L720, L730-746: time step, hydro update (L510-597), next iteration. -/
noncomputable def hydro [NeZero P] (C : Config d K ι ν S) (s : State d P K ι) : Option (State d P K ι) :=
  (computeDt C s).bind fun dt0 =>
    let dt := correctDt C s.time dt0
    if HydroDefined C s dt then
      some ⟨s.ranks, fun r o x => C.post dt (s.data r o x) fun i => (fluxed C s dt r o x i).getD 0, s.time + dt⟩
    else none

/-! ### Adaptation -/

/-- The patch of an octant is filled, also where nobody reads it (`RefineCondition_second_derivative_error.cpp` L131-138,
`ParabolicUpdate_explicit.cpp` L122-129). -/
def fillPatch {V : Type} (I : Source d V) (G : Grid d) (M : Finset (Oct d)) (b : Fin d → ℕ) (o : Oct d) : Option Unit :=
  ((loops fun k => List.range (b k + 2 * 2)).mapM (patchVal I G M b o)).map fun _ => ()

/-- What a cell asks for, from the fields `U`. -/
def cellMark (C : Config d K ι ν S) (Mr : Finset (Oct d)) (U : Oct d → (Fin d → ℕ) → ι → K) (o : Oct d) (x : Fin d → ℕ) :
    Option ℤ :=
  match C.condition with
  | .pseudoGradient => pseudoGradient (fun o x => C.rho (U o x)) C.grid Mr C.blk C.errorMin C.errorMax o x
  | .mass massRefine massCoarsen => some (massMark (C.rho (U o x))
      (fun k => ((getCellSize C.dom C.grid (cellAt C.blk o x) k : ℚ) : K)) massRefine massCoarsen)
  | .downflows sign rhoV vRefine vCoarsen =>
      some (downflowMark sign (C.rho (U o x)) (rhoV (U o x)) vRefine vCoarsen)
  | .secondDerivative eps prim bval avg =>
      let I : Source d (ι → K) := ⟨U, fun r => bval (fun y => U r.oct fun k => y k) r, avg⟩
      (fillPatch I C.grid Mr C.blk o).bind fun _ =>
        (secondDerivativeCell eps prim I C.grid Mr C.blk o x).map fun v => criterion (some v) C.errorMax C.errorMin

/-- What the markers start with: `RefineCondition_helper.h` L72-77, `RefineCondition_second_derivative_error.cpp` L119. -/
def Condition.first {blk : Fin d → ℕ} : Condition d K ι blk → ℤ
  | .secondDerivative .. => noChange
  | _ => coarsen

/-- `RefineCondition_helper.h` L61-87 and L14-37: the marker of an octant, from the fields `U` (C52: the order of
the cells does not matter). -/
def marker (C : Config d K ι ν S) (Mr : Finset (Oct d)) (U : Oct d → (Fin d → ℕ) → ι → K) (o : Oct d) : Option ℤ :=
  ((cells C.blk).mapM (cellMark C Mr U o)).map fun l =>
    adjust C.grid.lmin C.lmax o.level (l.foldl max C.condition.first)

/-- `DyabloTimeLoop.h` L764-770: ghosts of the fields, then the markers; octant `o` is marked by its owner. -/
def marks [NeZero P] (C : Config d K ι ν S) (s : State d P K ι) (o : Oct d) : Option ℤ :=
  marker C (rankMap s.ranks (owner s.ranks.octs o))
    (exchangeLayers s.ranks C.blk (loopGhosts C.blk) s.data (owner s.ranks.octs o)) o

/-- `MapUserData_mean.cpp` L48-108 for variable `i` and corrected markers `f`. -/
def remapVar [NeZero P] (C : Config d K ι ν S) (s : State d P K ι) (f : Oct d → ℤ) (i : ι) :
    Option (Fin P → Oct d → (Fin d → ℕ) → K) :=
  remapAux C.grid s.ranks.dist s.ranks.mesh f C.blk C.grid.lmin C.lmax (exchange s.ranks) C.depth
    fun r o x => s.data r o x i

open Classical in
/-- `DyabloTimeLoop.h` L757-794, the AMR cycle. -/
noncomputable def amr [NeZero P] (C : Config d K ι ν S) (s : State d P K ι) : Option (State d P K ι) :=
  if ∀ o ∈ s.ranks.mesh, (marks C s o).isSome then
    let mk := fun o => (marks C s o).getD 0
    let n := 2 * s.ranks.mesh.card + 1
    (outerLoop C.grid s.ranks.dist s.ranks.mesh n n mk).bind fun f =>
      (adapt C.bits C.lmax C.grid mk s.ranks).bind fun R =>
        if ∀ i, (remapVar C s f i).isSome then
          some ⟨R, fun r o x i => ((remapVar C s f i).getD fun _ _ _ => 0) r o x, s.time⟩
        else none
  else none

/-- `DyabloTimeLoop.h` L797-808, `loadBalance_userdata`: the fields go with the octants (C16, C28). -/
def loadBalance [NeZero P] (C : Config d K ι ν S) (level : ℕ) (s : State d P K ι) : Option (State d P K ι) :=
  (balance C.bits C.lmax C.grid level s.ranks).map fun R =>
    ⟨R, fun _ o => s.data (owner s.ranks.octs o) o, s.time⟩

/-! ### Initial conditions -/

/-- `InitialConditions_analytical.h` L62-91, one pass of the loop over levels; the fields are filled as at the end
(L97-120). Simplification: octants of the finest level are not marked (the loop makes at most
`level_max - level_min` passes). -/
def initRefine [NeZero P] (C : Config d K ι ν S) (s : State d P K ι) : Option (State d P K ι) :=
  (adapt C.bits C.lmax C.grid
    (fun o => if o.level < C.lmax ∧ (cells C.blk).any (C.need o) = true then 1 else 0) s.ranks).map fun R =>
      ⟨R, fun _ => C.init, s.time⟩

/-- The constructor of the mesh and the initial fields. -/
def startSim [NeZero P] (C : Config d K ι ν S) (time : K) : Option (State d P K ι) :=
  (start C.bits C.grid).map fun R => ⟨R, fun _ => C.init, time⟩

/-- What the time loop does. Which of these, and when, depends on scalar data that are the same on all ranks. -/
inductive Op
  | initRefine
  | hydro
  | amr
  | loadBalance (level : ℕ)

noncomputable def step [NeZero P] (C : Config d K ι ν S) (s : State d P K ι) : Op → Option (State d P K ι)
  | .initRefine => initRefine C s
  | .hydro => hydro C s
  | .amr => amr C s
  | .loadBalance level => loadBalance C level s

/-- A run, `none` if it fails. -/
noncomputable def simulate [NeZero P] (C : Config d K ι ν S) (time : K) (ops : List Op) : Option (State d P K ι) :=
  (startSim C time).bind fun s => ops.foldlM (step C) s

end Verif.Sim
