import Verif.Sim.Props
import Verif.Sim.BlockProps
import Verif.Sim.CloudProps
import Verif.Sim.Terms

/-!
# A simulation with gas, self-gravity and particles

`core/src/DyabloTimeLoop.h` L595-811 on all ranks: time step, projection of the particles, gravity, motion of the
particles, hydro update, viscosity, conduction and cooling, AMR cycle and load balancing. Gas and mesh are those of C85 and
C91, the terms are those of C105, gravity is that of C90, the particles are those of C92. Left out: output,
`Compute_dt_particle_velocity` (C42). Arithmetic is exact.
-/

namespace Verif.Sim

open Verif.Octree Verif.Cells Verif.Adapt Verif.Flux Verif.Hydro Verif.Run Verif.Gravity Verif.Particles

variable {P Q : ℕ} {κ ν S : Type}

/-! ### Model -/

/-- The fields: those of the gas (`κ`), `gphi` (`none`) and `gx`, `gy`, `gz`. -/
abbrev Var (κ : Type) := κ ⊕ Option (Fin 3)

/-- `hydro/update` (`DyabloTimeLoop.h` L325-329): no hydro solver, `HydroUpdate_hancock_oneneighbor` (C85),
`HydroUpdate_hancock` or `HydroUpdate_euler` (C91), `HydroUpdate_RK2` (C91). -/
inductive Gas (κ ν : Type)
  | off
  | oneNeighbor
  | block (k : Kernel 3 ℚ (Var κ) ν)
  | rk2 (E : Var κ → Euler.Scheme 3 ℚ ν (Var κ → ℚ))

/-- Configuration of a run. -/
structure Setup (κ ν S : Type) where
  /-- Mesh, time step, refinement, initial conditions, and the formulas of the gas. -/
  cfg : Config 3 ℚ (Var κ) ν S
  gas : Gas κ ν
  /-- Viscosity, conduction and cooling. -/
  terms : Option (Terms 3 ℚ (Var κ)) := none
  /-- For the block-based solvers, see `Blocks`. -/
  bval : ((∀ k, Fin (cfg.blk k)) → Var κ → ℚ) → CellIndex 3 → Var κ → ℚ
  avg : List (Var κ → ℚ) → Var κ → ℚ
  /-- The variable `rho`. -/
  density : κ
  /-- `boundarycondition[dir] == BC_ABSORBING` of the gravity solver. -/
  absorbing : Fin 3 → Bool
  /-- `eps` of the gravity solver, and a bound for its iterations. -/
  eps : ℚ
  iters : ℕ
  /-- The right-hand side of the Poisson equation: from time (`aexp`), mean density and density. -/
  source : ℚ → ℚ → Fld 3 ℚ → Fld 3 ℚ
  /-- `particles/update_density` and `particles/update_position`. -/
  project : Cloud
  move : Cloud

/-- What the block-based solvers are given. -/
def Setup.blocks (F : Setup κ ν S) : Blocks 3 ℚ (Var κ) :=
  ⟨F.cfg.dom, F.cfg.grid, F.cfg.blk, F.bval, F.avg, fun dt _ _ => F.cfg.post dt⟩

/-- What the gravity solver and the particles are given. -/
def Setup.poisson (F : Setup κ ν S) : Poisson 3 := ⟨F.absorbing, F.cfg.dom, F.cfg.grid, F.cfg.blk⟩

/-- `DyabloTimeLoop.h` L312-318: `hydro_ghost_count`. -/
def Gas.layers : Gas κ ν → ℕ
  | .off => 2
  | .oneNeighbor => 2
  | .block k => k.layers
  | .rk2 _ => 2

/-- `DyabloTimeLoop.h` L311-321: `ghost_count`. -/
def Setup.ghosts (F : Setup κ ν S) : ℕ := ghostCount F.cfg.blk F.gas.layers

/-- The state of all ranks. -/
structure World (P : ℕ) (κ : Type) where
  sim : State 3 P ℚ (Var κ)
  parts : Fin P → List (Part 3)

/-- What a run does not determine: the order in which threads add the masses of particles, and what new arrays contain
(`CGdata` of the gravity solver, the first stage of RK2). -/
structure Noise (P : ℕ) (κ : Type) where
  order : Fin P → List (CellIndex 3 × ℚ) → List (CellIndex 3 × ℚ)
  cg : CGRanks 3 P ℚ
  stage : Fin P → Oct 3 → (Fin 3 → ℕ) → Var κ → ℚ

open Classical in
/-- `distributeParticles`: `ForeachParticle.h` L85-87 asserts that positions are in the domain. -/
noncomputable def place (F : Setup κ ν S) (s : Ranks 3 P) (ps : Fin P → List (Part 3)) : Option (Fin P → List (Part 3)) :=
  if ∀ r, ∀ p ∈ ps r, InBox F.cfg.dom p.pos then distributeRanks F.cfg.dom F.cfg.grid F.cfg.bits F.cfg.lmax s ps
  else none

open Classical in
/-- `DyabloTimeLoop.h` L710-720: the hydro update. -/
noncomputable def hydroStep [NeZero P] (F : Setup κ ν S) (s : State 3 P ℚ (Var κ)) (dt : ℚ)
    (stage : Fin P → Oct 3 → (Fin 3 → ℕ) → Var κ → ℚ) : Option (Fin P → Oct 3 → (Fin 3 → ℕ) → Var κ → ℚ) :=
  match F.gas with
  | .off => some s.data
  | .oneNeighbor =>
    if HydroDefined F.cfg s dt then
      some fun r o x => F.cfg.post dt (s.data r o x) fun i => (fluxed F.cfg s dt r o x i).getD 0
    else none
  | .block k => blockStep F.blocks k s.ranks dt s.data
  | .rk2 E => rk2Step F.blocks E s.ranks dt s.data stage

open Classical in
/-- `DyabloTimeLoop.h` L710-741: the hydro update and the terms. -/
noncomputable def gasStep [NeZero P] (F : Setup κ ν S) (s : State 3 P ℚ (Var κ)) (dt : ℚ)
    (stage : Fin P → Oct 3 → (Fin 3 → ℕ) → Var κ → ℚ) : Option (Fin P → Oct 3 → (Fin 3 → ℕ) → Var κ → ℚ) :=
  (hydroStep F s dt stage).bind fun V => match F.terms with
    | none => some V
    | some T => termsStep F.blocks T s.ranks F.gas.layers dt s.data V

/-- Potential and accelerations are stored in their fields. -/
def withField {A B : Type} (U : A → B → Var κ → ℚ) (phi : A → B → ℚ) (g : A → B → Fin 3 → ℚ) : A → B → Var κ → ℚ :=
  fun o x i => match i with
    | .inl c => U o x (.inl c)
    | .inr none => phi o x
    | .inr (some j) => g o x j

/-- `DyabloTimeLoop.h` L712-741: the solvers write the fields of the gas (`rho_next`, …) only. -/
def onlyGas {A B : Type} (new U : A → B → Var κ → ℚ) : A → B → Var κ → ℚ :=
  fun o x i => match i with
    | .inl c => new o x (.inl c)
    | .inr f => U o x (.inr f)

/-- `DyabloTimeLoop.h` L673-746 for a given time step. The density of the gas is restored after gravity (L695-697). -/
noncomputable def advanceWorld [NeZero P] (F : Setup κ ν S) (nz : Noise P κ) (w : World P κ) (dt : ℚ) : Option (World P κ) :=
  let s := w.sim.ranks
  let U := w.sim.data
  (depositRanks F.project F.poisson F.cfg.lmax s nz.order (fun r o x => U r o x (.inl F.density)) w.parts).bind fun rhoG =>
    (updateGravity F.poisson s F.ghosts F.eps F.iters (F.source w.sim.time) rhoG (fun r o x => U r o x (.inr none))
      (fun r o x j => U r o x (.inr (some j))) nz.cg).bind fun u =>
      (moveRanks F.move F.poisson F.cfg.lmax s F.ghosts dt u.2 w.parts).bind fun ps =>
        (place F s ps).bind fun ps' =>
          let U' := fun r => withField (U r) (u.1 r) (u.2 r)
          (gasStep F ⟨s, U', w.sim.time⟩ dt nz.stage).map fun V =>
            ⟨⟨s, fun r => onlyGas (V r) (U' r), w.sim.time + dt⟩, ps'⟩

/-- `DyabloTimeLoop.h` L605-622: the time step, from `Compute_dt_hydro`; then the iteration. -/
noncomputable def timeStep [NeZero P] (F : Setup κ ν S) (nz : Noise P κ) (w : World P κ) : Option (World P κ) :=
  (computeDt F.cfg w.sim).bind fun dt => advanceWorld F nz w (correctDt F.cfg w.sim.time dt)

/-- What the time loop does; which of these, and when, depends on scalar data that are the same on all ranks. -/
inductive Act
  | iterate
  | amr
  | loadBalance (level : ℕ)

/-- L673-746, L757-794, L797-808. -/
noncomputable def act [NeZero P] (F : Setup κ ν S) (w : World P κ) : Act × Noise P κ → Option (World P κ)
  | (.iterate, nz) => timeStep F nz w
  | (.amr, _) => (amr F.cfg w.sim).bind fun s => (place F s.ranks w.parts).map fun ps => ⟨s, ps⟩
  | (.loadBalance level, _) => (loadBalance F.cfg level w.sim).bind fun s => (place F s.ranks w.parts).map fun ps => ⟨s, ps⟩

/-- A run: initial mesh and gas (`inits` are passes of `InitialConditions_analytical`: refinement and load balancing), then
initial particles `ps`, wherever they are created (`InitialConditions_simple_particles.cpp` L61 on rank 0,
`InitialConditions_particle_grid.cpp` L111-116 shared by all), then the time loop. -/
noncomputable def runWorld [NeZero P] (F : Setup κ ν S) (time : ℚ) (inits : List Op) (ps : Fin P → List (Part 3))
    (acts : List (Act × Noise P κ)) : Option (World P κ) :=
  (simulate F.cfg time inits).bind fun s => (place F s.ranks ps).bind fun ps' => acts.foldlM (act F) ⟨s, ps'⟩

/-! ### Specification -/

/-- Two states on different numbers of ranks: same leaves, time, values in all cells, and particles. -/
def SameWorld (b : Fin 3 → ℕ) (w : World P κ) (w' : World Q κ) : Prop :=
  Same b w.sim w'.sim ∧ (allParts w.parts).Perm (allParts w'.parts)

/-- What the code needs of the configuration: as in C85; domains with positive sizes; coarse grids that are full cubes
(C92); even blocks, of at least 4 cells for the block-based solvers; a source that is computed cell by cell. -/
structure Setup.Ok (F : Setup κ ν S) : Prop where
  cfg : F.cfg.Ok
  dom : Domain.Ok F.cfg.dom
  full : ∀ i, F.cfg.grid.coarse i = 2 ^ F.cfg.grid.lmin
  even : ∀ k, 2 ∣ F.cfg.blk k
  layers : match F.gas with
    | .off => True
    | .oneNeighbor => True
    | _ => ∀ k, 4 ≤ F.cfg.blk k
  /-- `DyabloTimeLoop.h` L417-419 asserts that there are no terms without hydro solver. -/
  terms : F.terms.isSome → F.gas ≠ .off ∧ ∀ k, 4 ≤ F.cfg.blk k
  source : ∀ time m (u v : Fld 3 ℚ) o x, u o x = v o x → F.source time m u o x = F.source time m v o x

/-- The additions of a rank are made in some order. -/
def Noise.Ok (nz : Noise P κ) : Prop := ∀ r l, (nz.order r l).Perm l

end Verif.Sim
