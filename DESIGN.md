# Verification design

The object of study is the C++ source in `/repo` (Dyablo, an AMR code on Kokkos and MPI). It is
read as text and never built. Each Lean model definition carries a comment that cites the file and
lines it models and says where it simplifies.

## Trusted base

* Lean 4.33.0's kernel and the Mathlib modules imported one by one.
* Axioms: theorems may depend only on `propext`, `Classical.choice` and `Quot.sound`.
  There are no axioms of our own, no `sorry`, no `native_decide`, no `bv_decide`.
* That the Lean model definitions correspond to the C++ they cite. This is by reading only.
* Arithmetic. Fixed-width integers are modelled as `BitVec`/`UInt`-like modular arithmetic where
  wrap-around matters (Morton keys, the marker comparison) and as `Nat`/`Int` elsewhere, under a
  stated size bound. Floating point is modelled by an exact ordered field (`Real` or any linear
  ordered field). Rounding is therefore outside every theorem.
* Kokkos: `parallel_for` is a map over its index range in an arbitrary order. `parallel_scan` is a
  prefix sum. `atomic_add/max/or` are one indivisible step each. Kokkos hash maps are finite maps.
  Memory-space transfers (`deep_copy`, host mirrors) are identity.
* MPI: reliable, per-pair order preserving, collectives have their standard meaning.
  Allocation failure, I/O errors and hardware faults are not modelled.

## What is modelled and what is not

Modelled: Morton utilities; octant storage and lookup (`LightOctree_hashmap`,
`LightOctree_storage`); the default mesh implementation `AMRmesh_hashmap_new` (construction,
`adapt`, `loadBalance`, `discover_ghosts`); `ViewCommunicator`; partial-block ghost cell sets; cell
index arithmetic and traversal; field and particle attribute managers; data remapping;
configuration map, ini parser, enums, factories; typed scalar map; Fortran reader; output offsets, snapshot files
and connectivity; restart refinement; triggers and time loop; state conversions; HLLC; slopes;
flux update; boundary values; gravity source; the CG operator; heat conduction; viscosity; cooling;
refinement marking; deposition and particle push; cosmology tables; timers; tiled restart; initial
mesh and particles; states of MHD; the five waves and HLLD Riemann solvers; GLM divergence cleaning;
the Hancock half step; the whole time loop on all ranks (`Verif.Sim`), with the one-neighbour hydro update and the block-based
and older solvers, and with viscosity, conduction and cooling; the fields of a time step; GRAFIC files;
the end of a cosmological run; collective operations of the communicator; construction of the mesh from the configuration;
the light octree copy; the initial states of the test problems.

Not modelled: floating-point rounding; GPU memory; the PABLO back end;
HDF5 library itself; random numbers in initial conditions; Kokkos and MPI internals.

## Conventions

* Mesh dimension `d` is a parameter. In 2D the code keeps a third coordinate that is always 0; the
  model drops it (for `d = 2`, `Fin 2 → ℕ`).
* An octant is `(level, pos)`. A mesh is a list (or finite set) of octants. The hash map is
  modelled by membership in the leaf set.
* Every specification (tiling, touching, balance, sortedness, ownership) is stated in a `Spec`
  section without using the model's functions.
* A theorem whose name ends in `_partial` proves a part of its property. What is missing is said
  at the theorem and in `MANIFEST.json`.
* Where the code violates a property, the negation is proved with a concrete witness
  (theorem names contain `fails` or `counterexample`) and the disagreement is listed below.

## Property by property

| Id | Model and proof plan |
|----|----------------------|
| C01 | `BitVec 64` model of the magic-bit functions. Prove bit `d*i` of the result equals bit `i` of the input for every `i` (extensional bit reasoning), then round trip and injectivity. |
| C02 | Nat-level Morton key specification by bit interleaving; the model equals it. Parent = key / 2^d, descendant interval, monotone in each coordinate. |
| C03 | Index maps on `Nat`; bijection between the sum type and the range. |
| C04 | Tiling specification by real positions. Loop over levels modelled as a recursion; proved to return the leaf covering the point. |
| C05 | `findNeighbors` as a function on the leaf set, three cases as in the code. Specification: leaf, not itself, that has a fine cell in the one-cell layer in the given direction. Prove set equality on balanced tilings. |
| C06 | Consequence of C05 via the symmetric relation `touch`. |
| C07 | Linear scan over the intervals; equality with the owner under interval coverage. Negation for the non-cubic coarse grid mismatch. |
| C08 | Initial scan filter over Morton indices; concatenation over ranks. |
| C09 | Jacobi operator on target levels; inflationary, bounded by level+1, integer sum measure. |
| C10 | Monotone operator, least fixed point above the initial markers; any fair schedule with stale ghosts reaches it. |
| C11 | From the fixed point equations. |
| C12 | New leaves come from old leaves; touching new leaves give touching or equal old leaves; fixed point inequality gives balance. |
| C13 | Each fine cell is covered once before; cases refine/keep/coarsen. |
| C14 | Exclusive scan and fill; children order is Morton order. |
| C15 | Least fixed point bounded by the maximum of initial targets and bounded below by the clamp. |
| C16 | Global sorted list, new cut keys, lower bound search, intersections sent; concatenation is unchanged. |
| C17 | Cut index arithmetic; truncation loop. |
| C18 | Model of neighbour-rank registration; completeness via C05 and Morton interval containment. |
| C19 | Ranks as functions; pack, transpose, unpack. |
| C20 | Same with addition; adjointness as a sum identity. |
| C21 | `add_cells` loops as list; membership and no duplicates. |
| C22 | Counting sort by target domain; per-destination filter. |
| C23 | Index decomposition bijection; group loop covers the range. |
| C24 | Index conversion with floor division; geometric coordinate is invariant. |
| C25 | Same-size, coarser, finer cases of the code against fine-grid geometry. |
| C26 | Real positions, floor. |
| C27 | State machine refinement to a finite map. |
| C28 | Model of reallocation; negation with a witness, partial theorem for compact alphabetical slots. |
| C29 | State machine refinement. |
| C30 | Weighted sums over cells with exact arithmetic. |
| C31 | Lists of characters; writer and line parser; induction over lines. |
| C32 | Map of maps; history induction. |
| C33 | Tables as lists. |
| C34 | Sum-typed map. |
| C35 | Bytes; record framing; both byte orders. |
| C36 | Exclusive prefix sums; list append. |
| C37 | Node index arithmetic. |
| C38 | Iterated adapt from the coarse grid with ancestors marking. |
| C39 | Range arithmetic, with 32-bit product; negation for large counts. |
| C40 | Triggers as in `Interval_trigger`, the integer one with `Int.tdiv`. Specification: number of multiples crossed. Induction over the sequence of steps; disabled triggers never fire. |
| C41 | Loop with fuel; the trace of (iteration, time). Invariant: time at most the end time; the last dt is clipped to reach it exactly. Termination from a lower bound on dt. |
| C42 | The kernels of `Compute_dt_hydro` (also its MHD part), `Compute_dt_parabolic` and `Compute_dt_particle_velocity`, and the loop over kernels. Reductions are arbitrary trees of runs, so every order of threads is covered; NaN is a value that `FMAX` and the Kokkos maximum treat as the code does. The sound and fast wave speeds of the specification are textbook formulas. Partial: every rank must have a cell. Not modelled: `Compute_dt_cosmology` and `Compute_dt_legacy`. |
| C43 | State records over a field; both compositions. Pressure compared with its definition from energies. |
| C44 | All branches of `riemann_hllc` over the reals with `Real.sqrt`. Euler flux as specification; mirror symmetry by a case analysis on the sampled side; the waves enclose the characteristic speeds and the four states satisfy the jump conditions. |
| C45 | `process_dir` and the update of `HydroUpdate_hancock_oneneighbor` for one variable, with the reconstruction and the Riemann flux as arbitrary functions. The neighbours it visits are related to geometric face adjacency (C25), the places of reconstruction of both sides are shown equal, and face areas are computed; then the sum over faces cancels. With boundaries, the change is the outflow. The same for `euler_update` on patches with two ghost layers, with slopes and reconstruction as in the code. Partial: the well-balanced option fails (27), blocks must be even and at least 4 wide, the gravity source is left out. `HydroUpdate_hancock` is C75. |
| C46 | Both limiters for one variable: `compute_slope` with the distances of `euler_update` and the running minmod of `compute_limited_slopes`. Reconstructed values are between the values of the two cells. |
| C47 | `getBoundaryValue` as it is, including which cell it reads. HLLC flux between a state and its mirror image has no mass and energy; with C45 the totals in a closed box are constant. Partial: exchanged conditions and the second absorbing ghost (24, 25). |
| C48 | Field arithmetic. |
| C50 | `compute_rhs` of the thermal conduction term and the explicit update, on patches with two ghost layers. The right hand side is shown to be, face by face, area times conductivity times difference of temperature over distance of the middles. Summing over the mesh graph gives an exact energy budget, conservation when both cells of a face use the same conductivity, and decay of temperature differences. Reflecting and absorbing boundaries are shown to let no heat through. User heat fluxes are a parameter. |
| C49 | `matprod`, `get_value`, `Aii`, `b`, `b_cosmo`, the mean density and the loop of `GravitySolver_cg` on the whole mesh. The operator is shown to be the Dirichlet form of the mesh graph (area of the face over distance of the middles), hence symmetric and positive; by connectedness of the mesh its kernel is the constants, or 0 if the potential is fixed on a boundary. Then the usual theory of conjugate gradients holds in exact arithmetic: true residual, accuracy on exit, falling energy, conjugate directions, no division by zero, and termination after at most as many iterations as cells. The mean density makes the periodic problem solvable because the volumes add up to the domain. The final gradient is in C88. Not modelled: the ghost exchange (C20). |
| C51 | Case analysis; `C51_repair_minimal` says what is changed. |
| C52 | Fold of atomic max in any order of the cells; spec: refined iff a cell asks and the level allows, coarsened iff all cells ask. `C52_second_derivative_fails`: that criterion never coarsens. |
| C53 | Both deposition kernels on the whole mesh, additions in any order. The weight of an offset is the volume shared by the cloud and the neighbouring cell. The exact balance says what is lost at edges and corners behind which the mesh is finer (34). 3D only: in 2D the kernel asks for neighbours in z. |
| C54 | `fmod` as remainder of the division rounded towards zero. Kick, drift and wrap of both move kernels; an exact criterion for the wrapped position to be in the domain (35). |
| C55 | Lookup with out-of-bounds reads as a distinct outcome. Specification: the polygon through the points of the table, on which both coordinates are ordered alike. |
| C56 | Timers by their place in the tree, `current_timer` and `parent_timer` as pointers with null and wild values; calls with the times of an arbitrary clock. Specification: a stack of open regions, and the time during which a region was open. |
| C57 | Offsets of allocations in a per-team arena; product indexing. The places of an array are compared with the cells within the ghost width of the block, found with `convert_index`. |
| C58 | Lists of cells per mask as `flatMap`s; `MPI_Alltoallv` as segments of the send buffers. The write list of the unpacking kernel is a permutation of a list indexed by ghosts. |
| C59 | Indicator against its closed form; largest over all cells sharing a face part (by `side`, as in C46); the second derivative error is in [0,1). |
| C60 | Deposition and interpolation are both expressed by one list of cells and shares. |
| C61 | `romberg` with its two buffers, unwritten and outside entries being distinct outcomes. Specification: Richardson extrapolation of trapezoidal rules. Exactness by Faulhaber's formula: the rules of a polynomial have no odd powers of the step. Positivity because entries of a column fall at most by a bounded factor. |
| C62 | `update_aux` of `HydroUpdate_RK2` on top of the model of `euler_update` (C45), the gravity correction (C48) and the repair (C51). Balance from C45 for each stage; validity from the convexity of kinetic energy. The hypothesis that no stage needs a repair is met by bounded fluxes and small steps (`euler_close`), shown on a mesh with two levels. |
| C63 | The kernel of `CoolingUpdate_FF`, with the position and size of cells from C26. Specification: rows by the ends of boxes. That the faces of a row add up to the end of the domain (`face_total`) follows from a sum by parts over the faces of the mesh. |
| C64 | `compute_rhs` of the viscous term, face by face as written, on velocities read from patches (C24). Specification: stress and work on the faces of a lattice, given by any finite commutative group. A mesh of one level is shown to be such a lattice; dissipation is proved by sums by parts. |
| C65 | Both kernels of `particle_grid` as written (32-bit product, shares of ranks, site from number, velocity from `getCellFromPos`, `fmod`), and the array copy of `simple_particles` with out-of-range accesses as `none`. Specification: sites of the grid, middles of grid cells, sum of masses. |
| C66 | The hash map from octants to indices, `findNeighbors` on indices, and the table with its 8- and 32-bit counts, the count kernel, the scan with its writes (out of range is `none`) and the lookup. Compared with C05 on the global mesh. |
| C67 | Marker loop with the `FMOD` query, the detection of the coarse grid and `iOct % nOcts_written`. Mesh equals the set of copies (built on C10, C38), data equal by Z-order of copies, C16 and C17. Partial: see disagreement 43. |
| C68 | Loop of marking and `adapt` from the coarse grid with `atomic_fetch_or`, over the model of `adapt` (C10); `auto_refine` with the indicator of C59. The filling of the fields is C23. Partial: see disagreement 44. |
| C69 | Both state headers (reading, writing, conversions, exchange of directions, dropping `psi`) and the repair of negative values for MHD states. Specification: energies, pressure, vector components. |
| C70 | `riemann_five_waves` line by line over the reals (square roots, the constant `epsilon`, the switch to three waves). Specification: physical flux of ideal MHD, stability condition of Bouchut, Klingenberg and Waagan, mirror images. Not modelled: rounding, `p_out`. Partial: see disagreement 45. |
| C71 | `riemann_hlld` line by line over the reals; one definition per pair of left and right formulas. Specification: jump conditions of the conserved variables with the flux of given total pressure and energy, fast speed, mirror images, HLLC of C44. Partial: hypotheses of `C71_fan_partial`; see disagreement 46. |
| C72 | `riemann_hydro` for GLM-MHD states on top of C70 and C71, the damping and the order of directions in `euler_update`, and the cleaning speed of `RiemannParams` (with its 32 bit product). Specification: jump conditions of the linear cleaning system (also uniqueness of its solution), the ordinary differential equation of the decay, for runs one after the other in each step (`DecaysInSteps`), mirror images. Partial: see disagreement 47. |
| C73 | Both overloads of `compute_source`. Specification: derivatives (`HasDerivAt`) of the textbook fluxes of C44/C69 and of the conserved variables along the line of the update, not the formulas of the code. Partial: 2D MHD, see disagreement 48. |
| C74 | `getBoundaryValue` for MHD states in the first ghost, and the fluxes of C70-C72 through that side. Specification: no flux; work of the magnetic tension. Partial: see disagreement 49. |
| C75 | `compute_slopes`, `reconstruct_state`, `compute_flux(es)` of `HydroUpdate_hancock.cpp` on the patches of C24. Specification: `SamePlace`, totals over the mesh. Partial: see disagreement 50. |
| C76 | `value` of C91, tri_layer and rayleigh_taylor over the reals, with an arbitrary random number for each cell. Specification: gradient of the pressure (as a derivative along each axis) equals density times acceleration. Partial: see disagreement 51. |
| C77 | `value` of blast with the conversion to `int` (undefined outside of its range). Specification: a union of balls in the quadrants of the domain. Partial: see disagreement 52. |
| C78 | `value` of the point mass and `update_gravity_field` for one cell; a division by 0 is a distinct outcome. Specification: derivatives of the softened potential. Partial: see disagreement 53. |
| C79 | `value` of orszag_tang and MHD_rotor and the states of MHD_blast over the reals. Specification: derivatives and mesh differences, continuity. |
| C80 | `AMRmesh_hashmap::adapt` with all its loops on any number of ranks, and the size of its new array. Specification: the rules of `Verif.Adapt.Spec`, tilings and balance of `Verif.Octree.Spec`. |
| C81 | Constructor, `adapt` and `loadBalance` of `AMRmesh_hashmap_new` put together as a transition system on the storage of all ranks. Specification: `Verif.Run.Spec.MeshRun` (meshes without ranks), tilings, balance, `Distributed`. |
| C82 | Constructor, ghost discovery, interval computation, load balancing and `adapt` of `AMRmesh_hashmap` put together as in C81. Specification: tilings, balance, `Distributed`, `Touch`, `Verif.RunOld.Spec.Separated`. |
| C83 | `CopyGhostBlockCellData.cpp`: numbering of the ghost cells, the three ways to fetch a value, boundary conditions, the two loops. Specification: `Verif.Legacy.Spec` (`IsGhost`, `IsMean` over boxes of the lattice of cells, `image` for walls) with `Wraps` of `Verif.Cells.Spec`. |
| C84 | `MusclBlockGodunovUpdateFunctor.h`: slopes, reconstruction, fluxes through the faces of each cell, gravity; the ghost cells are those of C83. Specification: sums over all cells of a mesh that tiles the domain, `Between` of `Verif.Hydro.Slope`. |
| C85 | Time loop on all ranks: time step, one-neighbour hydro update, markers of the refinement condition (pseudo_gradient, mass, downflows or second_derivative), `adapt`, remapping, load balancing with data; every rank reads its own octants and ghosts. Specification: `Same` (leaves, time, values), `total` (integral), `Whole` and `Small` (coarse octants on one rank). |
| C86 | The Euler update of C45 with the conversion of states, the HLLC solver and the Courant condition of C42. Specification: sizes of cells, a gas above the floors (`Gas`). A bound on the mass flux of HLLC by the velocities and the pressure difference; limited slopes keep face values between those of the cells and the density below 3/2 of the mean. |
| C87 | `save` and `restart` on all ranks (datasets of C36, passes of C38, mesh of C81), time loop with its triggers and stop criterion on top of C85. Specification: `SameLoop` (leaves, values, time, iteration). |
| C88 | The kernel `construct_force_field` of `GravitySolver_cg` on the whole mesh, after the operator of C49. Specification: `netForce` (sum of density, acceleration and volume), `linear` and `middle` (potential at the middle of a cell). |
| C89 | Masks as lists of faces in `discover_ghosts` (added to the model of C18 and the state of C81), `exchangeLayers` in the model of C85. Specification: `LeavesFirst` (first axis along which a direction leaves the octant), `Within` (the cell is fewer than n of its sizes away from the octant). An octant behind an edge is seen through one face only; the proof is that the cells near it are all near this face. `C89_listed_cells` ties the masks to the lists of C21. |
| C90 | `update_gravity_field` on arrays per rank, with stale ghosts, exchanges of one layer, sums over ranks, and stores to own cells only. Specification: the solver and force on the whole mesh (C49, C88). The relation `SameCG` is kept by each iteration because the operator reads only cells that touch (C89). |
| C91 | The kernels of C75 and C45 on the octants of a rank (`rankMap`), after `exchangeLayers` (C89) with `ghost_count` layers; RK2 with its own exchange of two layers. Specification: the same kernels on the whole mesh. A patch of C41 is filled from cells at most four layers away (`patchRead_values`); `HydroUpdate_euler` needs two only, because where the neighbour is smaller it does not read the second patch cell: patches of `HydroUpdate_euler` and `HydroUpdate_RK2` contain stale values in their outer layer at such faces, and the result does not depend on them. |
| C92 | `depositRanks`: the additions of C53 made by each rank on the octants and ghosts it stores, in any order, to a density that is 0 in ghosts, then `reduceLayers` for cloud in cell. `moveRanks`: the move of C54 and C60 on each rank after `exchangeLayers` (C89) of the accelerations of C90. `distributeRanks`: `getDomainFromPos` of C07 and the exchange of C22. Specification: the same additions and moves on the whole mesh for the list of all particles; particles as a multiset (`List.Perm`); `Placed`: every particle is on the rank whose octant covers it. The cells that a cloud touches are at most one layer away from the octant of the particle (`cic_congr`), and the face masks send these layers back. Tracers and the particle attributes that no kernel uses are not modelled. |
| C93 | `runWorld`: the time loop of C85 with the gas solvers of C85 and C91, the terms of C105 (`gasStep`), gravity of C90 and particles of C92 put together; one list of fields for gas, potential and acceleration (`Var`), what a module writes is what the next one reads (`withField`, `onlyGas`), particles are sent to the ranks of their octants after the start, moves, AMR cycles and load balancing. Orders of additions and contents of new arrays (`Noise`) are arbitrary and may differ at every step. Specification `SameWorld`: same leaves, time and values in all cells, particles as a multiset. `C93_progress_partial`: a small enough step is always defined in a periodic box. The part of the code that decides when AMR and load balancing are done is a list here. |
| C94 | The solver of C83 and C84 on the octants of a rank (`rankMap`), after `exchangeLayers` (C89) with `ghost_count` layers. Specification: the same kernel on the whole mesh. `fill_agree` says which cells of other octants determine the ghost cells of a block, `updateCell_congr` which ghost cells determine a cell. |
| C95 | `mark_cells` of the older criterion: loop over groups with arrays that keep old contents, indices of the ghosted block as 32 bit numbers (`innerIndex`, `stride`, a difference that wraps), reduction over chunks of cells, `push_back` with a capacity, `set_markers_pablo`; on a rank after `exchangeLayers` (C89). The scheduler is a parameter (`Sched`). Specification: `curvature`, `Rough` and `IsMark` on the values of `GasAround`, which are given by means over the cells of the whole mesh as in C83. |
| C96 | `Compute_dt_legacy` on all ranks with the reduction trees of C42, started from the smallest positive number; `computePrimitives` with its floors. Specification: `courantRate` from the conserved values; `Shares` says which cells the threads of a rank handle. The solver's own `dt/dx` is that of C84 (`dtdx`). |
| C97 | `euler_update` with `well_balanced` for all conserved variables: fluxes of the HLLC model of C50 between shifted pressures, `p_out`, the fluxes at boundaries, the gravity source, `clean_negative_primitive_values`; a `p_out` that is not initialised is `none`. Specification: `Hydrostatic` compares the pressures of neighbours with the weight between their middles, `AboveFloors` keeps the floors out. |
| C98 | The bytes of the files with the record reader of C35, the 11 words of the header, `set_or_check` on the configuration map of C32, all lookups of the constructor in order; planes, indices, units and states over the reals; the default mass of `particle_grid`. Undefined behaviour (overflow of the `int32_t` product, index out of bounds, end of file) is an outcome. Specification: words and planes of a file in a byte order, lookups without default, physical densities and numbers of nuclei. |
| C99 | `step` of the time loop on the slots of C27: creation, exchange, renaming and deletion of fields in order, accessors of all solvers (an accessor of a missing field is an exception), remapping and load balancing of C27 and C28; the search for "MHD" and "GLM" in the name of the solver and the table of registered solvers. What solvers compute is a parameter. Specification: equations between arrays without slots and temporary names. |
| C100 | `stop_criterion`, `correct_dt_end` and `next_iter` for `t_end_var=aexp`, the parts of `step` that set `aexp` and `dt`, the table of C55 filled with the integral that `Cosmo.h` takes for that of the Friedmann equation (`Friedmann.lean`: it increases and is strictly concave; it is not the right one with a cosmological constant, see C113), `Compute_dt_cosmology` with its assertion. Reading outside of the table is an outcome. Specification: the integral as a function of the expansion factor. |
| C101 | Memory of each rank as a function of the address; `MPI_Allreduce`, `MPI_Scan` (in place if the pointers are equal), `MPI_Allgather`, `MPI_Allgatherv_inplace`, `MPI_Alltoall`, `MPI_Alltoallv` with the loops for the displacements in `int`, `MPI_Bcast`, the table of operators; `std::copy` of `MpiComm_single.tpp`. MPI itself as in its standard; erroneous calls are an outcome. Specification: least, greatest, sum, disjunction, conjunction over ranks; sums of counts of lower ranks. |
| C102 | `parse_parameters` with all its branches and conversions to `uint8_t`, then the assertions of the constructor as they are written; unset values and shifts by 32 or more are an outcome of their own. Specification: a list of what the mesh has to be (`Sound`), by comparison with the keys. The values of keys are numbers (lookup of keys and text to number: C32). |
| C103 | State of `AMRmesh_impl`: mesh, its counter, the copy and the counter of the copy; calls with arbitrary effects on the mesh; overflow of the counter and use of a missing copy are outcomes. Specification: list of the meshes at the calls of `getLightOctree`. |
| C104 | `value` of the four formulas as functions of the position, the four tables as rational numbers. Specification: primitive states by region; contact, shock (Rankine-Hugoniot) and rarefaction (entropy and Riemann invariant) as relations between two states. |
| C105 | `fillPatch`, the right hand sides of C50, C63, C64 and the exchange of ghosts of C91, put together as one stage of the time loop on all ranks. Specification: the same stage on the whole mesh, and the change of each variable. |
| C106 | `splitNames`, `column`, `columnLocal`, `fill`, `datasetOf`, `snapshot`, `saveSnapshot`, `saveParticles`, on the model of nodes and connectivity of C37 and of `collective_write` of C36. Specification: a numbering of the cells of the mesh, corners from the box of the octant, number of leaves before in Z-order, values of the rank that has the octant. |
| C107 | `cellMass`, `massMark`, `downflowMark`, `secondDerivativeCell`, `Condition`, `cellMark`, `marker`, `marks` in the runs of C85 (which, like C87, C93, C105 and C106, hold for all these conditions). Specification: masses from the volume of the box of the octant, velocities as quotients, parts of an octant, `NextTo` (what lies beside a cell: the cell there, the mean over a box of its size, or a boundary value). |
| C108 | `StateType`, `stateGet`, `foreachVar`, `opSS`, `opSR`, `opRS`, `compSS`, `compSR` on a memory of objects and members; the six tables; `Layout`, `load`, `store`; `ndSS`, `ndSR`, `ndRS`, `ndCompSS`, `ndCompSR`. Specification: `Assigned` (these members of this object have these values and nothing else changed), `consField`. |
| C109 | `localView`, `ghostView`, `exchangeField`, `exchangeFields`, `reduceField`, `reduceFields` on the fields of C27 and the communicator of C19 and C20. Specification: `ghosts` (list of owners), values read by name before and after. |
| C110 | `massMarker`, `massMarks`, `massAct`, `massRun`, `amrWith` on the worlds of C93. Specification: `massIn` (gas in the volume of the cell and masses of all particles in its box), `cloudMassIn` (for cloud in cell, with `inCloud` of C112), parts of an octant, `SameWorld`, `worldMass`. |
| C111 | `oldMarks`, `oldStep`, `oldRun`: the simulation of C85 with `mark_cells` of C95. Specification: `Wanted` (`GasAround`, `IsMark` of C95), parts of an octant, `Same` and `total` of C85. |
| C112 | The kernels of C53 and C60, cell by cell. Specification: `covered` (length of the part of a cell that an interval and its periodic images cover), `inCloud`, `SizeAt` (size of the cell in which a position is), `NoSmallerAround`, `ReachesNoSmaller` (all cells with a part of the cloud are at least as large as the cloud). |
| C113 | The integrand of `integrate_da_dt` with the exact integral (`Friedmann.lean`), and the rate `eta` of `InitialConditions_particle_grid`. Specification: Friedmann's equation with densities falling like powers of the expansion factor (`RateSq`), time as a function with a given derivative (`TimeOf`). The unit of time is taken from the comment at `static_compute_cosmo_dt`; the terms of matter and curvature agree with it. Partial: see disagreement 89. |
| C114 | `eta`, `ddplus`, `dplus`, `fomega` and the default `dt_perturb` of the constructor of `InitialConditions_particle_grid`, once with the exact integral (`Growth.lean`) and once with the trapezoidal rule (`GrowthTrap.lean`). Specification: the differential equation of small perturbations (`Grows`), the rate of Friedmann's equation in the time of the code (`Expands`), displacement and velocity as a function and its derivative. Partial: displacement and velocity fit exactly with the exact integral; the trapezoidal rule is compared with it only while `2 omegav a^3 <= omegam`. The expansion law is that of a cosmological constant; the table of the code follows another one (disagreement 89). |

## How far the mutations reach

`seeded/LOG.jsonl` lists an edit of a definition as found if the build fails, and names the declarations that fail. This is weaker than a false
statement: a proof that names the edited expression fails even if its theorem stays true. `faexp` is an example. Its first entry was of
this kind, and only after the proofs had been adapted to the edit did it show that no theorem depended on the power of `omega_v` (C113 came from this).
The other entries have not been checked one by one in this way.

## Disagreements between the code and the properties

Each entry has a machine-checked witness unless it says otherwise.

1. **Unsigned level arithmetic in `adapt` (C11, C13).** `AMRmesh_hashmap_new.cpp` L752 and L770-773
   compare `level + marker` in `uint32_t`. If a neighbour's target level is 0, the `- 1` wraps to
   `2^32-1`. With `level_min = 0`: a single periodic octant with marker 0 gets marker -1
   (`C11_unmarked_octant_coarsened_fails`), and four level-1 octants that are all marked -1 get
   marker -2, so nothing is written and the mesh is lost (`C13_coarsen_to_level_zero_fails`).
   With `level_min >= 1` and markers limited to the level range the properties hold.
2. **32-bit product of the coarse grid size (C08).** `AMRmesh_hashmap_new.cpp` `private_init` computes
   the number of coarse octants in `uint32_t`. A 3D grid of 2048^3 octants gives 0 and every rank
   starts empty (`C08_uint32_overflow_fails`).
3. **Owner of a position on non-cubic coarse grids (C07).** `LightOctree_hashmap.h` computes the first
   key of each rank on a grid of `2^max_level` octants per direction, but `getDomainFromPos` uses
   `cell_count(max_level)` octants per direction. For a 2x1 coarse grid the ranks differ
   (`C07_partial_coarse_grid_fails`).
4. **A rank emptied by `adapt` (C18).** L912 tests the old storage before it reads octant 0 of the new
   storage. A rank that held only non-first siblings, all coarsened, reads outside its storage
   (`C18_rank_emptied_by_adapt_fails`).
5. **Key 0 used for "empty rank" (C18).** L929-931 and L560-562 take a first key 0 on rank > 0 for an
   empty rank. With fewer coarse octants than ranks, rank 0 is empty and the rank holding the first
   octant is mistaken for empty after a refinement (`C18_empty_rank0_fails`).
6. **Guard of the partial ghost layers (C21).** `GhostCommunicator_partial_blocks.cpp` L45 and L115 accept
   `ghost_count <= bx || ghost_count <= by`. With `bx = 1`, `by = 2`, `ghost_count = 2` the region of
   the lower x face is not in the block (`C21_guard_accepts_bad_size`). Needed is `&&`.
7. **32-bit loop bound of cell traversals (C23).** `AMRBlockForeachCell.h` L320, L348 and L383 compute
   `nbCellsPerBlock*nbOcts` in `uint32_t`. With 16^3 cells per block and 2^20 octants on a process no
   cell is visited (`C23_overflow`).
8. **Wide ghost layers next to finer octants (C24).** With more ghost layers than half a block,
   `getNeighbor_ghost` finds no suboctant for the outer ones and reads `oct_neighbors[-1]`
   (`C24_wide_ghosts_undefined`).
9. **Diagonal neighbours (C25).** For an edge or corner offset that leaves the block in one direction and
   goes down inside the block in another, the smaller cell returned by `getNeighbor_ghost` is not "the
   smallest index contiguous to current cell": it does not touch the cell
   (`C25_diagonal_not_adjacent`). Face offsets are right (`C25_face_cells`).
10. **`getNeighbor_ghost` on local arrays (C25).** `AMRBlockForeachCell_CellArray.h` L766-789 tests the
   bounds the wrong way round: invalid exactly when the neighbour is in the block
   (`C25_local_inverted`).
11. **Renaming a field or attribute to itself (C27, C29).** `UserData_fields.h` `move_field` and
   `UserData_particles.h` L124-130 assign `index[dest] = index[src]` and then erase `src`. With
   `dest == src` the field is lost (`C27_self_rename_fails`, `C29_self_rename_fails`).
12. **Load balance without an adaptation before it (C28).** `exchange_loadbalance` reallocates the slots
   in alphabetical order and copies slot by slot. After a time step that made `*_next` fields and
   renamed them, slots are not alphabetical; the load balance trigger is independent of the adaptation
   trigger. Fields then get the data of other slots (`C28_stale_fields_fails`).
13. **Creating an attribute after deleting one (C29).** `new_ParticleAttribute` L50-54 copies into a
   subview with as many columns as there are names, from an array with as many columns as ever needed.
   The extents differ after a deletion and `deep_copy` throws (`C29_create_after_delete_fails`).
14. **Coarsening a family spread over two ranks (C30).** `MapUserData_mean.cpp` L96-107 calls `remap_aux`
   again while old ghost cells were read for a coarsened cell, "with up-to-date ghosts". The count does
   not depend on the data, so the second call reads the same ghosts and the recursion never ends
   (`C30_split_family_no_result`).
15. **Values that begin with `;` (C31).** `a=;b` is read as `;b` but written as `a = ;b`, where `;` after
   a blank starts a comment (`C31_semicolon_fails`).
16. **Line buffer of the ini parser (C31).** `ini.cpp` reads at most 199 characters per line. `output`
   pads names and values and appends comments, so a line that was read can be too long when it is
   written; the rest of it is parsed as another line (`C31_long_line_fails`).
17. **Numbers for enum options (C33).** `ConfigMap.h` L52-55 tries an integer first and casts it. Any
   integer is accepted, also if no option has that value; `-1` is taken modulo 2^32
   (`C33_number_accepted_fails`).
18. **Sign test before byte-order detection (C35).** `FortranBinaryReader.h` L45 rejects a negative length
   before it looks for the other byte order. A record of 128 bytes (16 doubles) written in the other
   byte order has a negative tag and is rejected (`C35_128_bytes_fails`).
19. **Lengths that read the same in both byte orders (C35).** If the first record has such a length, e.g.
   65792 bytes (8224 doubles), the byte order is taken for the native one. The record is accepted and
   its values are not swapped (`C35_palindrome_fails`).
20. **32-bit split of particles at restart (C39).** `InitialConditions_restart.cpp` L309-312 multiplies the
   number of particles by the rank in `uint32_t`. With 256^3 particles on 256 ranks the last rank gets
   4278255616 particles (`C39_overflow_fails`).
21. **Iteration triggers with interval 0 (C40).** The integer `Interval_trigger` (`DyabloTimeLoop.h` L46-51)
   divides by the interval in its constructor. With interval 0, which disables the real-valued trigger,
   it divides by zero (`C40_zero_interval_fails`). With a negative start iteration the integer division
   rounds towards zero and a multiple is missed (`C40_negative_iteration_fails`).
22. **Starting after the end time (C41).** The loop makes a step before its first test, and clips dt to
   `t_end - t` (L184-194, L519-525). A run restarted with an end time in the past makes one step with a
   negative dt (`C41_start_after_end_fails`).
23. **Third velocity component in 2D (C43).** `primToCons<2>` does not set `rho_w` while `consToPrim` and the
   energy use it; a state with `w != 0` does not survive the round trip
   (`C43_2d_third_component_fails`). States read from arrays have `w = 0`.
24. **Conditions of lower and upper boundaries exchanged (C47).** `getBoundaryPosAndOffset` returns the
   offset from the inner cell to the ghost, positive beyond the upper boundary. `getBoundaryValue`
   (`BoundaryConditions.h` L82-125) uses `bc_min` if it is positive and `bc_max` if it is negative
   (`C47_min_max_swapped_fails`). `HydroUpdate_hancock_oneneighbor.cpp` L293-296 makes the same exchange
   for user-defined fluxes (`C47_user_flux_fails`), `euler_update` (L572-588) and the heat conduction do not
   (`C47_user_flux`), and `HydroUpdate_hancock` never asks for them.
25. **Second ghost at absorbing boundaries (C47).** `getBoundaryValue` returns the mirror cell for all
   conditions other than reflecting, so the second layer of ghosts differs from the nearest cell
   (`C47_absorbing_depth_fails`).
26. **Slope without neighbours (C46).** In `compute_limited_slopes` a direction in which both sides of a
   cell are boundaries keeps the initial slope 1e99 (`C46_no_neighbour_fails`). This needs a domain one
   cell wide.
27. **Well-balanced option at level jumps (C45).** `compute_euler_flux` (`HydroUpdate_utils.h` L145-152)
   extrapolates the pressure of both sides over half the size of the cell being updated. The two cells at
   a jump in refinement have different sizes, so they compute different fluxes through the same face
   (`C45_well_balanced_fails`). Besides, `poutL` and `poutR` (L478) are read uninitialised when a
   neighbour is smaller (L517, L556).
28. **Rank without cells or particles (C42).** The maximum over no cells is the lowest finite number, so the
   local time step is negative and the release assertion `dt>0` ends the run (`C42_empty_rank_fails`). For
   `Compute_dt_particle_velocity` this happens as soon as one rank has no particle.
29. **NaN resets the maximum (C42).** `FMAX(x,y)` is `x>y ? x : y`. A cell whose rate is NaN (negative pressure)
   makes the running maximum NaN, and the next cell replaces it by its own rate: the cells before are
   forgotten and the run goes on with too long a step (`C42_nan_forgets_fails`).
30. **Small velocity added to signed components (C42).** `Compute_dt_particle_velocity.cpp` L70-72 adds `small_v`
   to the velocity, not to its magnitude. For negative components the speed is underestimated
   (`C42_particle_fails`); the excess is of relative size 1e-10.
31. **Conductivity that depends on the position (C50).** At a change of level a coarse cell takes the conductivity at
   the middle of the small cell, the small cell takes it at a ghost of its own size
   (`ParabolicTerm_thermal_conduction.h` L175, L197, L208, L230). The two fluxes through the face differ and a
   closed box gains or loses energy (`C50_analytic_fails`; `C50_budget` gives the amount). Through a periodic
   boundary the position of the ghost is outside the domain, with the same effect.
32. **Second derivative criterion never coarsens (C52).** `RefineCondition_second_derivative_error.cpp` L119 leaves the
   per-octant maximum at 0, the value of "no change", while `RefineCondition_helper.h` fills it with -1 first. An
   octant of which every cell asks for coarsening keeps its level (`C52_second_derivative_fails`).
33. **Overlapping default thresholds (C59).** `RefineCondition_pseudo_gradient.cpp` defaults `epsilon_coarsen` to 0.002
   and `epsilon_refine` to 0.001. The refinement test comes first, so every cell is either refined or coarsened;
   "no change" never occurs.
34. **Cloud in cell at finer edges and corners (C53, C60).** `ParticleUpdate_CIC_density.cpp` L98-110 divides the share of
   an offset by `2*(ndim-1)`, the number of small cells behind a face. Behind an edge there are 2 and behind a
   corner 1, so half and three quarters of the share are lost (`C53_cic_fails`, `C112_density_fails`; `C53_cic_budget` gives the amount).
   `ParticleUpdate_CIC_move.cpp` L98-112 does the same with the acceleration (`C60_constant_fails`).
   Behind a face nothing is lost, but the small cells get equal shares although they hold different parts of the cloud
   (`C112_face_fails`).
35. **Periodic wrap of particles (C54).** `fmod(x - xmin + L, L) + xmin` is below the domain if a particle moves down by
   more than `L` (`C54_in_domain_fails`). `ParticleUpdate_tracers_move.cpp` does not wrap: tracers leave a periodic
   domain, however short the step (`C54_tracer_fails`). A wrapped position can be exactly `xmin`
   (`C54_lower_end`), which `getCellFromPos` (`AMRBlockForeachCell.h` L102-103) excludes by an assertion in x and
   y but not in z, and `ForeachParticle::distribute` allows.
36. **First entry of the cosmology table (C55).** `lookup_interpolate` (`Cosmo.h` L14-21) reads the entry before the one found
   by `std::lower_bound`. `DyabloTimeLoop.h` L281 looks up `a_start`, which is the first entry, so every cosmological run
   starts with a read before the beginning of both tables, and again at L600 in the first iteration
   (`C55_start_fails`). Arguments beyond the last entry read past the end (`C55_outside`).
37. **Romberg without convergence (C61).** `Cosmo.h` L65 reads `Rc[max_steps]`, one past the end of the buffer, to print the
   error (`C61_not_converged_fails`).
38. **Names of the cosmological parameters (C98, `C98_omega_fails`).** `CosmoManager` reads `omega_m` and `omega_v`;
   the time loop (`DyabloTimeLoop.h` L129-130) and the initial conditions read `omegam` and `omegav`. A run that sets
   only the latter uses 0.3 and 0.7 for the expansion.
39. **Root timer (C56).** `Timers_pimpl::current_timer` (`Timers.cpp` L131) is not initialised before `timer_total.start()`
   stores it as the parent of the root. If it happens to be null the root counts as not running, and
   `get("Total").start()` is accepted a second time; `get("Total").stop()` outside of all regions leaves no current timer
   and the next `get` follows a pointer to nothing (`C56_total_fails`). `print` and `get_timers` within a region end the
   program (`C56_print_inside_fails`).
40. **Cooling of a single row (C63).** `CoolingUpdate_FF.cpp` L96-99: with one row of cells in the vertical direction the row is
   both first and last, and the `else` leaves out the heating, so energy is lost (`C63_energy_fails`). The option
   `FF_layer=layer` is accepted and does nothing (`C63_layer`).
41. **Viscosity in 2D and at level jumps (C64).** `ParabolicTerm_viscosity.h` L139, L179, L222: in 2D the areas of the faces contain
   `size[IZ]` and the volume does not, so the viscosity is multiplied by the third size of the cell. This size is
   `(zmax-zmin)/2^(level-level_min)`, so the same gradient heats a cell half as fast as a cell one level coarser
   (`C64_level_fails`). At a change of level the fluxes of the two sides of a face differ (the difference is taken over one
   cell of the own size), so momentum and energy are not conserved (`C64_jump_fails`, also without the factor).
42. **Initial particles (C65).** `InitialConditions_particle_grid.cpp` L113: the number of particles is a product of three
   `uint32_t`, assigned to a `uint64_t` only afterwards. From 1626^3 sites on particles are lost; for 2048^3 there are none
   and the mass of a particle is a division by zero (`C65_sites_fails`). `InitialConditions_simple_particles.cpp` L33:
   `std::max` where the comment asks for `std::min`; any array whose length is not `npart`, also an absent attribute, is
   read or written out of range (`C65_parse_fails`).
43. **Tiled restart (C67).** `InitialConditions_tiled_restart.cpp` L365-373 gives octant `i` of a rank block
   `i % nOcts_written`. This is right only if every rank holds one tile in Z-order, as for a cubic coarse grid of a power of
   two. For a coarse grid of 1 x 2 octants, repeated twice in x, octants are given the values of others (`C67_fields_fails`). L254-275:
   the number of coarse octants is found with a tolerance of 1e-5, which fails for `(coarse+1)*2^levels > 10^5`
   (`C67_coarse_fails`). L235-240: the number of added levels is rounded down, three copies of a full cube do not fit
   (`C67_three_fails`).
44. **Initial mesh (C68).** `InitialConditions_analytical.h` L53-92 asks the formula once per level. Octants that the 2:1 rule
   refines in the last iteration are new and are not asked about; if the formula would refine them (a criterion that
   depends on the cell size, as `auto_refine`), they stay below the maximum level (`C68_resolved_fails`).
45. **Five waves solver without flow (C70).** `RiemannSolvers.h` L282-291 uses the normal field of the *other* side
   (`Bnext`), chosen by the sign of the velocity of the middle wave. If that velocity is exactly 0 and the normal field
   jumps, the left one is used, so the flux of the tangential field depends on the order of the two states: the mirrored
   problem has a different flux (`C70_mirror_fails`).
46. **HLLD (C71).** `RiemannSolvers.h` L364-365 takes the outer waves from the fast speeds of the two sides, L430-433 the
   rotational waves from the densities behind them. With a strong jump of pressure and a normal field the left rotational
   wave is *outside* of the outer wave (`C71_order_fails`), and the state at the face depends on the side from which one
   starts to look (`C71_mirror_fails`). L466-472, L553-559: in a supersonic flow the state keeps its own normal field
   while its pressure and energy contain the one of the face; if they differ, as they do for GLM-MHD, the flux is that of no
   state (`C71_supersonic_fails`).
47. **Divergence cleaning (C72).** `HydroUpdate_utils.h` L616-622 is part of `euler_update`, which is called once per direction, so
   the potential is damped by half a step in every direction: in 2D this adds up to one step, in 3D to one and a half
   (`C72_decay_fails`), and the flux of the first direction is damped more often than that of the last, so the result changes
   if two axes are exchanged (`C72_direction_fails`). `HydroUpdate_RK2` takes the mean of the old potential and the one damped by both
   stages, so that more than half of it is left after any step (`C72_decay_rk2_fails`). In all
   cases the potential vanishes in the long run (`C72_vanishes`). `RiemannSolvers.h` L661-666: the default `hydro/riemann=hllc` fails an `assert`
   at the first face; if assertions are compiled out the gas gets no fluxes at all and the run continues
   (`C72_default_fails`).
48. **2D magnetohydrodynamics (C73).** The 2D branch of `compute_source` for MHD states (L324-338) sets the third velocity to zero,
   as does the rest of the 2D code (`rho_w` is not a field in 2D), but keeps the third component of the magnetic field. With
   `B_z` varying in the plane the tension `B . grad B_z` accelerates the gas along z, and the half step (and the scheme)
   leaves this out (`C73_2d_fails`). All other components are right (`C73_2d_partial`).
49. **Reflecting boundaries with a magnetic field (C74).** `getBoundaryValue` (`BoundaryConditions.h` L82-125) reverses the normal
   momentum and keeps the magnetic field, for all types of states. A mirror image must reverse the normal (or the tangential)
   field too; as it is, a field that crosses the boundary transmits momentum and energy: the energy flux is
   `- B_n (B_t . v_t)` with both solvers (`C74_energy_fails`), so the energy in a closed box is not conserved.
50. **Corners of patches in HydroUpdate_hancock (C75).** The half step of a ghost cell uses its slopes along the face, which read
   the corner ghosts of the patch (`HydroUpdate_hancock.cpp` L61-97). For a corner that is beyond a wall, `getNeighbor_ghost` stays
   in the own octant and `getBoundaryValue` mirrors in *all* directions in which the index leaves the block, also along the wall
   (and reverses the momentum along the wall if the side of the domain is reflecting, though that side is far away). The neighbour uses the cell
   above the corner instead. The two octants disagree on the flux through the face they share at the wall, so nothing is conserved,
   even on a mesh of one level (`C75_corner_fails`). At jumps in refinement the scheme is not conservative either
   (`C75_jump_fails`); the comment L172 says so.
51. **Rayleigh-Taylor, amplitudes and seeds (C76).** `InitialConditions_rayleigh_taylor.cpp` L79 takes `P0 + rho * gz * z` in both fluids.
   At an interface `z0` that is not at 0, the pressure jumps by `(rho_top - rho_bot) * gz * z0` (`C76_rt_fails`), which starts a shock. In 3D
   L87-89 multiply by a third factor up to 2 without another division by 2: the velocity reaches twice the amplitude
   (`C76_rt_amplitude_fails`). In all three files the seed of the generator is `seed * rank + 1`, so that the setting has no effect on rank 0,
   which is the only one of a serial run (`C76_seed_fails`). tri_layer is in equilibrium only if `(m1+1) theta1 = (m2+1) theta2`, which is not
   checked.
52. **Blasts (C77).** `InitialConditions_blast.cpp` and `InitialConditions_MHD_blast.cpp` read `blast/center_x`, `center_y`, `center_z` and the bounds of the
   domain and use none of them. Blasts are always in the middle of quadrants (`C77_center_fails`), and quadrants are fractions of the unit
   length from 0 on, whatever the domain: in the square from -1/2 to 1/2 the only blast is cut off in the corner, also because `(int)`
   rounds towards 0 (`C77_domain_fails`).
53. **Point mass in 2D (C78).** `GravitySolver_point_mass.cpp` L36 subtracts `point_mass_z` (default 0.5) also in 2D, where the third coordinate
   of a cell is 0 (`AMRBlockForeachCell.h` L78). The mass acts as if it were 0.5 above the plane, on top of the softening of 0.005
   (`C78_2d_fails`).
54. **Markers of ghosts in the older mesh (C80).** `AMRmesh_hashmap.cpp`: `adapt_clean` drops the markers of ghosts (L216), and so does
   `adapt_21balance_step` (L282-308). `adapt` calls `adapt_clean` before `exchange_markers` (L651-652), so the markers of siblings on other
   ranks are never seen: a family cut by a rank boundary is not coarsened, and the mesh depends on the number of ranks
   (`C80_distribution_fails`). The mesh is correct nevertheless (`C80_adapt_partial`), and unlike `AMRmesh_hashmap_new` this code coarsens
   to level 0.
55. **A run in which `adapt` fails (C81).** The failure of C18 (a rank whose octants are all coarsened into a parent on another rank, then
   `compute_morton` of octant 0 of empty storage, `AMRmesh_hashmap_new.cpp` L912-916) happens in a run: three ranks, refine one of four coarse
   octants, balance, coarsen (`C81_rank_emptied_fails`). It cannot happen while every rank has at least `2^d` octants (`C81_progress_partial`).
56. **Compaction aborts the older mesh (C82).** `AMRmesh_hashmap::loadBalance` truncates the cuts to blocks of `level` levels above the finest
   one and does not check that the truncated cuts are different (`AMRmesh_hashmap.cpp` L755-759; the newer mesh does, C17). With more ranks than such
   blocks some rank always gets no octants and the program is aborted by the assertion at L869 (`C82_too_many_ranks_fails`); with the default of 3
   compact levels this happens for four octants on two ranks and finest level 3 (`C82_compaction_fails`). The exact condition is in
   `C82_progress_partial`. `adapt` of this mesh never fails, unlike that of the newer one (C81). `AMRmesh.h` L316 selects the newer mesh; the
   older one is compiled too.
57. **Ghost cells of blocks (C83).** `CopyGhostBlockCellData.cpp`: next to smaller octants the block must be at least twice as wide as the ghost
   layer. `HydroUpdate_legacy.cpp` L70 takes two ghost cells; with blocks of 2 cells no neighbour contains the second layer, `suboctant` stays -1
   (L367-388, asserted in debug builds only) and is used as an index (`C83_not_small_blocks`). Blocks of odd size (also asserted in debug builds only)
   get values of wrong cells from larger neighbours (`C83_not_odd_blocks`). Ghost cells behind a user-defined boundary keep density 0 and energy 1.11
   (L561-566, `C83_user_boundary_keeps_placeholder`). `write_cell_data` writes IGX and IGY, not IGZ (L612-616, `C83_third_gravity_component_stale`). There
   is no `team_barrier` between the loop over neighbours and the loop over boundaries (L745-767), though the second reads ghost cells that the first
   writes in other threads of the team (next to an edge with a periodic direction or another octant); the model runs them one after the other.
58. **The block-based update (C84).** `MusclBlockGodunovUpdateFunctor.h`: `setFaceBigger` and `setFaceSmaller` are never called and the
   non-conformal fluxes are commented out (L1787, L2097), so both octants at a change of level compute their own flux, although the default `updateType` is
   "conservative_sum" (`C84_not_conservative_over_level_jumps`). The 2D gravity correction reads the field at `index` instead of `index_g` (L768-769), which
   is never the right cell (`C84_gravity_field_of_another_cell`). The 3D correction reads `fm[IGX]` also for a constant acceleration, for which there is no
   such field (L1828-1830, `C84_constant_gravity_3d_fails`), and in 3D there is no prediction (commented out, L2019-2023). `get_gravity_field` returns zero for
   `GRAVITY_FIELD` alone (L525-546, `C84_field_alone_not_predicted`). The 2D update that is not conservative computes the cell size without the size of the
   domain (L1612-1617, `C84_other_update_ignores_domain_size`); in 3D that update writes nothing outside debug builds (`C84_other_update_missing_3d`).
   `HydroUpdate_legacy.cpp` divides by the number of octants per group, 0 on a rank without octants; `slope_type` is read as a real number and stored
   as an integer (not modelled).
59. **A run that ends on one rank only (C85).** `InitialConditions_analytical.h` L88-90 calls `loadBalance()`, whose default is 0 compact levels
   (`AMRmesh.h` L233), so the initial conditions may leave a family on two ranks; load balancing in the time loop, by default with 3 compact levels, is done every
   1000 iterations. The first AMR cycle that coarsens such a family never returns (disagreement 14). `C85_more_ranks_never_end`: four
   coarse octants, one of them refined, a gas at rest, two ranks; the same run ends on one rank. `C85_whole_never_fails`, `C81_whole_never_fails`: it cannot happen if
   `loadbalance_coherent_levels` is at least `level_max - level_min`, also in the initial conditions, and no block of that size has more leaves than the
   share of a rank.
60. **Negative densities at the default Courant number (C86).** `Compute_dt_hydro.cpp` L31 has the default `hydro_cfl = 0.5`; many settings files use 0.8. `C86_default_fails`: a cold gas in 2D, in a
   cell with density 1 whose neighbours have density 0.1 and 2 in x and move away in y; the step of `HydroUpdate_euler` with the time step of the code gives a negative density. It is then repaired by
   `clean_negative_primitive_values`, which adds mass (C51). `C86_density_partial` proves positivity for `hydro_cfl < 1/(6 d + 3)`.
61. **Restarts (C87).** `InitialConditions_restart.cpp` L280 calls `loadBalance()` with 0 compact levels, whatever `loadbalance_coherent_levels` is, so a run that
   goes on on one rank may hang in its first AMR cycle when it is restarted on two (`C87_more_ranks_never_end`). L303-336 give particles to
   ranks by their index in the file and nothing sends them to the ranks that own their cells before the first lookup in the time loop, which fails where the octant is
   not stored (`C87_particles_fail`). In cosmological runs `aexp` is `a_start` again when the triggers are made (`DyabloTimeLoop.h` L282, L123-124) and is corrected
   in the first step after the triggers have been called, so a snapshot with `output_slice_var = aexp` is written at the second step after
   the restart whether a multiple was crossed or not (`C87_aexp_trigger_fails`).
62. **Force at level jumps (C88).** `GravitySolver_cg.cpp` L386-413 takes the value of the larger neighbour as if it stood straight beside the small cell, but
   its middle is half a small cell off in each tangential direction. With a linear potential the acceleration of a small cell is off by 1/6 of the tangential
   slopes, whatever the resolution (`C88_error_at_larger`, `C88_larger_neighbour_fails`), where a first-order error would fall with the cell size. Also the sum of the
   forces on a gas in a periodic box with a level jump is not 0, even if the equation is solved exactly (`C88_refined_fails`); without a level jump it is
   (`C88_third_law`).
63. **Ghost count of `HydroUpdate_legacy` (C89).** `DyabloTimeLoop.h` L311-321 chooses the number of exchanged layers from the name of the solver: 4 for names with
   `hancock`, 2 otherwise. `HydroUpdate_legacy` fills two layers of ghost cells, and next to a smaller octant each of them is the mean over two layers of smaller cells
   (`CopyGhostBlockCellData.cpp`, C83), so it reads four layers. The third and fourth are not exchanged with the default mesh: the second layer of ghost cells, which the slopes
   of the first use, is made from what the last exchange or remapping left in the ghosts (`C89_legacy_ghosts_fail`), and results depend on the partition (`C94_two_layers_fail`: another density in a cell after one step). The older mesh
   exchanges whole blocks and is not concerned.
64. **Particles on coarse grids that are not cubes (C92).** The first key of each rank (`LightOctree_hashmap.h` L53-61) is computed as if the domain had
   `2^max_level` octants in each direction, the key of a position (L309-345) with the right numbers (disagreement 3). If they differ, a position is given the rank of another octant. `C92_distribution_fails`: 4x2x2 coarse octants on
   four ranks at the start of a run; a particle at rest on the rank of its octant is sent to another rank by `ForeachParticle::distribute`; `ParticleUpdate_NGP_density` then adds its mass
   to a ghost cell, which it never sends back, and the mass is missing from the density that the gravity solver uses. If the rank does not even store the octant as a ghost,
   the lookup of the cell fails. It does not happen on one rank.
65. **Initial particles before other initial conditions (C93).** `InitialConditions_analytical.h` L89-91 refines and balances the mesh without sending the particles that
   an earlier entry of `initial_conditions` has created to their ranks; nothing sends them to their ranks before the first iteration, in which they are projected (`DyabloTimeLoop.h` L673-690) before they are distributed.
   So `initial_conditions=simple_particles,blast` on several ranks projects particles on a rank that may not have their octant. The model creates the particles after the mesh
   (`initial_conditions=blast,simple_particles`); not proved.
66. **The time step of the older solver (C96).** `Compute_dt_legacy` computes the cell size with the size of the domain (`ComputeDtHydroFunctor.h` L141-145), the 2D update that is
   not conservative without it (`MusclBlockGodunovUpdateFunctor.h` L1612-1617, see 58), so in a domain of size 10 it runs with a Courant number of ten times `cfl`
   (`C96_courant_fails`). The parameters `rsst_enabled`, `rsst_cfl_enabled` and `rsst_ksi` are read and used nowhere (`ComputeDtHydroFunctor.h` L57-59). In device code for CUDA the
   reduction starts from minus infinity and not from the smallest positive number (L101-112); only the host value is modelled, and what a rank without octants gets there was not
   determined.
67. **Equilibrium at jumps in refinement (C97).** `HydroUpdate_utils.h` L150-151 shifts the pressures on both sides of a face by the weight over half the size of the cell that is
   updated. Where the neighbour has another size the two values do not meet, and mass flows although the gas is in equilibrium: `C97_refined_fails`, a linear atmosphere of
   constant density on a mesh with two levels, for any time step that is not 0. `settings/wholesun/C91_amr.ini` uses the option with AMR. The two sides of such a face
   also disagree on the flux, see `C45_well_balanced_fails`.
68. **`well_balanced` with `gravity_type=constant_field` (C97).** The shift of the pressures uses `gx`, `gy`, `gz` for any type of gravity, the fluxes at boundaries (L571-598) and the
   gravity source (L600-614) only for `constant_scalar`. With a field the source is added after the fluxes (`HydroUpdate_euler.cpp` L220-222). In
   the atmosphere of 67 a cell inside loses the energy `dt^2/2` in a step, and next to a wall the gas starts to fall (`C97_field_fails`). No assertion excludes it.
69. **`well_balanced` without constant gravity (C97).** With `gravity_type` `none` or `field`, `gx`, `gy` and `gz` of `HydroUpdate_euler` (L240) are never set (L108-112), are copied to
   `GravityInfo` (L152-156), and `compute_euler_flux` (L145-151) adds them to the pressures: the result depends on uninitialised memory. Found by reading, not in the model, which has
   values for `g`. In contrast `poutL` and `poutR` (L478), which are not set next to smaller neighbours, are never used there with at least two cells per
   octant, because only the side opposite to a boundary is read.
70. **Header in the other byte order (C98).** `FortranBinaryReader::read_record` reverses the bytes of a value. The header of a GRAFIC file is read as one value of 44 bytes
   (`InitialConditions_grafic_fields.cpp` L46, L117), so that for a file in the other byte order the order of its words is reversed too: `nx` gets the bits of `H0`. For positive `H0` and
   `ov` the product at L67 overflows, for every such file (`C98_big_endian_fails`). The planes are read correctly (`C98_arrays`).
71. **Number of cells in 32 bits (C98).** L67 computes `header.nx*header.ny*header.nz` as `int32_t`: undefined behaviour for `2^31` cells or more, such as 2048 in each
   direction (`C98_large_fails`). (`particle_grid` wraps at `2^32`, see C65.)
72. **Density in domains of another volume (C98).** The gas has the mean density `omegab/omegam` in any domain, the particles have the total mass `1 - omegab/omegam`, and `mass0` is the
   mass of a cell for the total mass 1. Only `xmin`, `ymin` and `zmin` are compared with the file, so that with another `xmax` than `xmin + 1` the mean density is not 1
   (`C98_volume_fails`).
73. **Temperature of the gas (C98).** L206-207 take the square of `z` over the square of 151, which is `1+z` for `z = 150`. The temperature of gas that cools adiabatically is proportional to
   `(1+z)^2`. The difference is small for early starts; the temperature is 0 at `z = 0` (`C98_temperature_fails`).
74. **Constant gravity by a solver (C99).** With `gravity/solver=GravitySolver_constant` the constructor requires `gravity_type=constant_scalar`, for which the fields `gx`, `gy`, `gz` are not created
   (`DyabloTimeLoop.h` L651-656); `step` exchanges their ghosts after every gravity solver (L694), which throws in the first step (`C99_constant_fails`). Constant gravity works only with
   `solver=none` and `gravity_type=constant_scalar`, as in the settings that come with the code. (The time loop then takes the type as `GRAVITY_NONE`, L299-302, the hydro solvers read it
   themselves.)
75. **A last step backward in time (C100).** `correct_dt_end` computes the time left from the integral, `timeToExpansion` interpolates in the table, which gives a larger expansion factor between two
   entries. `stop_criterion` looks at the expansion factor from the start of the step. So after the step that reaches the time of `tEnd` there is another one; if `tEnd` is not an entry of the table,
   it has `aexp > tEnd` and a negative `dt` (`C100_backward_fails`; with the defaults and `tEnd=1` too, see the example). All solvers then run with the negative time step, and the final output is of that
   state. The overshoot is less than the distance of two entries (`C100_run_partial`).
76. **Two sets of cosmological parameters (C100).** The time loop reads `omegam` and `omegav`, without default, for the time left to `tEnd`; the tables and `Compute_dt_cosmology` use `omega_m` and `omega_v`,
   by default 0.3 and 0.7. If they differ, the run goes past `tEnd` or approaches it in many small steps (`C100_two_universes_fails`; compare 38).
77. **Build without MPI (C101).** `MpiComm_single.tpp` copies `count-1` elements in `MPI_Allreduce` (L22) and `MPI_Alltoall` (L32): the last one is missing. All calls in the code have count 1, for which
   nothing is copied and the result stays uninitialised, such as the time step or the end of the loop (`C101_single_allreduce_fails`). `MPI_Scan`, `MPI_Allgather`, `MPI_Allgatherv_inplace` and `MPI_Alltoallv` are
   declared but not defined there, so that the mesh cannot be linked with `DYABLO_USE_MPI=OFF`; `GravitySolver_cg.cpp` and `InitialConditions_restart.cpp` call MPI directly. `GravitySolver_cg.cpp` L222-227 reduces a
   `real_t` as `MPI_DOUBLE`, which reads and writes outside of the variable with `DYABLO_USE_DOUBLE=OFF`.
78. **Counts in `int` (C101).** `MPI_Alltoallv` sums the counts in `int`: with 2^31 elements or more to send from one rank the behaviour is undefined (`C101_large_fails`).
79. **Mesh without size (C102).** With neither `amr/level_min` nor all resolutions, `AMRmesh.cpp` L34-68 returns `level_min`, `level_max` and `coarse_grid_size` uninitialised, and the mesh is built from them
   without a message (`C102_missing_fails`). For a 3D run this happens if `amr/coarse_oct_resolution_z` alone is forgotten.
80. **Values that are not checked (C102).** Levels are cut to 8 bits (`C102_levels_fails`: level 259 is level 3) and not compared with `get_max_supported_level` (`C102_supported_fails`); a resolution of 0 is accepted (`C102_zero_fails`);
   the number of coarse octants is a product of `uint32_t` (`AMRmesh_hashmap_new.cpp` L49), 0 for `amr/level_min=11` in 3D (`C102_count_fails`); one periodic side makes the direction periodic and the condition of
   the other side is dropped (`C102_boundary_fails`).
81. **Assertions of the constructor (C102).** `coarse_grid_size[IZ] <= (dim==3)?(1U << level_min):1` (`AMRmesh_hashmap_new.cpp` L63) is parsed as `(coarse_grid_size[IZ] <= (dim==3)) ? ... : 1` and always holds (`C102_depth_fails`; the parser of
   the configuration has the check right). The check for a lowest level that is too high (L65-68) compares the depth 1 with 0 in 2D and never applies there (`C102_small_fails`).
82. **Snapshots of large meshes** (C106). `IOManager_hdf5.cpp` L387: the number of iterations `local_num_cells*nbNodesPerCell` of the
   loop that fills the connectivity is a `uint32_t`. With `2^20` octants of 8x8x8 cells on a process it is 0 and all corners of all cells
   are node 0 (`C106_overflow_fails`); from `2^29` cells on a process in 3D (`2^30` in 2D) on at least a part of the cells is wrong.
83. **Blanks in `output/write_variables`** (C106). L120-126 do not remove blanks, as L142-149 do for particles: of `rho, rho_vx` only `rho`
   is written, with a warning (`C106_blanks_fail`).
84. **Runs with the default refinement condition never coarsen** (C107). `DyabloTimeLoop.h` L382-386 takes
   `RefineCondition_second_derivative_error` if none is chosen. Its markers start at 0 (see C52), so that in a whole run, whatever happens
   to the gas and whatever `error_min` is, every leaf lies in a leaf of any mesh before (`C107_second_derivative_never_coarsens`).
85. **Thresholds of masses** (C107). `RefineCondition_mass.cpp` accepts any `mass_refine` and `mass_coarsen`. If `mass_refine` is less than
   `2^d` times `mass_coarsen`, a gas at rest can be refined and coarsened everywhere in turn for ever
   (`C107_mass_close_thresholds_alternate`); from there on it settles (`C107_mass_settles`). The default values are fine.
86. **Value of a compound operator on `StateNd`** (C108). `operator+=` and its three siblings in `State_Nd.h` (L49-67, L100-118, L151-169,
   L202-220) change `lhs` but return, by value, an array `res` that they set to 0 and never fill; `a = (b += c)` makes `a` 0
   (`C108_nd_compound_value`). The operators of `State_Ops.h` return `lhs`. No code uses the value now.
87. **Names of primitive fields** (C108). `PrimHydroState::getFieldsInfo()` (`State_hydro.h` L65-72) names the fields `e_tot`, `rho_vx`, `rho_vy`,
   `rho_vz`; an accessor made from it would read energy and momentum as pressure and velocity (`C108_primitive_names`). The MHD states have `p`,
   `u`, `v`, `w` there. The function has no caller now.
88. **Duplicates in an accessor** (C109). `FieldAccessor` (`UserData_fields.h` L251) reports duplicates by comparing the number of fields with the number of
   ids, so a field listed under two ids is accepted. `reduce_ghosts` of such an accessor adds the ghost values twice (`C109_reduce_twice_fails`). The
   only caller lists one field.
89. **Power of the cosmological constant** (C113). `Cosmo.h` L83-85 integrates `1/sqrt(a^4 omega_k + a^3 omega_m + a^5 omega_v)`. In the time of the
   code, physical time over `a^2`, the rate `eta^2 = omega_m/a + omega_v a^2 + omega_k` of `InitialConditions_particle_grid.cpp` L62 gives `a^4 eta^2`, so `a^3 omega_m` and
   `a^4 omega_k` as in the code, but `a^6 omega_v`. With `a^5` the density of the part `omega_v` falls like `1/a` and is not constant (`C113_exact`), and
   the expansion up to `a = 1` takes less time than in the model asked for (`C113_constant_fails`). The defaults are `omega_m = 0.3` and `omega_v = 0.7`. The initial
   displacements of particles are computed with the right power (`C113_initial_rate`, C114), so that one run uses two expansion laws.
