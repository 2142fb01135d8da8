{"id": "C01", "title": "Morton keys decode to the coordinates they encode", "statement": "Encoding integer coordinates into a Morton key and extracting each coordinate from the key gives the coordinates back, in 2D and 3D, for every coordinate in the supported range; consequently two different octants of the same level never share a key.", "quantifier": "all coordinates: < 2^32 in 2D, < 2^21 in 3D", "why_tests_cant": "2^64 (2D) and 2^63 (3D) inputs; a wrong mask constant only corrupts a few high-bit inputs", "anchors": ["core/src/morton_utils.h: splitBy3<2>, splitBy3<3>, compute_morton_key, morton_extract_coord"]}
{"id": "C02", "title": "Morton keys respect the octree hierarchy", "statement": "The key of a parent octant is the key of any of its children with the last dim bits dropped, so all descendants of an octant occupy one contiguous key interval that contains no key of any octant outside it; keys grow with each coordinate.", "quantifier": "all 3D coordinates with key in 63 bits, all level differences", "why_tests_cant": "needs every octant and every depth; off-by-one in a shift only shows at one level", "anchors": ["core/src/morton_utils.h: compute_morton_key", "core/src/amr/AMRmesh_hashmap_new.cpp: shift_level, compute_morton"]}
{"id": "C03", "title": "Local/ghost octant numbering is a bijection", "statement": "The combined numbering of local and ghost octants used by all storage maps each (local or ghost) octant to its own slot and back, so two octants never share a slot.", "quantifier": "all octant counts, all local and ghost indices in range", "why_tests_cant": "unbounded counts", "anchors": ["core/src/amr/LightOctree_base.h: OctantIndex_to_iOctLocal, iOctLocal_to_OctantIndex", "core/src/amr/LightOctree_storage.h: get_ioct_local"]}
{"id": "C04", "title": "Point location returns the one leaf containing the point", "statement": "On any mesh that tiles the domain, looking up the octant at a position returns exactly the leaf whose box contains that position; the search never fails and never returns a neighbour.", "quantifier": "all tilings, all coarse grid shapes, all positions in [0,1)^d, all levels between level_min and level_max", "why_tests_cant": "meshes and positions are unbounded; errors appear only at particular depth combinations", "anchors": ["core/src/amr/LightOctree_hashmap.h: getiOctFromPos", "core/src/amr/LightOctree_storage.h: cell_count"]}
{"id": "C05", "title": "Neighbour search returns exactly the touching leaves", "statement": "On a 2:1 balanced tiling, the neighbours reported for an octant in a direction are exactly the leaves that touch the corresponding face, edge or corner from outside; outside a non-periodic domain the answer is empty; across a periodic boundary the search wraps.", "quantifier": "all balanced tilings, all octants, all 26 (8) directions, all periodicity settings", "why_tests_cant": "depends on the arrangement of levels around each octant; exponentially many local configurations times positions", "anchors": ["core/src/amr/LightOctree_hashmap.h: findNeighbors, isBoundary", "core/src/amr/LightOctree_base.h: findNeighbors"]}
{"id": "C06", "title": "Neighbour relation is symmetric", "statement": "If octant b is reported as a neighbour of a in some direction, then a is reported as a neighbour of b in some direction, so fluxes and ghost layers computed from both sides see the same pairs.", "quantifier": "all balanced tilings, all octants and directions", "why_tests_cant": "unbounded meshes", "anchors": ["core/src/amr/LightOctree_hashmap.h: findNeighbors"]}
{"id": "C07", "title": "Owner rank of a position is the rank holding its leaf", "statement": "The MPI rank returned for a position is the rank that stores the leaf containing that position.", "quantifier": "all tilings, all partitions into contiguous Morton ranges, all positions", "why_tests_cant": "needs every partition and position; a mismatch loses particles silently", "anchors": ["core/src/amr/LightOctree_hashmap.h: getDomainFromPos, LightOctree_hashmap(const AMRmesh_t*,...)"]}
{"id": "C08", "title": "The initial mesh is the full coarse grid", "statement": "Building a mesh creates each coarse octant exactly once over all ranks, in Morton order, with every rank holding a contiguous share whose size differs by at most one from any other.", "quantifier": "all grid sizes (full cube or not), all rank counts", "why_tests_cant": "unbounded sizes and rank counts", "anchors": ["core/src/amr/AMRmesh_hashmap_new.cpp: AMRmesh_hashmap_new, private_init"]}
{"id": "C09", "title": "Marker correction always terminates", "statement": "The loop that corrects refinement markers before adaptation terminates on every mesh, for every initial marker assignment and every distribution over ranks.", "quantifier": "all meshes, all markers in {-1,0,1}, all partitions", "why_tests_cant": "non-termination cannot be observed by a finite test", "anchors": ["core/src/amr/AMRmesh_hashmap_new.cpp: adapt (check_21_cell, marker loop)"]}
{"id": "C10", "title": "Marker correction does not depend on the domain decomposition", "statement": "The corrected markers, hence the adapted mesh, are the same for every distribution of octants over ranks and every order in which ranks perform their local sweeps, and equal the smallest correction that satisfies the 2:1 and sibling rules.", "quantifier": "all meshes, markers and partitions; all numbers of local sweeps between exchanges", "why_tests_cant": "needs all partitions and schedules", "anchors": ["core/src/amr/AMRmesh_hashmap_new.cpp: adapt (marker loop, exchange_ghosts, MPI_Allreduce)"]}
{"id": "C11", "title": "Requested refinements are honoured and coarsening is all-or-nothing", "statement": "Every octant marked for refinement is refined; no octant is coarsened unless it was marked for coarsening and all its siblings are leaves of the same level that are coarsened too; no octant changes level by more than one.", "quantifier": "all balanced meshes and markers", "why_tests_cant": "interaction of marker propagation over unbounded distances", "anchors": ["core/src/amr/AMRmesh_hashmap_new.cpp: adapt"]}
{"id": "C12", "title": "Adaptation preserves 2:1 balance", "statement": "If the mesh is 2:1 balanced (faces, edges and corners, through periodic boundaries) before adaptation it is 2:1 balanced afterwards.", "quantifier": "all balanced tilings, all markers", "why_tests_cant": "global invariant over unbounded meshes", "anchors": ["core/src/amr/AMRmesh_hashmap_new.cpp: adapt"]}
{"id": "C13", "title": "Adaptation preserves the tiling", "statement": "After adaptation every point of the domain lies in exactly one leaf: nothing is lost, nothing overlaps.", "quantifier": "all tilings, all markers", "why_tests_cant": "global invariant over unbounded meshes", "anchors": ["core/src/amr/AMRmesh_hashmap_new.cpp: adapt (apply markers)"]}
{"id": "C14", "title": "Adaptation keeps octants in Morton order and fills the new storage exactly", "statement": "Each new octant is written to its own slot, all slots are written, and the new octants of all ranks, concatenated in rank order, are sorted by Morton key; global indices are consecutive over ranks.", "quantifier": "all meshes, markers, partitions", "why_tests_cant": "prefix-sum compaction over unbounded arrays", "anchors": ["core/src/amr/AMRmesh_hashmap_new.cpp: adapt (count_new_nbOcts, apply, first_local_oct)", "core/src/amr/AMRmesh_hashmap_new.h: getGlobalIdx"]}
{"id": "C15", "title": "Adaptation keeps levels within the configured range", "statement": "If the refinement criterion's markers are limited to [level_min, level_max] as the marking step does, adaptation never produces an octant outside that range.", "quantifier": "all meshes and markers", "why_tests_cant": "propagation could raise an octant beyond the limit at a distance", "anchors": ["core/src/refine_condition/RefineCondition_helper.h: set_markers", "core/src/amr/AMRmesh_hashmap_new.cpp: adapt"]}
{"id": "C16", "title": "Load balancing moves octants without loss, duplication or reordering", "statement": "After load balancing, the octants of all ranks concatenated in rank order are the same list as before; every rank is non-empty when there are at least as many octants as ranks.", "quantifier": "all meshes, all old partitions, all rank counts, all compaction levels", "why_tests_cant": "needs every distribution; off-by-one loses one octant on one boundary", "anchors": ["core/src/amr/AMRmesh_hashmap_new.cpp: loadBalance, lower_bound_morton, shift_level"]}
{"id": "C17", "title": "Load balancing is even and keeps sibling groups together", "statement": "Without compaction each rank gets floor or ceil of N/P octants; with k compaction levels, no group of octants sharing the ancestor k levels above the finest level is split between ranks unless keeping it together would leave a rank empty.", "quantifier": "all meshes, rank counts, compaction levels", "why_tests_cant": "depends on positions of all cut points", "anchors": ["core/src/amr/AMRmesh_hashmap_new.cpp: loadBalance"]}
{"id": "C18", "title": "Ghost discovery is complete", "statement": "For every octant that has a touching octant on another rank, that octant is present in this rank's ghost layer after ghost discovery.", "quantifier": "all balanced tilings, all partitions, all periodicities", "why_tests_cant": "needs every partition and configuration of levels", "anchors": ["core/src/amr/AMRmesh_hashmap_new.cpp: discover_ghosts"]}
{"id": "C19", "title": "Ghost exchange delivers owners' data", "statement": "After a ghost exchange every ghost entry holds the value its owner holds, in the order of the ghost octants, for each field; local values do not change.", "quantifier": "all send lists, all array shapes, all rank counts", "why_tests_cant": "unbounded arrays and rank counts", "anchors": ["core/src/mpi/ViewCommunicator.h: exchange_ghosts", "core/src/mpi/ViewCommunicator.cpp: private_init_map"]}
{"id": "C20", "title": "Ghost reduction is the adjoint of ghost exchange", "statement": "After a reduction each owner holds its value plus the sum over all ghost copies of its octant on other ranks; the total over owners afterwards equals the total over owners and ghosts before.", "quantifier": "all send lists, shapes, rank counts, all arrival orders", "why_tests_cant": "needs all copy patterns; atomics may hide lost updates", "anchors": ["core/src/mpi/ViewCommunicator.h: reduce_ghosts, unpack_reduce"]}
{"id": "C21", "title": "Partial ghost layers contain exactly the cells near the shared faces", "statement": "For each set of shared faces, the cells selected for partial-block exchange are exactly the cells of the block within ghost_count of one of these faces, each listed once.", "quantifier": "all block sizes, ghost counts up to the block size, all 64 face sets", "why_tests_cant": "unbounded block sizes", "anchors": ["core/src/mpi/GhostCommunicator_partial_blocks.cpp: precompute_facemask_cells"]}
{"id": "C22", "title": "Redistribution by target rank delivers every item to its target", "statement": "A communicator built from per-item target ranks sends every item to its target rank exactly once and nowhere else, keeping the order of items from the same source.", "quantifier": "all item counts, target assignments, rank counts", "why_tests_cant": "unbounded", "anchors": ["core/src/mpi/ViewCommunicator.cpp: private_init_domains", "core/src/particles/ForeachParticle.h: get_distribute_communicator, distribute"]}
{"id": "C23", "title": "Cell traversals visit every cell exactly once", "statement": "A traversal over all cells (or all ghost cells) calls the kernel on each cell of each (ghost) octant exactly once; a traversal by patches visits the same set.", "quantifier": "all block sizes, octant counts, group sizes", "why_tests_cant": "unbounded sizes", "anchors": ["core/src/foreach_cell/AMRBlockForeachCell.h: foreach_cell, foreach_ghost_cell, reduce_cell", "core/src/foreach_cell/AMRBlockForeachCell_group.h: foreach_patch, Patch::foreach_cell"]}
{"id": "C24", "title": "Patch-local index conversion preserves the cell", "statement": "Converting a cell index of a ghosted patch to a global array and back designates the same geometric cell; interior cells convert to the local octant, ghost cells to the touching neighbour cell of the right size.", "quantifier": "all block sizes, ghost widths up to the block size, cell positions", "why_tests_cant": "unbounded block sizes and widths", "anchors": ["core/src/foreach_cell/AMRBlockForeachCell_CellArray.h: convert_index, convert_index_ghost, getNeighbor_ghost"]}
{"id": "C25", "title": "Cell neighbour lookup is geometrically right", "statement": "The neighbour of a cell at a one-cell offset is the cell of the mesh that contains the point just across that face; with a finer neighbour the returned cell is the lowest-corner sub-cell and iterating over smaller neighbours visits exactly the sub-cells touching the face.", "quantifier": "all block sizes (even when refined neighbours exist), octant positions, levels, offsets", "why_tests_cant": "many parity and level cases times unbounded sizes", "anchors": ["core/src/foreach_cell/AMRBlockForeachCell_CellArray.h: getNeighbor_ghost", "core/src/foreach_cell/ForeachCell_utils.h: foreach_smaller_neighbor, foreach_sibling"]}
{"id": "C26", "title": "Cell of a position contains the position", "statement": "The cell returned for a position is the cell whose box contains it, and the centre of every cell locates back to that cell.", "quantifier": "all block sizes, domains, octants, positions", "why_tests_cant": "unbounded", "anchors": ["core/src/foreach_cell/AMRBlockForeachCell.h: getCellFromPos, getCellCenter, getCellSize"]}
{"id": "C27", "title": "Named fields behave like independent named arrays", "statement": "Any sequence of creating, renaming and deleting fields and reading or writing cells behaves like a map from names to independent arrays: a write to one field never changes another, renaming keeps data, deleting removes only that field.", "quantifier": "all sequences of operations", "why_tests_cant": "histories are unbounded; slot reuse bugs need particular sequences", "anchors": ["core/src/UserData_fields.h: new_fields, getField, move_field, delete_field, extend_fields, FieldAccessor"]}
{"id": "C28", "title": "Load balancing keeps field data attached to field names", "statement": "After data redistribution each field name refers to the same field's data as before.", "quantifier": "all histories of field operations before the redistribution", "why_tests_cant": "depends on slot permutation produced by history", "anchors": ["core/src/UserData_fields.h: exchange_loadbalance, backup_and_realloc"]}
{"id": "C29", "title": "Particle attributes behave like independent named arrays", "statement": "Any sequence of creating, renaming and deleting particle attributes behaves like a map from names to independent arrays over the particles, and redistribution moves all attributes of a particle together with its position.", "quantifier": "all sequences of operations", "why_tests_cant": "histories are unbounded", "anchors": ["core/src/UserData_particles.h: ParticleContainer", "core/src/particles/ForeachParticle.h: distribute"]}
{"id": "C30", "title": "Remapping after adaptation conserves field totals", "statement": "After adaptation the integral of every field over the mesh equals the integral before: refined cells copy the parent value, coarsened cells take the mean of the cells they replace, untouched cells keep their value.", "quantifier": "all tilings, markers, block sizes, field values (exact arithmetic)", "why_tests_cant": "unbounded meshes", "anchors": ["core/src/amr/MapUserData_mean.cpp: remap_aux", "core/src/amr/CellIndexRemapper.h: get_old_cell"]}
{"id": "C31", "title": "Written configuration reads back to the same configuration", "statement": "Parsing the configuration text that the program writes gives the same section/name/value map that was written.", "quantifier": "all configurations whose names and values are in a stated grammar", "why_tests_cant": "unbounded strings; comment and whitespace handling interact", "anchors": ["core/src/utils/config/ConfigMap.h: output, valueHandler", "core/src/utils/config/inih/ini.cpp: ini_parse_stream"]}
{"id": "C32", "title": "Configuration lookup is a last-wins, case-insensitive map with recorded defaults", "statement": "A lookup returns the last value given for the (case-insensitive) section and name, otherwise the default, and afterwards the same lookup with any default returns the same value; parameters never asked for are reported as unused.", "quantifier": "all sequences of file lines and lookups", "why_tests_cant": "unbounded histories", "anchors": ["core/src/utils/config/ConfigMap.h: valueHandler, getValue, hasValue, output"]}
{"id": "C33", "title": "Enum options round-trip and unknown options are rejected", "statement": "Every enum option converts to its text and back to itself; a text that is not an option is rejected; unknown plugin identifiers are rejected and duplicates cannot be registered.", "quantifier": "all option tables with distinct names and values, all texts, all registration sequences", "why_tests_cant": "unbounded texts and histories", "anchors": ["core/src/utils/config/named_enum.h: named_enum", "core/src/utils/misc/RegisteringFactory.h: RegisteringFactory"]}
{"id": "C34", "title": "Scalar data behave like a typed map", "statement": "Reading a scalar returns the last value written under that name and type; reading a name never written, or with another type, raises an error instead of returning a wrong value.", "quantifier": "all sequences of sets and gets over all names and types", "why_tests_cant": "unbounded histories", "anchors": ["core/src/utils/misc/MultiTypeMap.h: MultiTypeMap", "core/src/ScalarSimulationData.h: ScalarSimulationData"]}
{"id": "C35", "title": "Fortran record reading detects byte order and returns the record", "statement": "Reading a well-formed Fortran record written in either byte order returns exactly the values written, and a record of the wrong size is rejected.", "quantifier": "all record lengths and contents, both byte orders", "why_tests_cant": "all lengths; sign and palindromic size tags are rare", "anchors": ["core/src/utils/io/FortranBinaryReader.h: read_record, endian_swap"]}
{"id": "C36", "title": "Parallel output places every rank's data in its own contiguous range", "statement": "The ranges written by the ranks to a shared dataset are disjoint, in rank order, and cover the dataset exactly; reading with the same scheme returns each rank's part.", "quantifier": "all rank counts and local sizes", "why_tests_cant": "unbounded", "anchors": ["core/src/utils/io/HDF5ViewWriter.h: collective_write", "core/src/init/InitialConditions_restart.cpp: read_view"]}
{"id": "C37", "title": "Output cell connectivity refers to the corners of that cell", "statement": "Each cell in the visualisation output refers to the node indices of its own corners: indices are in range, belong to its octant, and distinct cells have distinct node tuples.", "quantifier": "all block sizes and octant counts", "why_tests_cant": "unbounded sizes", "anchors": ["core/src/io/IOManager_hdf5.cpp: save_snapshot (coordinates, connectivity)"]}
{"id": "C38", "title": "Restart rebuilds the checkpointed mesh", "statement": "Starting from the coarse grid, the refinement steps performed at restart produce exactly the mesh that was checkpointed.", "quantifier": "all balanced tilings with levels in range", "why_tests_cant": "unbounded meshes; interplay with 2:1 propagation", "anchors": ["core/src/init/InitialConditions_restart.cpp: init", "core/src/io/IOManager_checkpoint.cpp: save_snapshot"]}
{"id": "C39", "title": "Restart distributes all particles over ranks exactly once", "statement": "At restart the particle ranges read by the ranks are disjoint and cover all particles.", "quantifier": "all particle and rank counts", "why_tests_cant": "overflow needs billions of particles", "anchors": ["core/src/init/InitialConditions_restart.cpp: init (particles)"]}
{"id": "C40", "title": "Periodic triggers fire once per crossed multiple", "statement": "An output or checkpoint trigger with interval dt fires exactly at the first step at or after each multiple of the interval, never twice for the same multiple, and never when disabled.", "quantifier": "all non-decreasing time sequences, all intervals", "why_tests_cant": "unbounded sequences", "anchors": ["core/src/DyabloTimeLoop.h: Interval_trigger"]}
{"id": "C41", "title": "The simulation ends at its end time without overshooting", "statement": "The time loop never steps past t_end, and stops once t_end or the maximum number of iterations is reached; with time steps bounded below it always stops.", "quantifier": "all sequences of time steps, end times, iteration limits", "why_tests_cant": "unbounded runs", "anchors": ["core/src/DyabloTimeLoop.h: run, IterationHandler"]}
{"id": "C42", "title": "Time step satisfies the stability bound in every cell", "statement": "The global time step is positive and at most cfl divided by the sum of (|v|+c)/dx over the directions, in every cell of every rank.", "quantifier": "all states with positive density and pressure, all meshes and partitions", "why_tests_cant": "unbounded cells", "anchors": ["core/src/compute_dt/Compute_dt_hydro.cpp: compute_dt, compute_dt_aux"]}
{"id": "C43", "title": "Conservative and primitive variables convert back and forth", "statement": "Converting a state with positive density to primitive variables and back is the identity, and conversely.", "quantifier": "all states with rho != 0, gamma != 1 (exact arithmetic)", "why_tests_cant": "continuous domain", "anchors": ["core/src/states/State_hydro.h: consToPrim, primToCons"]}
{"id": "C44", "title": "Riemann flux is consistent and mirror symmetric", "statement": "For equal left and right states the Riemann solver returns the physical flux; exchanging and reflecting the two states reflects the flux.", "quantifier": "all states with rho >= smallr, p >= rho*smallp (exact arithmetic)", "why_tests_cant": "continuous domain with many branches", "anchors": ["core/src/RiemannSolvers.h: riemann_hllc", "core/src/states/State_hydro.h: swapComponents"]}
{"id": "C45", "title": "The hydrodynamic update conserves mass, momentum and energy", "statement": "On a periodic mesh the sum over cells of volume times each conserved variable is unchanged by one update, including across level changes: the flux a coarse cell receives through a face is the sum of the fluxes its finer neighbours give.", "quantifier": "all balanced meshes with periodic boundaries, all states, all Riemann fluxes (exact arithmetic)", "why_tests_cant": "unbounded meshes, continuous states", "anchors": ["core/src/hydro/HydroUpdate_hancock_oneneighbor.cpp: compute_fluxes_and_update", "core/src/hydro/HydroUpdate_utils.h: euler_update"]}
{"id": "C46", "title": "Slope limiting creates no new extrema", "statement": "Limited slopes are zero at extrema, and the values reconstructed at the faces of a cell lie between the cell's value and its neighbours' values.", "quantifier": "all values, all spacing ratios (exact arithmetic)", "why_tests_cant": "continuous domain", "anchors": ["core/src/hydro/HydroUpdate_utils.h: compute_slope, reconstruct_lin_state", "core/src/hydro/HydroUpdate_hancock_oneneighbor.cpp: compute_limited_slopes"]}
{"id": "C47", "title": "Reflecting walls let no mass through", "statement": "At a reflecting boundary the ghost state is the mirror image of the interior state, so the mass and energy flux through the wall is zero; at an absorbing boundary the ghost state is the nearest interior state.", "quantifier": "all interior states, ghost depths and directions", "why_tests_cant": "continuous domain", "anchors": ["core/src/boundary_conditions/BoundaryConditions.h: getBoundaryValue", "core/src/RiemannSolvers.h: riemann_hllc"]}
{"id": "C48", "title": "Gravity correction changes momentum and kinetic energy consistently", "statement": "The gravity source step leaves density and internal energy (hence pressure) unchanged.", "quantifier": "all states with rho != 0, all accelerations and time steps (exact arithmetic)", "why_tests_cant": "continuous domain", "anchors": ["core/src/hydro/HydroUpdate_euler.cpp: apply_gravity_correction", "core/src/hydro/HydroUpdate_hancock_oneneighbor.cpp: apply_gravity_correction"]}
{"id": "C49", "title": "The gravity solver's operator is symmetric and positive", "statement": "The discrete Poisson operator used by the conjugate gradient solver is symmetric and positive semi-definite on every balanced mesh, including level changes and boundaries, and the recursively updated residual always equals b - A phi.", "quantifier": "all balanced meshes, potentials and iterations (exact arithmetic)", "why_tests_cant": "unbounded meshes, continuous values", "anchors": ["core/src/gravity/GravitySolver_cg.cpp: matprod, get_value, update_gravity_field"]}
{"id": "C50", "title": "Heat conduction conserves energy and moves heat from hot to cold", "statement": "On a mesh without open boundaries the explicit conduction step leaves total energy unchanged, and the flux between two cells has the sign of their temperature difference.", "quantifier": "all balanced meshes, temperatures, non-negative conductivities (exact arithmetic)", "why_tests_cant": "unbounded meshes, continuous values", "anchors": ["core/src/parabolic/ParabolicTerm_thermal_conduction.h: compute_rhs", "core/src/parabolic/ParabolicUpdate_explicit.cpp: update_aux"]}
{"id": "C51", "title": "Negative values are repaired and valid states untouched", "statement": "After cleaning, every cell has non-negative density and pressure, and cells that were already valid are bitwise unchanged.", "quantifier": "all states (exact arithmetic)", "why_tests_cant": "continuous domain", "anchors": ["core/src/hydro/HydroUpdate_utils.h: clean_negative_primitive_values"]}
{"id": "C52", "title": "An octant's marker is the strongest request of its cells, limited to the level range", "statement": "An octant is marked for refinement iff some cell requests it and it is below level_max, and for coarsening iff all cells request it and it is above level_min, for every order of concurrent updates.", "quantifier": "all criteria, block sizes, update orders", "why_tests_cant": "all interleavings of atomic updates", "anchors": ["core/src/refine_condition/RefineCondition_helper.h: mark_cells_aux, set_markers", "core/src/refine_condition/RefineCondition_second_derivative_error.cpp: mark_cells_aux"]}
{"id": "C53", "title": "Particle deposition conserves mass", "statement": "The mass deposited on the mesh (sum of cell volume times density increment, over all ranks, after ghost reduction) equals the total particle mass.", "quantifier": "all balanced periodic meshes, all particle positions and masses, all partitions (exact arithmetic)", "why_tests_cant": "continuous positions near every level change", "anchors": ["core/src/particles/ParticleUpdate_NGP_density.cpp: update", "core/src/particles/ParticleUpdate_CIC_density.cpp: update_aux"]}
{"id": "C54", "title": "Moved particles stay in the periodic domain", "statement": "After a particle push in a periodic domain every particle position is inside the domain and equals the unwrapped position modulo the domain length.", "quantifier": "all positions, velocities and time steps (exact arithmetic)", "why_tests_cant": "continuous domain", "anchors": ["core/src/particles/ParticleUpdate_CIC_move.cpp: update_aux", "core/src/particles/ParticleUpdate_NGP_move.cpp: update"]}
{"id": "C55", "title": "Cosmology table interpolation stays in the table", "statement": "Converting between expansion factor and time by table lookup reads only table entries, is exact at table points, and monotone; the two conversions are inverse to each other at table points.", "quantifier": "all increasing tables, all arguments within the table range", "why_tests_cant": "continuous arguments, table edges", "anchors": ["core/src/Cosmo.h: lookup_interpolate, CosmoManager"]}
{"id": "C56", "title": "Timers measure properly nested regions", "statement": "Starting and stopping timers in nested order never fails and restores the previously running timer; any other order is rejected; printing timers does not change which timers are running.", "quantifier": "all sequences of start/stop/print calls", "why_tests_cant": "unbounded histories", "anchors": ["core/src/utils/monitoring/Timers.cpp: start_timer_parent, stop_timer_parent, get, print"]}
{"id": "C57", "title": "Temporary patch arrays never overlap", "statement": "Temporary arrays reserved for patches in one kernel occupy disjoint storage for distinct patches running concurrently and distinct reservations.", "quantifier": "all block sizes, ghost widths, reservations, concurrent patches", "why_tests_cant": "unbounded sizes; overlap shows as rare races", "anchors": ["core/src/foreach_cell/AMRBlockForeachCell_group.h: reserve_patch_tmp, allocate_tmp", "core/src/foreach_cell/AMRBlockForeachCell_scratch.h"]}
{"id": "C58", "title": "Partial block exchange and reduction move exactly the listed cells", "statement": "After an exchange of parts of blocks, in every ghost octant the cells listed for its face mask hold the owner's values and all other cells are unchanged; after a reduction every cell of an owner holds its value plus all ghost copies of that cell.", "quantifier": "all ghost maps, face masks, field counts, rank counts, kernel orders", "why_tests_cant": "unbounded lists; wrong offsets only show for particular mask sequences", "anchors": ["core/src/mpi/GhostCommunicator_partial_blocks.cpp: init", "core/src/mpi/GhostCommunicator_partial_blocks.h: exchange_ghosts, reduce_ghosts"]}
{"id": "C59", "title": "Refinement indicators measure the largest relative jump to a face neighbour", "statement": "The pseudo-gradient compared with the thresholds is the largest relative difference between the cell and any cell that shares a face or part of a face with it; it lies in [0,1] and is 0 in a uniform field, which therefore asks for coarsening. The second-derivative error lies in [0,1) and vanishes exactly on linear data.", "quantifier": "all balanced meshes, block sizes, fields and thresholds (exact arithmetic)", "why_tests_cant": "the neighbour configuration and the field values are unbounded", "anchors": ["core/src/refine_condition/RefineCondition_pseudo_gradient.cpp: getMarker", "core/src/refine_condition/RefineCondition_second_derivative_error.cpp: second_derivative_error"]}
{"id": "C60", "title": "Interpolation to particles is the transpose of deposition", "statement": "The cloud-in-cell acceleration of a particle uses the same cells and weights as its deposition: mass times interpolated acceleration is the sum over cells of deposited mass times cell acceleration. It is bounded by the largest acceleration on the mesh, and a constant acceleration is reproduced.", "quantifier": "all balanced periodic meshes, block sizes, positions and accelerations (exact arithmetic)", "why_tests_cant": "continuous positions near every level change", "anchors": ["core/src/particles/ParticleUpdate_CIC_move.cpp: update_aux", "core/src/particles/ParticleUpdate_CIC_density.cpp: update_aux"]}
{"id": "C61", "title": "Romberg integration of the cosmological time", "statement": "romberg returns the first diagonal entry of Romberg's table that differs from the one before by less than the accuracy, working within its buffers; column j of the table integrates polynomials of degree 2j+1 exactly; entries are positive for positive functions and change sign with the orientation, so the cosmological time step is positive.", "quantifier": "all functions, limits, accuracies and step counts; all polynomials; all open or flat models (exact arithmetic)", "why_tests_cant": "continuous domain; tests only sample functions", "anchors": ["core/src/Cosmo.h: romberg, integrate_da_dt, static_compute_cosmo_dt"]}
{"id": "C62", "title": "The two-stage update is Heun's method, conserves and keeps states valid", "statement": "HydroUpdate_RK2 adds to each cell the time step times the mean of the rates of change at the old state and after one Euler step. If no stage needs a repair, totals change by the mean of the boundary losses of both stages, not at all on a periodic domain, and under constant gravity momentum grows by mass times acceleration times time step. Valid states (positive density, non-negative pressure) stay valid whatever the fluxes are, although the final mean is not repaired.", "quantifier": "all balanced meshes in 2D and 3D, even blocks of at least 4 cells, all Riemann solvers, states and time steps, without the well-balanced option (exact arithmetic)", "why_tests_cant": "unbounded meshes and states; convexity of valid states is not sampled", "anchors": ["core/src/hydro/HydroUpdate_RK2.cpp: update_aux, rk_update, rk_correct"]}
{"id": "C63", "title": "Flux-flux cooling injects no energy", "statement": "With CoolingUpdate_FF in one_cell mode the first row of cells loses exactly what the last row gains, dt times flux times the area of an end of the domain, whatever the refinement of the rows is; other cells do not change and the total energy is constant.", "quantifier": "all balanced meshes, block sizes, fluxes, time steps and energies (exact arithmetic)", "why_tests_cant": "the rows can be refined in unboundedly many ways", "anchors": ["core/src/cooling/CoolingUpdate_FF.cpp: update_aux"]}
{"id": "C64", "title": "Viscosity conserves momentum and energy and dissipates", "statement": "compute_rhs of ParabolicTerm_viscosity is the viscosity times the divergence of the Newtonian stress. Over a periodic mesh the viscous terms add up to zero momentum and zero energy, and the force does negative work, at least the viscosity times the squares of all velocity differences. Linear flow feels no force and heats by the dissipation function, never negative; rigid motion feels nothing.", "quantifier": "all velocities, cell sizes, viscosities, periodic meshes (exact arithmetic), 2D and 3D", "why_tests_cant": "a wrong index in one of the 18 differences conserves everything and shows only in the decay of particular modes", "anchors": ["core/src/parabolic/ParabolicTerm_viscosity.h: compute_rhs", "core/src/parabolic/ParabolicUpdate_explicit.cpp: update_aux"]}
{"id": "C65", "title": "Initial particles fill the grid once and carry the total mass", "statement": "Over all ranks InitialConditions_particle_grid makes exactly one particle for every site of the nx by ny by nz grid, in the middle of the grid cell (by default of the cells of the coarse level); every particle gets the momentum over density of the cell that contains it, is displaced by this velocity times dt_perturb modulo the domain, and the masses add up to total_mass. InitialConditions_simple_particles takes the first npart values of every attribute.", "quantifier": "all grid counts, rank counts, meshes, fields and domains (exact arithmetic)", "why_tests_cant": "large grids do not fit tests: a product of 32-bit counts wraps first at 1626^3; the shares of ranks must be checked for every rank count", "anchors": ["core/src/init/InitialConditions_particle_grid.cpp: init", "core/src/init/InitialConditions_simple_particles.cpp: parse_array"]}
{"id": "C66", "title": "The neighbour table of a rank holds the neighbours of the global mesh", "statement": "On each rank, findNeighbors with octant indices returns indices (local or ghost) of exactly the leaves of the global mesh adjacent in the given direction. LightOctree_hashmap_precompute builds its table of neighbours without an access out of range, and its findNeighbors returns the same lists in the same order for all local octants, ghosts and directions, although its two kernels number the pairs of octant and direction differently.", "quantifier": "all balanced meshes, ranks with complete ghost layers, octants and directions, 2D and 3D; up to 2^32/108 octants per rank", "why_tests_cant": "the table class is not instantiated by default; a wrong size or offset corrupts memory only on meshes with level jumps", "anchors": ["core/src/amr/LightOctree_hashmap.h: private_init, findNeighbors", "core/src/amr/LightOctree_hashmap_precompute.h: LightOctree_hashmap_precompute_init, findNeighbors, offset_to_index, index_to_offset"]}
{"id": "C67", "title": "A tiled restart repeats the mesh and its data", "statement": "InitialConditions_tiled_restart, given a file with a mesh and numbers of repetitions, builds the mesh that consists of exactly the copies of all octants of the file, and after the load balancing every octant of every rank is given the values of the octant it is a copy of.", "quantifier": "all meshes, numbers of repetitions, and initial distributions over the ranks, 2D and 3D", "why_tests_cant": "the feature is meant for big runs; whether octants get the wrong values depends on the shape of the coarse grid and shows as a plausible but wrong initial state", "anchors": ["core/src/init/InitialConditions_tiled_restart.cpp: init"]}
{"id": "C68", "title": "The initial mesh follows the formula", "statement": "InitialConditions_analytical builds, from the coarse grid, a tiling with the 2:1 rule and levels in the configured range, independent of the number of ranks and of the order in which cells are visited. It is the coarsest balanced mesh in which no octant below the maximum level has a cell that the formula asks to refine. The automatic criterion asks for refinement exactly where density or pressure is curved.", "quantifier": "all grids, block sizes, formulas, level ranges, distributions over the ranks, 2D and 3D", "why_tests_cant": "tests start from a few formulas and look at fields; an octant left unrefined next to a fine one is not noticed", "anchors": ["core/src/init/InitialConditions_analytical.h: init", "core/src/init/AnalyticalFormula_tools.h: auto_refine"]}
{"id": "C69", "title": "States of magnetohydrodynamics", "statement": "For MHD states (with or without divergence cleaning) the conversions between conservative and primitive variables are inverse to each other; the primitive variables are density, velocity, magnetic field and the gas pressure that remains after kinetic and magnetic energy; the exchange of a direction with the first exchanges the components of momentum and field, twice is the identity; the repair of negative values keeps velocity and field.", "quantifier": "all states with non-zero density, 2D and 3D", "why_tests_cant": "tests compare final fields with tolerances; a wrong energy split is hidden by the repair of negative pressures", "anchors": ["core/src/states/State_MHD.h: consToPrim", "core/src/states/State_MHD.h: primToCons", "core/src/states/State_MHD.h: swapComponents", "core/src/states/State_GLMMHD.h: consToPrim", "core/src/states/State_GLMMHD.h: GLMToMHD", "core/src/hydro/HydroUpdate_utils.h: clean_negative_primitive_values"]}
{"id": "C70", "title": "The five waves Riemann solver", "statement": "riemann_five_waves is a stable relaxation solver of ideal MHD: its speeds satisfy the stability condition of the relaxation system on both sides, in the five waves and in the three waves variant; velocity and stress behind the waves satisfy the relations across all of them; the flux transports the upwind state. The flux between equal states is the physical flux in every direction, contact discontinuities are resolved exactly, and mirrored problems have mirrored fluxes.", "quantifier": "all pairs of states with positive density and pressure, all directions, real arithmetic", "why_tests_cant": "tests run a few shock tubes with a tolerance; a wrong speed still gives a plausible profile", "anchors": ["core/src/RiemannSolvers.h: riemann_five_waves", "core/src/RiemannSolvers.h: riemann_hydro", "core/src/hydro/HydroUpdate_utils.h: compute_euler_flux"]}
{"id": "C71", "title": "The HLLD Riemann solver", "statement": "riemann_hlld samples a wave fan of ideal MHD: the outer waves bound the fast speeds of both sides, the four intermediate states satisfy the jump conditions of all eight conserved variables at all five waves, density is positive, velocity and total pressure are constant between the outer waves, tangential velocity and field are continuous at the middle wave, and the flux is that of the state at the face. Contacts are resolved exactly, equal states have their physical flux, mirrored problems have mirrored fluxes, without field it is HLLC, and the waves are ordered.", "quantifier": "all pairs of states with positive density and pressure, all normal fields at the face, real arithmetic", "why_tests_cant": "a wrong intermediate state changes profiles a little and only in some fans; tests use few shock tubes", "anchors": ["core/src/RiemannSolvers.h: riemann_hlld", "core/src/RiemannSolvers.h: riemann_hydro", "core/src/hydro/HydroUpdate_utils.h: euler_update"]}
{"id": "C72", "title": "Divergence cleaning (GLM)", "statement": "At every face the normal field and the cleaning potential are the solution of the Riemann problem of the cleaning system (waves of speeds -ch and ch) between the two sides, the fluxes of both are those of that system, and all other fluxes are those of the chosen MHD solver with this normal field. Equal states without potential have the physical flux; mirrored problems have mirrored fluxes; the cleaning speed crosses at most half a CFL fraction of any cell per step; without fluxes a step damps the potential as the equation of the decay does, in every dimension, and all directions are treated alike.", "quantifier": "all pairs of states, all time steps, parameters, dimensions, meshes within the level limits; real arithmetic", "why_tests_cant": "tests look at the divergence after many steps with a loose tolerance and only in 2D", "anchors": ["core/src/RiemannSolvers.h: riemann_hydro", "core/src/RiemannSolvers.h: RiemannParams", "core/src/hydro/HydroUpdate_utils.h: euler_update", "core/src/hydro/HydroUpdate_euler.cpp: update_aux", "core/src/hydro/HydroUpdate_RK2.cpp: rk_update"]}
{"id": "C73", "title": "Half step of the Hancock schemes", "statement": "The half step `compute_source` applied to the primitive variables changes the conserved variables, to first order in the time step, by minus half a time step times the divergence of the physical fluxes for the given slopes (for MHD: slopes whose field has no divergence), in 2D and 3D, for hydrodynamics and MHD.", "quantifier": "all states with density, all slopes, all cell sizes and time steps, all adiabatic indices other than 1; real arithmetic", "why_tests_cant": "a wrong coefficient in one of the 40 terms only lowers the order of convergence of some flows", "anchors": ["core/src/hydro/HydroUpdate_utils.h: compute_source"]}
{"id": "C74", "title": "Boundaries in magnetohydrodynamics", "statement": "Through a reflecting boundary goes no mass, no energy and no normal magnetic field, with every Riemann solver for MHD; through an absorbing boundary goes the physical flux of the state inside.", "quantifier": "all states of a gas, all directions and both sides, 2D and 3D, MHD with and without divergence cleaning; real arithmetic", "why_tests_cant": "tests of MHD use periodic or absorbing boundaries", "anchors": ["core/src/boundary_conditions/BoundaryConditions.h: getBoundaryValue", "core/src/hydro/HydroUpdate_hancock_oneneighbor.cpp: process_dir", "core/src/RiemannSolvers.h: riemann_five_waves, riemann_hlld"]}
{"id": "C75", "title": "The update of HydroUpdate_hancock", "statement": "Two octants compute the same flux through a face they share, so that the total of every conserved variable changes only by what leaves through boundaries; a constant state does not change; no value is read that was not computed.", "quantifier": "all meshes with the 2:1 balance, 2D and 3D, all even block sizes from 4, all states, every Riemann solver, half step, floor and rule for ghost values; exact arithmetic", "why_tests_cant": "tests run on small meshes and compare against stored results", "anchors": ["core/src/hydro/HydroUpdate_hancock.cpp: compute_slopes, reconstruct_state, compute_flux, compute_fluxes, update_aux", "core/src/hydro/CopyGhostBlockCellData.h: copyGhostBlockCellData", "core/src/boundary_conditions/BoundaryConditions.h: getBoundaryValue"]}
{"id": "C76", "title": "Initial conditions with gravity are in equilibrium", "statement": "Up to the perturbation that is asked for, the initial states with gravity (C91, tri_layer, rayleigh_taylor) are in hydrostatic equilibrium with one constant acceleration: the gas is at rest and the pressure gradient carries the weight, across interfaces too. The perturbation has the amplitude and the seed of the settings.", "quantifier": "all settings, positions and random numbers; exact real arithmetic", "why_tests_cant": "a test sees that nothing moves much in a few steps of one setting; an imbalance starts sound waves that look like convection", "anchors": ["core/src/init/wholesun/InitialConditions_C91.cpp: value", "core/src/init/wholesun/InitialConditions_tri_layer.cpp: value", "core/src/init/InitialConditions_rayleigh_taylor.cpp: value"]}
{"id": "C77", "title": "Blasts are where the settings put them", "statement": "The domain is divided into as many quadrants as the settings say; each has one blast, of the radius and with the centre that the settings give as fractions of the quadrant. The states have the given densities and pressures.", "quantifier": "all settings with blasts that fit into their quadrants, 2D and 3D, all positions of the domain; exact rational arithmetic", "why_tests_cant": "tests use the default centre and the unit domain", "anchors": ["core/src/init/InitialConditions_blast.cpp: value", "core/src/init/InitialConditions_MHD_blast.cpp: value"]}
{"id": "C78", "title": "Force of a point mass", "statement": "GravitySolver_point_mass writes minus the gradient of the softened potential of the mass, in the directions of the domain, and nothing else.", "quantifier": "all positions, masses and softenings, 2D and 3D; exact real arithmetic", "why_tests_cant": "tests compare orbits over short times in 3D", "anchors": ["core/src/gravity/GravitySolver_point_mass.cpp: value", "core/src/gravity/GravitySolver_analytical.tpp: update_gravity_field"]}
{"id": "C79", "title": "Initial magnetic fields have no divergence", "statement": "The initial magnetic fields of orszag_tang, MHD_rotor and MHD_blast have no divergence, in the continuum and with differences on a mesh. The states are what the tests define: periodic for Orszag-Tang, continuous and in rigid rotation for the rotor, the given pressures and fields for the blast.", "quantifier": "all positions, ratios of specific heats and sizes of cells; exact real arithmetic", "why_tests_cant": "a small divergence in the initial field is not visible in plots, and divergence cleaning hides it", "anchors": ["core/src/init/InitialConditions_orszag_tang.cpp: value", "core/src/init/InitialConditions_MHD_rotor.cpp: value", "core/src/init/InitialConditions_MHD_blast.cpp: value"]}
{"id": "C80", "title": "Adaptation of the older hash map mesh", "statement": "AMRmesh_hashmap::adapt ends. Requested refinements happen, coarsening is done for whole families that were requested. The new mesh tiles the domain, is 2:1 balanced and not finer than allowed, and each rank fills its new array exactly. The markers do not depend on the distribution over ranks.", "quantifier": "all balanced meshes, markers, numbers of ranks, distributions with complete ghost layers", "why_tests_cant": "the tests run a few adaptations on small meshes; lost markers of ghosts show only when a family is cut by a rank boundary", "anchors": ["core/src/amr/AMRmesh_hashmap.cpp: adapt", "core/src/amr/AMRmesh_hashmap.cpp: adapt_clean", "core/src/amr/AMRmesh_hashmap.cpp: is_full_coarsening", "core/src/amr/AMRmesh_hashmap.cpp: adapt_21balance_step", "core/src/amr/AMRmesh_hashmap.cpp: need_refine_to_balance", "core/src/amr/AMRmesh_hashmap.cpp: adapt_apply"]}
{"id": "C81", "title": "Every mesh of a run is valid and independent of the ranks", "statement": "After the constructor and any sequence of adapt and loadBalance calls: the leaves tile the domain, are 2:1 balanced, have levels in the configured range, are stored in Morton order over the ranks with no rank empty, and the ghosts of a rank are exactly the foreign leaves touching its own. The mesh depends only on the requested markers, not on the number of ranks or the load balancing. No call fails.", "quantifier": "all runs of any length, any number of ranks, any markers within the level range, any compaction levels", "why_tests_cant": "tests run short sequences on few ranks; an invariant over all sequences needs induction", "anchors": ["core/src/amr/AMRmesh_hashmap_new.cpp: private_init", "core/src/amr/AMRmesh_hashmap_new.cpp: adapt", "core/src/amr/AMRmesh_hashmap_new.cpp: loadBalance", "core/src/amr/AMRmesh_hashmap_new.cpp: discover_ghosts"]}
{"id": "C82", "title": "Every mesh of a run with the older hash map mesh is valid", "statement": "After the constructor of AMRmesh_hashmap and any sequence of adapt and loadBalance calls: the leaves tile the cube, are 2:1 balanced, have levels in the configured range, are stored in Morton order over the ranks with no rank empty, and the ghosts of a rank are exactly the foreign leaves touching its own. adapt does the requested refinements, loadBalance keeps the mesh. On one rank the mesh is that of AMRmesh_hashmap_new. No call fails.", "quantifier": "all runs of any length, any number of ranks, any markers within the level range, any compaction levels", "why_tests_cant": "tests run short sequences on few ranks with few compaction levels; the ghosts are found by key arithmetic that is only right for all octants if the bit manipulations are", "anchors": ["core/src/amr/AMRmesh_hashmap.cpp: discover_ghosts", "core/src/amr/AMRmesh_hashmap.cpp: compute_current_morton_intervals", "core/src/amr/AMRmesh_hashmap.cpp: adapt", "core/src/amr/AMRmesh_hashmap.cpp: loadBalance", "core/src/amr/AMRmesh_hashmap.cpp: adaptGlobalRefine"]}
{"id": "C83", "title": "Ghost cells of the block-based update hold the mesh around the block", "statement": "Before the update of HydroUpdate_legacy every block is copied into a block with more cells on each side. Every ghost cell is filled exactly once and gets the mean of the mesh over it, whatever the sizes of the neighbour octants, with periodic directions wrapped; outside the domain it gets the mirror image with the sign of normal components changed (reflecting) or the last cell (absorbing), also in edges and corners.", "quantifier": "all 2:1 balanced meshes, octants, block sizes, ghost widths, combinations of boundary conditions, mesh data", "why_tests_cant": "which cell of which neighbour a ghost cell gets depends on the position of the octant in its parent, on the sizes of up to 26 neighbours and on the boundary conditions of three directions; tests see a few of these combinations", "anchors": ["core/src/legacy/CopyGhostBlockCellData.cpp: get_pos", "core/src/legacy/CopyGhostBlockCellData.cpp: get_cell_data_larger", "core/src/legacy/CopyGhostBlockCellData.cpp: get_cell_data_smaller", "core/src/legacy/CopyGhostBlockCellData.cpp: get_cell_data_border", "core/src/legacy/CopyGhostBlockCellData.cpp: fill_ghosts", "core/src/legacy/CopyInnerBlockCellData.h", "core/src/legacy/utils_block.h: index_to_coord"]}
{"id": "C84", "title": "The block-based update conserves and keeps uniform flow", "statement": "In a periodic domain or a box with reflecting walls, without gravity, a step of HydroUpdate_legacy leaves the sums of mass, energy and momentum along periodic directions over all cells as they were. A uniform flow stays as it is. States at faces lie between the values of the cell and its neighbours. Gravity changes momentum by acceleration times mean density times time step and leaves internal energy alone.", "quantifier": "all meshes, block sizes, mesh data, time steps, limiters, Riemann solvers (HLLC at walls)", "why_tests_cant": "rounding hides a small loss of conservation in tests, and conservation depends on pairs of faces that are computed independently by different blocks, which only agree if all ghost cells and reconstructions agree", "anchors": ["core/src/legacy/MusclBlockGodunovUpdateFunctor.h: slope_unsplit_scalar", "core/src/legacy/MusclBlockGodunovUpdateFunctor.h: reconstruct_state", "core/src/legacy/MusclBlockGodunovUpdateFunctor.h: compute_fluxes_and_update_2d", "core/src/legacy/MusclBlockGodunovUpdateFunctor.h: compute_fluxes_and_update_3d_conformal", "core/src/legacy/MusclBlockGodunovUpdateFunctor.h: apply_gravity_correction", "core/src/legacy/ConvertToPrimitivesHydroFunctor.h", "core/src/hydro/HydroUpdate_legacy.cpp: update"]}
{"id": "C85", "title": "The result of a simulation does not depend on the number of ranks", "statement": "Runs of the time loop with the same configuration (initial conditions, hydro steps, AMR cycles, load balancing in any order) end on any number of ranks, with the same mesh, time and values in all cells; the integrals of conserved variables over a periodic domain stay the same.", "quantifier": "all configurations, numbers of ranks, sequences of operations, initial data, block sizes, reconstructions and Riemann solvers", "why_tests_cant": "a run reads ghosts at each step, so one missing ghost or one stale value changes results only on some partitions after some steps; tests compare few runs on few ranks up to rounding", "anchors": ["core/src/DyabloTimeLoop.h: run, step", "core/src/hydro/HydroUpdate_hancock_oneneighbor.cpp: update", "core/src/compute_dt/Compute_dt_hydro.cpp: compute_dt", "core/src/refine_condition/RefineCondition_pseudo_gradient.cpp", "core/src/amr/MapUserData_mean.cpp: remap", "core/src/amr/AMRmesh_hashmap_new.cpp: loadBalance_userdata", "core/src/init/InitialConditions_analytical.h: init"]}
{"id": "C86", "title": "Density stays positive under the time step of the code", "statement": "If the time step is the one of Compute_dt_hydro and density and pressure are positive in all cells, densities are positive after a step of HydroUpdate_euler.", "quantifier": "all balanced meshes of a periodic domain in 2D and 3D, block sizes, gases, Courant numbers and parameters of the Riemann solver", "why_tests_cant": "negative densities appear only for cold gas with certain gradients in all directions and are repaired silently; a test has one gas", "anchors": ["core/src/hydro/HydroUpdate_euler.cpp: update", "core/src/hydro/HydroUpdate_utils.h: compute_slope, reconstruct_lin_state, compute_euler_flux", "core/src/RiemannSolvers.h: riemann_hllc", "core/src/compute_dt/Compute_dt_hydro.cpp: compute_dt"]}
{"id": "C87", "title": "A run restarted from a checkpoint continues like one that was not stopped", "statement": "A checkpoint written in the time loop can be read back on any number of ranks. The restarted run has the same mesh, time, iteration number and values, and has the same ones after every further iteration; it stops at the same iteration.", "quantifier": "all configurations, runs before the checkpoint, numbers of ranks before and after, orders of writing, frequencies of AMR cycles and load balancing, numbers of further iterations", "why_tests_cant": "a restart on another number of ranks has another partition, and AMR cycles are triggered by counters that are not in the file; tests restart once and compare up to rounding", "anchors": ["core/src/io/IOManager_checkpoint.cpp: save_snapshot", "core/src/init/InitialConditions_restart.cpp: init", "core/src/DyabloTimeLoop.h: Interval_trigger, IterationHandler, step, run"]}
{"id": "C88", "title": "The gravity solver exerts no net force on the gas of a periodic box", "statement": "In a periodic box, the forces of the final gradient of the gravity solver on all cells add up to 0, for an exact solution of its equation; for the solution the solver returns their sum is bounded by its accuracy. For a linear potential every cell that does not touch the boundary has exactly the acceleration of this potential.", "quantifier": "all periodic boxes, meshes, blocks, densities, potentials and accuracies", "why_tests_cant": "the net force depends on all cells together and is small against the forces in each cell; a run shows it only as a slow drift of the gas", "anchors": ["core/src/gravity/GravitySolver_cg.cpp: update_gravity_field"]}
{"id": "C89", "title": "The partial exchange brings all cells a solver reads next to its octants", "statement": "The face mask with which an octant is sent to another rank has exactly the faces through which the directions to octants of that rank first leave it. After an exchange of gc layers at these faces, a rank sees the owner's value in every cell of another octant that is fewer than gc cells away from one of its own octants, behind faces, edges, corners and the periodic boundary, at any time of a run; each solver reads no further than the ghost count chosen for it.", "quantifier": "all grids, refined meshes, distributions over ranks, block sizes, ghost counts and data that occur in a run", "why_tests_cant": "whether a cell is missing depends on the mesh, the partition and the single face chosen for an edge or corner; the missing cells keep old values that are nearly right", "anchors": ["core/src/amr/AMRmesh_hashmap_new.cpp: discover_ghosts", "core/src/mpi/GhostCommunicator_partial_blocks.cpp: precompute_facemask_cells", "core/src/DyabloTimeLoop.h: ghost_count"]}
{"id": "C90", "title": "The gravity solver gives the same field on any number of ranks", "statement": "At any time of a run, the potential and accelerations that the conjugate gradient solver leaves in the cells of all ranks are those of the same iteration on the whole mesh: they do not depend on the number of ranks, on the load balancing, or on what ghosts and new arrays contained before. The solver ends on ranks, with the requested accuracy.", "quantifier": "all grids, refined meshes, distributions over ranks, block sizes, densities, old potentials, ghost contents and accuracies", "why_tests_cant": "one missing layer of one ghost changes the residual the solver believes in and every later iteration; the result is a plausible potential that solves another equation", "anchors": ["core/src/gravity/GravitySolver_cg.cpp: update_gravity_field", "core/src/DyabloTimeLoop.h: step"]}
{"id": "C91", "title": "The block-based hydro solvers give the same result on any number of ranks", "statement": "At any time of a run, a step of HydroUpdate_hancock, HydroUpdate_euler or HydroUpdate_RK2 with the ghost layers that the time loop exchanges leaves in the cells of all ranks what the same solver on the whole mesh leaves there. It does not depend on the number of ranks, on the load balancing or on what ghosts contained before.", "quantifier": "all grids, refined meshes, distributions over ranks, even block sizes of at least 4, states, ghost contents, fluxes, boundary values and time steps", "why_tests_cant": "patches reach two cells beyond a block, which are four layers of smaller cells; one layer too few gives plausible fluxes that depend on the partition", "anchors": ["core/src/DyabloTimeLoop.h: DyabloTimeLoop, step", "core/src/hydro/HydroUpdate_hancock.cpp: update_aux", "core/src/hydro/HydroUpdate_euler.cpp: update_aux", "core/src/hydro/HydroUpdate_RK2.cpp: update_aux, rk_update, rk_correct", "core/src/hydro/CopyGhostBlockCellData.h: copyGhostBlockCellData"]}
{"id": "C92", "title": "Particles move the same way on any number of ranks", "statement": "At any time of a run, with particles on the ranks of their octants: projection of their mass on the mesh, gravity, move and distribution over ranks give the density, potential, accelerations and particles that the same cycle gives on the whole mesh, and leave every particle on the rank of its octant; no particle and no mass is lost. The result does not depend on the number of ranks, on the load balancing, on the order of particles and of atomic additions, or on what ghosts contained before.", "quantifier": "all grids with a full cube of coarse octants, refined meshes, distributions over ranks, even block sizes, densities, particles, orders of additions, ghost contents and time steps", "why_tests_cant": "a particle beside a rank boundary writes to and reads from ghosts; tests with particles use one rank and a cubic box, and lost or doubled contributions at rank boundaries change the density of a few cells only", "anchors": ["core/src/DyabloTimeLoop.h: DyabloTimeLoop, step", "core/src/particles/ParticleUpdate_NGP_density.cpp: update", "core/src/particles/ParticleUpdate_CIC_density.cpp: update_aux", "core/src/particles/ParticleUpdate_NGP_move.cpp: update", "core/src/particles/ParticleUpdate_CIC_move.cpp: update_aux", "core/src/particles/ForeachParticle.h: distribute", "core/src/amr/LightOctree_hashmap.h: getDomainFromPos", "core/src/mpi/GhostCommunicator_partial_blocks.h: reduce_ghosts"]}
{"id": "C93", "title": "A run with gas, self-gravity and particles gives the same result on any number of ranks", "statement": "Two runs of the time loop with the same configuration, initial state and sequence of iterations, AMR cycles and load balancing, on different numbers of ranks, with initial particles created on any ranks, any order of atomic additions and any contents of new arrays, that both end, end with the same leaves, time, field values in all cells and particles. If a run ends on P ranks, it ends on one rank. At the end every particle is on the rank of its octant and no particle and no particle mass is lost; in a periodic box the mass of the gas is that of the start.", "quantifier": "all configurations (hydro solver, viscosity, conduction and cooling, projection and motion of particles, refinement criteria, Poisson sources), grids with a full cube of coarse octants, numbers of ranks, initial particles, lengths and sequences of steps", "why_tests_cant": "the modules are tested one at a time, on one rank or two; that a field written by one module is what the next one reads, in ghosts too, depends on the order of exchanges in the time loop and shows only where particles, refinement and rank boundaries meet", "anchors": ["core/src/DyabloTimeLoop.h: DyabloTimeLoop, step", "core/src/hydro/HydroUpdate_hancock_oneneighbor.cpp: update_aux", "core/src/hydro/HydroUpdate_RK2.cpp: update_aux", "core/src/gravity/GravitySolver_cg.cpp: update_gravity_field", "core/src/particles/ParticleUpdate_CIC_density.cpp: update_aux", "core/src/particles/ParticleUpdate_CIC_move.cpp: update_aux", "core/src/particles/ForeachParticle.h: distribute", "core/src/UserData.h: exchange_loadbalance"]}
{"id": "C94", "title": "The older block-based hydro solver gives the same result on any number of ranks", "statement": "At any time of a run, HydroUpdate_legacy with the ghost layers that the time loop exchanges computes on every rank, in all cells of its octants, what it computes on the whole mesh. The result does not depend on the number of ranks, the load balancing, what ghosts contained before, or what the group arrays contained before (hence on the number of octants per group).", "quantifier": "all grids, refined meshes, distributions over ranks, even block sizes of at least 4, boundary conditions, states, ghost and group array contents, gravity types, slope types, Riemann solvers and time steps", "why_tests_cant": "the wrong values appear only next to smaller octants of other ranks and only if the ghosts contain old values; they look like a slightly different slope", "anchors": ["core/src/DyabloTimeLoop.h: DyabloTimeLoop, step", "core/src/hydro/HydroUpdate_legacy.cpp: update", "core/src/legacy/CopyGhostBlockCellData.cpp: fill_ghosts", "core/src/legacy/MusclBlockGodunovUpdateFunctor.h: process_axis, compute_slopes"]}
{"id": "C95", "title": "The older refinement criterion marks by the relative second differences of the whole mesh, on any ranks", "statement": "mark_cells of RefineCondition_legacy never writes behind its arrays and sets, for every octant of the rank, the marker 1 exactly if the octant is below the finest level and the relative second difference of density or pressure is above error_max in some cell of its block along some direction, and -1 exactly if it is above the coarsest level and no cell is above error_min or error_max. The values in and around the block are those of the whole mesh (means over cells, mirrored at walls). The markers do not depend on the number of ranks, on the octants per group, on what the group arrays and ghosts contained, or on the order of the threads.", "quantifier": "all grids, refined meshes, distributions over ranks, even block sizes of at least 4, boundary conditions other than user, states, thresholds, group sizes, array contents, thread schedules; at most as many ranks as coarse octants, block with ghosts and octants plus group size within 32 bits", "why_tests_cant": "group sizes, thread orders and the distribution over ranks are fixed in a test; a marker that depends on them only shows as a slightly different mesh later", "anchors": ["core/src/refine_condition/RefineCondition_legacy.cpp: mark_cells", "core/src/legacy/MarkOctantsHydroFunctor.cpp: second_derivative_error, apply, push_back, set_markers_pablo", "core/src/legacy/ConvertToPrimitivesHydroFunctor.h: cons2prim", "core/src/DyabloTimeLoop.h: run"]}
{"id": "C96", "title": "The older time step is the Courant limit of the whole mesh", "statement": "Compute_dt_legacy gives, for any values of the cells, a positive time step that is at most cfl over the sum of (sound speed + speed)/dx of any cell of the mesh, with the floors of the solver, and equal to it for some cell (or cfl over the smallest positive number, where the reduction starts, if all are below that). It does not depend on the number of ranks or on the order of the threads. The sum of wave speed times dt/dx with the dt/dx of the solver HydroUpdate_legacy is at most cfl in every cell.", "quantifier": "all grids, refined meshes, distributions over ranks, states (negative density or energy too), domain sizes, reductions; at most as many ranks as coarse octants", "why_tests_cant": "an error of the limit shows as noise or an instability much later, if at all; no test or settings file of the repository selects Compute_dt_legacy", "anchors": ["core/src/compute_dt/Compute_dt_legacy.cpp: compute_dt", "core/src/legacy/ComputeDtHydroFunctor.h: apply, init, join", "core/src/utils_hydro.h: computePrimitives", "core/src/legacy/MusclBlockGodunovUpdateFunctor.h: compute_fluxes_and_update_2d_non_conservative"]}
{"id": "C97", "title": "The well-balanced option keeps a gas at rest in equilibrium", "statement": "With hydro/well_balanced and constant gravity (constant_scalar or constant_field) a step of HydroUpdate_euler leaves a gas at rest whose pressure balances its weight as it is, whatever the time step and the conditions at the boundaries. No mass crosses the boundaries of the domain.", "quantifier": "all grids, refined meshes, block sizes, domain sizes, directions and strengths of gravity, densities, equilibrium pressures, boundary values, time steps", "why_tests_cant": "the defect of a scheme that nearly keeps an equilibrium is of the order of the truncation error and looks like physical convection; a test of one atmosphere does not show for which atmospheres and meshes it is exactly 0", "anchors": ["core/src/hydro/HydroUpdate_utils.h: compute_euler_flux", "core/src/hydro/HydroUpdate_utils.h: euler_update", "core/src/hydro/HydroUpdate_euler.cpp: update", "core/src/RiemannSolvers.h: riemann_hllc"]}
{"id": "C98", "title": "Cosmological initial conditions are those of the GRAFIC files", "statement": "For GRAFIC files in either byte order that agree with the configuration, every cell starts with the density, velocity and pressure of the values of the files at its position, in the units of the code. The constructor leaves the parameters of the file in the configuration: the mesh, the start of the expansion, the cosmology used by CosmoManager, and mass thresholds for refinement that are the mean mass of a cell times the given factors. Gas and particles together have the mean density 1.", "quantifier": "all files, headers, byte orders, configurations, block sizes, grids, domains, contrasts and velocities, numbers of ranks", "why_tests_cant": "the files are some gigabytes large and are made by another program; an error of a factor, of the order of the indices or in the cosmology shows only in the statistics of a long run", "anchors": ["core/src/init/InitialConditions_grafic_fields.cpp: InitialConditions_grafic_fields", "core/src/init/InitialConditions_grafic_fields.cpp: init", "core/src/utils/io/FortranBinaryReader.h: read_record", "core/src/init/InitialConditions_particle_grid.cpp: InitialConditions_particle_grid", "core/src/Cosmo.h: CosmoManager"]}
{"id": "C99", "title": "Temporary fields of a time step do not outlive it and do not mix up solvers", "statement": "For all settings of gravity, hydro solver, particles and refinement that fit the fields of the run, and whatever the solvers compute, a step of the time loop goes through without exception. Afterwards the fields are those of the run and of gravity, no temporary field (rho_g, rho_bak, *_next) is left, and every field has the value that the solvers give it one after the other: gravity is that of gas and particles, the gas solver sees the density of the gas alone, viscosity, conduction and cooling add to the new state, and the refinement criterion sees the new density of gas and particles. The same holds for runs of any length.", "quantifier": "all settings, solvers (any functions of the arrays they ask for), fields, states, numbers of steps, AMR cycles and load balancing steps", "why_tests_cant": "a field that is renamed to the wrong slot gives values of the right kind; a leftover field is found only when slots run out or when it is created again", "anchors": ["core/src/DyabloTimeLoop.h: step", "core/src/DyabloTimeLoop.h: run", "core/src/UserData_fields.h: move_field", "core/src/UserData_fields.h: new_fields", "core/src/UserData_fields.h: getAccessor", "core/src/gravity/GravitySolver_constant.cpp: update_gravity_field", "core/src/refine_condition/RefineCondition_mass.cpp: mark_cells"]}
{"id": "C100", "title": "A cosmological run ends at its final expansion factor", "statement": "With t_end_var=aexp the expansion factor never passes tEnd, the last step ends there, every step goes forward in time, and with Compute_dt_cosmology the expansion factor grows by at most the factor da in a step.", "quantifier": "all open or flat universes with matter, tables, final expansion factors, results of the other time step kernels, times of interruption, starts within the table", "why_tests_cant": "the end of a run is reached after thousands of steps and a small overshoot or a last step backward does not show in the output; all combinations of table and end cannot be run", "anchors": ["core/src/DyabloTimeLoop.h: IterationHandler", "core/src/DyabloTimeLoop.h: step", "core/src/Cosmo.h: CosmoManager", "core/src/compute_dt/Compute_dt_cosmology.cpp: compute_dt"]}
{"id": "C101", "title": "Collective operations give all ranks the results of MPI", "statement": "Every collective operation of MpiComm gives every rank what its name says and writes nothing else: reductions over all ranks (or over the ranks up to the own one) with the operator that is named, gathered and exchanged elements in the order of the ranks. This holds with the same buffer for both arguments where that is allowed, and with one process in the build without MPI.", "quantifier": "all numbers of ranks, counts, buffers, operators and contents of the memory", "why_tests_cant": "the unit test covers two of the operations for one size; the build without MPI is not tested at all; displacements depend on the counts of all ranks", "anchors": ["core/src/utils/mpi/MpiComm.h: MpiComm", "core/src/utils/mpi/MpiComm_mpi.tpp: MpiComm", "core/src/utils/mpi/MpiComm_single.tpp: MpiComm"]}
{"id": "C102", "title": "The mesh of a run is the one that the configuration asks for", "statement": "For every configuration, either building the mesh reports an error, or the mesh has the dimension, the levels, the coarse grid and the periodic directions that the configuration asks for (with the defaults for keys that are not there), the coarse grid is not empty and lies in the cube of the lowest level, it is flat in 2D, the levels are in order and supported, and the number of coarse octants fits into its type. No value is used that was not set.", "quantifier": "all configurations: dimension, levels, resolutions, boundary types, each present or not", "why_tests_cant": "combinations of present and missing keys; the numbers at the limits of the types need meshes of 2^32 octants", "anchors": ["core/src/amr/AMRmesh.cpp: AMRmesh_impl::parse_parameters", "core/src/DyabloTimeLoop.h: DyabloTimeLoop::init_amr_mesh", "core/src/amr/AMRmesh_hashmap_new.cpp: AMRmesh_hashmap_new, private_init"]}
{"id": "C103", "title": "Kernels see the present mesh", "statement": "Each call of getLightOctree returns a copy of the mesh as it is at that time, whatever sequence of adaptations, refinements, load balancings and calls of getLightOctree came before; its assertions never fail, and the copy is not made again while the mesh is the same.", "quantifier": "all sequences of calls, all meshes, all effects of adaptation and load balancing, all three mesh classes", "why_tests_cant": "orders of calls are unbounded; the assertions compare only numbers of octants, so that an outdated copy of the same size goes unnoticed", "anchors": ["core/src/amr/AMRmesh.h: AMRmesh_impl", "core/src/amr/AMRmesh.cpp: AMRmesh_impl::updateLightOctree, AMRmesh_impl::getLightOctree", "core/src/amr/AMRmesh_hashmap_new.cpp: AMRmesh_hashmap_new::adapt, AMRmesh_hashmap_new::loadBalance"]}
{"id": "C104", "title": "The test problems start from the states of the literature", "statement": "Cells of the Sod and implosion problems get one of the two given states of a gas at rest, on the right side of the interface, and cells that the Sod interface crosses are refined. In each of the 19 two-dimensional Riemann problems the two quadrants at each interface are separated by exactly one elementary wave, of the kind listed by Lax and Liu. The Kelvin-Helmholtz flow has constant pressure, positive density and bounded velocity.", "quantifier": "all positions, all parameters (interface, states, gamma where it is free), all 19 test cases and their four interfaces, all shear flows", "why_tests_cant": "a wrong digit or sign in a table of 304 numbers gives a flow that runs and looks plausible; tests compare with earlier output of the same code", "anchors": ["core/src/init/InitialConditions_sod.cpp: AnalyticalFormula_sod", "core/src/init/InitialConditions_implode.cpp: AnalyticalFormula_implode", "core/src/init/InitialConditions_riemann2d.cpp: AnalyticalFormula_riemann2d::value", "core/src/init/InitialConditions_kelvin_helmholtz.cpp: AnalyticalFormula_KelvinHelmholtz::value"]}
{"id": "C105", "title": "Viscosity, heat conduction and cooling do not depend on the ranks", "statement": "At any time of a run, after one exchange of ghosts before the hydro update, the hydro update followed by the viscous, conductive and cooling terms gives in every cell of every rank the result of the same steps on the whole mesh without ranks; so runs with the same markers on different numbers of ranks agree. Each term adds to the momenta or the energy exactly its right hand side times the time step, and nothing else changes.", "quantifier": "all reachable distributions of octants over ranks, all states, all contents of ghosts, all combinations of the three terms, all schemes of the hydro solvers, all block sizes that are even and at least 4", "why_tests_cant": "the terms read across edges and corners of octants and into smaller octants, after another solver has used the same ghosts; a missing layer shows only at borders of ranks where the level changes", "anchors": ["core/src/DyabloTimeLoop.h: DyabloTimeLoop::step", "core/src/parabolic/ParabolicUpdate_explicit.cpp: ParabolicUpdate_explicit::update_aux", "core/src/parabolic/ParabolicTerm_viscosity.h: compute_rhs", "core/src/parabolic/ParabolicTerm_thermal_conduction.h: compute_rhs", "core/src/cooling/CoolingUpdate_FF.cpp: CoolingUpdate_FF::update"]}
{"id": "C106", "title": "A snapshot shows every cell once, at its place, and does not depend on the ranks", "statement": "The snapshot that is written at any time of a run has one entry for each cell of the mesh: its corners in the order of VTK, and for each variable that is asked for its value, level or number. Runs with the same steps on different numbers of ranks write the same file (except for the variable `rank`); their files of particles have the same rows up to the order.", "quantifier": "all reachable distributions of octants over ranks, all states, 2D and 3D, all block sizes, all orders of the loops and of the writing ranks, all lists of variables", "why_tests_cant": "what a plot shows depends on offsets that are computed on each rank from the octants of the others; an exchange of cells inside a block or at the border of ranks is hardly seen in a picture", "anchors": ["core/src/io/IOManager_hdf5.cpp: IOManager_hdf5::save_snapshot_aux", "core/src/io/IOManager_hdf5.cpp: IOManager_hdf5::save_particles", "core/src/utils/io/HDF5ViewWriter.h: collective_write"]}
{"id": "C107", "title": "Every refinement condition marks the same octants on any number of ranks, as its parameters say, and what it does settles", "statement": "At any time of a run the markers do not depend on the number of ranks, for the conditions pseudo_gradient, mass, downflows and second_derivative. With `mass` an octant is marked for refinement exactly if one of its cells has more than `mass_refine` (and the level allows it), and for coarsening exactly if all have at most `mass_coarsen`; likewise with `downflows` and the velocity. A mesh can be coarsened where there is nothing to see. What one AMR cycle has merged is not marked for refinement, and what it has cut because of its marker is not merged, by the next cycle if the fields stay the same.", "quantifier": "all runs (all orders of steps, all fields, all times), all numbers of ranks, 2D and 3D, all block sizes, all thresholds", "why_tests_cant": "the markers of a run depend on ghosts, on volumes of cells on all levels and on the AMR cycles before; a mesh that changes for ever or never gets coarser only shows as a slow run", "anchors": ["core/src/refine_condition/RefineCondition_mass.cpp: RefineCondition_mass_formula", "core/src/refine_condition/RefineCondition_downflows.cpp", "core/src/refine_condition/RefineCondition_second_derivative_error.cpp: mark_cells", "core/src/refine_condition/RefineCondition_helper.h: mark_cells_aux", "core/src/DyabloTimeLoop.h: refine_condition"]}
{"id": "C108", "title": "Arithmetic on states works on every variable, and states keep their variables in arrays", "statement": "For the six state types (hydrodynamics, MHD, GLM-MHD, conserved and primitive) the operators +, -, *, / with a state or a number on either side give in every member variable the result of the operation on that variable of the operands, and change nothing else. The compound operators do the same to the left hand side, also if both sides are the same object or the number is one of its members, and their value is the left hand side; the same for StateNd. A state that is stored in an array and read again is the same (in 2D with 0 for the third component), every member is stored in the field of its name, other fields are not touched.", "quantifier": "all states, all objects as operands (also the same one), any number type with any four operations, all array contents, 2D and 3D", "why_tests_cant": "the tables of indices are template specialisations, one per member, and a missing or repeated one only shows in the variable it concerns; the unit tests of states use the operators on distinct objects and never use the value of a compound operator", "anchors": ["core/src/states/State_Ops.h: state_foreach_var", "core/src/states/State_Nd.h: operator+=", "core/src/states/State_hydro.h: getConservativeState, setConservativeState, getPrimitiveState, setPrimitiveState", "core/src/states/State_MHD.h: DECLARE_STATE_GET", "core/src/states/State_GLMMHD.h: DECLARE_STATE_GET"]}
{"id": "C109", "title": "Exchange and reduction of the ghosts of named fields concern exactly these fields", "statement": "When all ranks exchange the ghosts of a list of named fields, each of these fields then has in each ghost cell the value that the field with the same name has in the cell of the owner. Local values and the ghosts of the other fields do not change. When all ranks reduce the ghosts of different fields, each cell gets the sum of its value and of the values of the field with that name in all its ghost copies, and nothing else changes. Both hold when the ranks have the fields in different slots.", "quantifier": "all sequences of creations, renamings, deletions, writes and remappings that made the fields on each rank, all lists of up to 32 fields, any number of ranks, any octants sent, all orders of the kernels", "why_tests_cant": "exchange goes through the table of slots of an accessor, one message per field; after deletions and renamings the slots are not in the order of names, and a wrong slot shows only in the ghosts of another field on several ranks", "anchors": ["core/src/mpi/GhostCommunicator_full_blocks.h: exchange_ghosts, reduce_ghosts", "core/src/UserData_fields.h: FieldAccessor", "core/src/DyabloTimeLoop.h: communicate_ghosts", "core/src/particles/ParticleUpdate_CIC_density.cpp: update"]}
{"id": "C110", "title": "Refinement by mass counts the particles: octants are marked by the mass of gas and particles in their cells, on any number of ranks", "statement": "With `RefineCondition_mass` and a projection of particles, at any time of a run an octant is marked for refinement exactly if the level allows it and one of its cells holds more than `mass_refine`, where the mass in a cell is that of its gas and of all particles in its box, on whatever rank they are; and for coarsening exactly if no cell holds more than `mass_coarsen`. The next AMR cycle cuts the octants that are marked for refinement. Runs with this condition do not depend on the number of ranks nor on the order of atomic additions, and conserve mass: the projected density leaves nothing in the gas.", "quantifier": "all runs (all orders of iterations, AMR cycles and load balancing, all fields, all particles), all numbers of ranks, all orders of additions, all thresholds", "why_tests_cant": "the projection uses atomic additions and, for cloud in cell, ghosts on other ranks; a marker that is wrong on one rank only gives another mesh", "anchors": ["core/src/refine_condition/RefineCondition_mass.cpp: mark_cells", "core/src/refine_condition/RefineCondition_mass.cpp: getMarker", "core/src/refine_condition/RefineCondition_helper.h: mark_cells_aux", "core/src/particles/ParticleUpdate_NGP_density.cpp: update", "core/src/particles/ParticleUpdate_CIC_density.cpp: update", "core/src/DyabloTimeLoop.h: step"]}
{"id": "C111", "title": "Runs with the older refinement criterion depend neither on the ranks nor on the groups of octants", "statement": "With `RefineCondition_legacy` in the time loop: in every state of a run, `mark_cells` gives the markers of the gas of the whole mesh (the relative second differences of density and pressure of C95), whatever the groups, the order of the threads and the contents of new arrays. The next AMR cycle cuts each octant below the finest level with a cell above `error_max`. Two runs with different numbers of ranks, sizes of groups and orders of threads end with the same mesh, time and values; a run that ends on several ranks ends on one. In a periodic box the integrals of density, momentum and energy stay.", "quantifier": "all runs (all orders of hydro steps, AMR cycles and load balancing, all fields), all numbers of ranks, all sizes of groups, all orders of threads, all thresholds", "why_tests_cant": "the markers go through arrays that are reused from group to group, ghosts from other ranks and a list with atomic insertion; a wrong marker on one rank only gives another mesh later", "anchors": ["core/src/refine_condition/RefineCondition_legacy.cpp: mark_cells", "core/src/legacy/MarkOctantsHydroFunctor.h: apply", "core/src/DyabloTimeLoop.h: step"]}
{"id": "C112", "title": "Cloud in cell gives each cell the part of the cloud that lies in it", "statement": "The cloud of a particle is a box of the size of its cell around the particle, continued through periodic boundaries. Every cell gets the mass of the part of the cloud that lies in it: its density grows by the mass of the particle, times the overlap of cloud and cell relative to the cloud, divided by the volume of the cell. The acceleration of a particle is the mean, over its cloud, of the acceleration of the cells.", "quantifier": "all meshes, all periodic boxes, all block sizes, all lists of particles, all cells and fields", "why_tests_cant": "C53 gives the total mass only; a share that goes to the wrong neighbour, or to the cell across the wrong periodic boundary, leaves every total right and changes forces by little", "anchors": ["core/src/particles/ParticleUpdate_CIC_density.cpp: update_aux", "core/src/particles/ParticleUpdate_CIC_move.cpp: update_aux"]}
{"id": "C113", "title": "The cosmological time is that of the Friedmann equation", "statement": "The time that the code assigns to an expansion factor (table of expansion factors and times, time step for a growth of the expansion factor) solves the Friedmann equation for matter, curvature and a cosmological constant, in the units of the code: physical time divided by the square of the expansion factor, in units of 2/(H0 sqrt(omega_m)). It uses the expansion rate with which the initial displacements of particles are computed.", "quantifier": "all open and flat models with matter, all expansion factors; real arithmetic, the exact integral in place of Romberg's approximation (C61)", "why_tests_cant": "a wrong power in the integrand gives a smooth, increasing table that is zero at a = 1 as it should be; runs look plausible and differ from the right ones by a slightly shifted time", "anchors": ["core/src/Cosmo.h: integrate_da_dt, computeFLM, static_compute_cosmo_dt", "core/src/init/InitialConditions_particle_grid.cpp: eta"]}
{"id": "C114", "title": "Particles start where their velocities say", "statement": "In linear theory the displacement of a particle from its site grows like the growing solution of the equation of small perturbations. The default `dt_perturb` of `particle_grid` turns the velocity of a particle into this displacement, for the expansion law of the model asked for and in the time of the code, without a division by zero.", "quantifier": "all open and flat models with matter, all expansion factors, all displacements; real arithmetic", "why_tests_cant": "a wrong growth rate shifts all particles a little too far or not far enough; structures form slightly early or late, which no short test notices", "anchors": ["core/src/init/InitialConditions_particle_grid.cpp: constructor"]}
