{
 "claims": [
  {
   "property": "C01",
   "status": "proved",
   "theorems": [
    "Verif.Morton.C01_extract3_mortonKey3",
    "Verif.Morton.C01_extract2_mortonKey2",
    "Verif.Morton.C01_mortonKey3_injective",
    "Verif.Morton.C01_mortonKey2_injective",
    "Verif.Morton.C01_mortonKey3_extract3",
    "Verif.Morton.C01_bound_needed"
   ],
   "note": "bit-exact 64-bit model; bound 2^21 in 3D is shown necessary"
  },
  {
   "property": "C02",
   "status": "proved",
   "theorems": [
    "Verif.Morton.C02_computeMorton_fine",
    "Verif.Morton.C02_computeMorton_coarse",
    "Verif.Morton.C02_descendant_iff_interval",
    "Verif.Morton.C02_monotone",
    "Verif.Morton.mortonKey3_toNat",
    "Verif.Morton.mortonKey2_toNat"
   ],
   "note": "machine keys equal the Nat Z-order key for levels up to 21"
  },
  {
   "property": "C03",
   "status": "proved",
   "theorems": [
    "Verif.Octree.C03_octant_numbering_bijective"
   ],
   "note": "no 32-bit overflow of octant counts"
  },
  {
   "property": "C04",
   "status": "proved",
   "theorems": [
    "Verif.Octree.C04_getiOctFromPos_correct"
   ],
   "note": "exact arithmetic for floor(pos/size)"
  },
  {
   "property": "C05",
   "status": "proved",
   "theorems": [
    "Verif.Octree.C05_findNeighbors_exact",
    "Verif.Octree.C05_findNeighbors_self",
    "Verif.Octree.C05_findNeighbors_empty_iff",
    "Verif.Octree.C05_balance_needed"
   ],
   "note": "whole-mesh lookup (local and ghost octants present)"
  },
  {
   "property": "C06",
   "status": "proved",
   "theorems": [
    "Verif.Octree.C06_neighbors_symmetric",
    "Verif.Octree.C06_face_neighbors_reverse"
   ],
   "note": "opposite direction leads back for faces; at edges and corners only some direction does"
  },
  {
   "property": "C07",
   "status": "partial",
   "theorems": [
    "Verif.Partition.C07_owner_of_position_partial",
    "Verif.Partition.C07_partial_coarse_grid_fails"
   ],
   "note": "holds when the coarse grid is the full cube and every rank holds octants; for other coarse grids the code returns a wrong rank (counterexample proved)"
  },
  {
   "property": "C08",
   "status": "partial",
   "theorems": [
    "Verif.Partition.C08_initial_mesh_partial",
    "Verif.Partition.C08_initial_intervals_partial",
    "Verif.Partition.C08_uint32_overflow_fails"
   ],
   "note": "holds when the number of coarse octants is below 2^32; beyond, the 32-bit product wraps (counterexample proved)"
  },
  {
   "property": "C09",
   "status": "proved",
   "theorems": [
    "Verif.Adapt.C09_marker_correction_terminates"
   ],
   "note": "on balanced tilings with complete ghost layers (C18) and target levels >= 1 (level_min >= 1); explicit bound on the number of passes"
  },
  {
   "property": "C10",
   "status": "proved",
   "theorems": [
    "Verif.Adapt.C10_result_is_least_correction",
    "Verif.Adapt.C10_stops_only_at_least_correction",
    "Verif.Adapt.C10_decomposition_independent",
    "Verif.Adapt.C10_any_sweep_order"
   ],
   "note": "same preconditions as C09; any_sweep_order allows arbitrary orders and stale reads"
  },
  {
   "property": "C100",
   "status": "partial",
   "theorems": [
    "Verif.TimeLoop.C100_run_partial",
    "Verif.TimeLoop.C100_steps",
    "Verif.TimeLoop.C100_growth",
    "Verif.TimeLoop.C100_ends",
    "Verif.TimeLoop.C100_backward_fails",
    "Verif.TimeLoop.C100_two_universes_fails"
   ],
   "note": "proved with the integral in place of its Romberg approximation: the time of tEnd is not passed, steps below tEnd go forward, the expansion factor does not pass the first table entry from tEnd on (C100_run_partial), nor the first one from da times the present factor on (C100_growth), and the run ends without reading outside of the table (C100_ends). False: a last step backward in time after passing tEnd, for every tEnd between two entries (C100_backward_fails); overshoot if omegam and omega_m differ (C100_two_universes_fails)"
  },
  {
   "property": "C101",
   "status": "partial",
   "theorems": [
    "Verif.Comm.Collectives.C101_allreduce",
    "Verif.Comm.Collectives.C101_scan",
    "Verif.Comm.Collectives.C101_allgather",
    "Verif.Comm.Collectives.C101_allgatherv",
    "Verif.Comm.Collectives.C101_alltoallv",
    "Verif.Comm.Collectives.C101_alltoall",
    "Verif.Comm.Collectives.C101_bcast",
    "Verif.Comm.Collectives.C101_large_fails",
    "Verif.Comm.Collectives.C101_single_partial",
    "Verif.Comm.Collectives.C101_single_bcast",
    "Verif.Comm.Collectives.C101_single_allreduce_fails"
   ],
   "note": "proved for the build with MPI and less than 2^31 elements per rank; what MPI does with given counts and displacements is taken from its standard. False: 2^31 elements or more (C101_large_fails); in the build without MPI the last element is never copied (C101_single_allreduce_fails, C101_single_partial), and four operations have no definition. Types of elements are not modelled"
  },
  {
   "property": "C102",
   "status": "partial",
   "theorems": [
    "Verif.Front.C102_partial",
    "Verif.Front.C102_accepts",
    "Verif.Front.C102_grid",
    "Verif.Front.C102_periodic",
    "Verif.Front.C102_missing_fails",
    "Verif.Front.C102_levels_fails",
    "Verif.Front.C102_supported_fails",
    "Verif.Front.C102_count_fails",
    "Verif.Front.C102_zero_fails",
    "Verif.Front.C102_depth_fails",
    "Verif.Front.C102_boundary_fails",
    "Verif.Front.C102_small_fails"
   ],
   "note": "proved for configurations that have levels or resolutions, with levels up to 20, positive sizes, the same periodicity on both sides and less than 2^32 coarse octants (C102_partial); C102_accepts says which of them are accepted, C102_grid connects the mesh with the other theorems. False without these: missing keys give a mesh from uninitialised values, levels are cut to 8 bits and not limited, sizes may be 0, the number of octants overflows, one periodic side is enough"
  },
  {
   "property": "C103",
   "status": "proved",
   "theorems": [
    "Verif.Front.C103_light_octree",
    "Verif.Front.C103_no_rebuild"
   ],
   "note": "less than 2^31 changes of the mesh. What adaptation and load balancing do is arbitrary here; that each of them counts up once is read from the code"
  },
  {
   "property": "C104",
   "status": "proved",
   "theorems": [
    "Verif.Init.Problems.C104_sod",
    "Verif.Init.Problems.C104_sod_refine",
    "Verif.Init.Problems.C104_implode",
    "Verif.Init.Problems.C104_riemann",
    "Verif.Init.Problems.C104_riemann_pos",
    "Verif.Init.Problems.C104_test_case",
    "Verif.Init.Problems.C104_shear"
   ],
   "note": "exact arithmetic; waves for gamma = 7/5 (the default) and up to a relative error of 1/200, as the tables have four digits. The refinement by auto_refine is C68"
  },
  {
   "property": "C105",
   "status": "proved",
   "theorems": [
    "Verif.Sim.C105_terms_of_the_mesh",
    "Verif.Sim.C105_stage_of_the_mesh",
    "Verif.Sim.C105_rk2_of_the_mesh",
    "Verif.Sim.C105_independent_of_ranks",
    "Verif.Sim.C105_defined",
    "Verif.Sim.C105_adds",
    "Verif.Sim.C105_one_layer_fails"
   ],
   "note": "exact arithmetic; explicit parabolic update. C105_one_layer_fails: with one layer of ghosts the viscous force would differ. That conduction conserves energy is C50, that viscosity does not at level jumps is C64"
  },
  {
   "property": "C106",
   "status": "partial",
   "theorems": [
    "Verif.Sim.C106_same_file_partial",
    "Verif.Sim.C106_same_run_partial",
    "Verif.Sim.C106_world_partial",
    "Verif.Sim.C106_shows_partial",
    "Verif.Sim.C106_particles",
    "Verif.Sim.C106_names",
    "Verif.Sim.C106_overflow_fails",
    "Verif.Sim.C106_blanks_fail"
   ],
   "note": "exact arithmetic; the `.xmf` files are not modelled. Partial: needs fewer than 2^32 nodes and entries of the connectivity on a rank (C106_overflow_fails: from 2^29 cells on a rank in 3D the connectivity is wrong), and names without blanks (C106_blanks_fail)"
  },
  {
   "property": "C107",
   "status": "partial",
   "theorems": [
    "Verif.Sim.C107_marks_independent_of_ranks",
    "Verif.Sim.C107_pseudo_gradient",
    "Verif.Sim.C107_mass",
    "Verif.Sim.C107_downflows",
    "Verif.Sim.C107_second_derivative",
    "Verif.Sim.C107_mass_settles",
    "Verif.Sim.C107_downflows_settles",
    "Verif.Sim.C107_second_derivative_never_coarsens",
    "Verif.Sim.C107_mass_close_thresholds_alternate"
   ],
   "note": "exact arithmetic; the condition `legacy` is C95. C107_second_derivative: next to smaller cells with the mean over the box beside a cell, at the boundary with the value there, for any rule of boundary values. The negation of two parts is proved: with second_derivative, the default, no run ever coarsens (C107_second_derivative_never_coarsens); thresholds of masses closer than 2^d are accepted and the mesh never settles (C107_mass_close_thresholds_alternate)"
  },
  {
   "property": "C108",
   "status": "partial",
   "theorems": [
    "Verif.States.C108_state_state",
    "Verif.States.C108_state_number",
    "Verif.States.C108_number_state",
    "Verif.States.C108_compound_state",
    "Verif.States.C108_compound_number",
    "Verif.States.C108_compound_own_member",
    "Verif.States.C108_compound_agrees",
    "Verif.States.C108_stored_and_read",
    "Verif.States.C108_read_completely",
    "Verif.States.C108_fields_of_members",
    "Verif.States.C108_store_keeps_others",
    "Verif.States.C108_mixed_types",
    "Verif.States.C108_nd",
    "Verif.States.C108_nd_compound_partial",
    "Verif.States.C108_nd_compound_value",
    "Verif.States.C108_primitive_names"
   ],
   "note": "no assumption on the arithmetic. The negation of two parts is proved: the value of a compound operator on StateNd is 0 (C108_nd_compound_value), and getFieldsInfo of PrimHydroState names pressure and velocity like energy and momentum (C108_primitive_names); neither is used by the code at present"
  },
  {
   "property": "C109",
   "status": "proved",
   "theorems": [
    "Verif.Comm.C109_exchange",
    "Verif.Comm.C109_reduce",
    "Verif.Comm.C109_reduce_twice_fails"
   ],
   "note": "the fields are those of C27 (no field renamed to itself), the exchange of one view is that of C19 and C20. The names of a reduction must be different, which the code does not check (C109_reduce_twice_fails)"
  },
  {
   "property": "C11",
   "status": "partial",
   "theorems": [
    "Verif.Adapt.C11_refine_honoured_coarsen_all_or_nothing_partial",
    "Verif.Adapt.C11_unmarked_octant_coarsened_fails"
   ],
   "note": "holds when target levels are >= 1; for level_min = 0 unsigned wrap-around coarsens an unmarked octant (counterexample proved)"
  },
  {
   "property": "C110",
   "status": "partial",
   "theorems": [
    "Verif.Sim.C110_marks_partial",
    "Verif.Sim.C110_refines_partial",
    "Verif.Sim.C110_marks_cloud_partial",
    "Verif.Sim.C110_refines_cloud_partial",
    "Verif.Sim.C110_same_result_partial",
    "Verif.Sim.C110_serial_partial",
    "Verif.Sim.C110_mass_partial"
   ],
   "note": "exact arithmetic, 3D. The markers are given cell by cell for nearest grid point; with cloud in cell for states in which no cloud reaches into a cell smaller than that of its particle (otherwise the masses are others, C112), with the mass of the part of each cloud in the cell. Coarse grids that are not full cubes are left out, as in C92 and C93; mass not with HydroUpdate_hancock (C75)"
  },
  {
   "property": "C111",
   "status": "proved",
   "theorems": [
    "Verif.Legacy.C111_other_steps",
    "Verif.Legacy.C111_marks",
    "Verif.Legacy.C111_refines",
    "Verif.Legacy.C111_same_result",
    "Verif.Legacy.C111_serial",
    "Verif.Legacy.C111_conserved"
   ],
   "note": "exact arithmetic. Blocks of at least 4 cells, even; boundaries that are not user defined; conservation in periodic boxes, of what is not changed after the fluxes (gravity, floors). That a run ends on several ranks is a hypothesis, as in C85 (disagreement there: families split by load balancing)"
  },
  {
   "property": "C112",
   "status": "partial",
   "theorems": [
    "Verif.Particles.C112_density_reach_partial",
    "Verif.Particles.C112_acceleration_reach_partial",
    "Verif.Particles.C112_density_partial",
    "Verif.Particles.C112_acceleration_partial",
    "Verif.Particles.C112_density_fails",
    "Verif.Particles.C112_face_fails"
   ],
   "note": "proved for particles whose cloud reaches into no smaller cell, with blocks of even sizes or one cell (`_reach_partial`); for all blocks if no cell around the cell of the particle is smaller (through periodic boundaries too); clouds may reach into larger cells. False for clouds in smaller cells (`C112_density_fails`, across a face `C112_face_fails`, disagreement 34). 3D, exact arithmetic"
  },
  {
   "property": "C113",
   "status": "partial",
   "theorems": [
    "Verif.Cosmo.C113_matter_partial",
    "Verif.Cosmo.C113_exact",
    "Verif.Cosmo.C113_constant_fails",
    "Verif.Cosmo.C113_initial_rate"
   ],
   "note": "proved without cosmological constant (C113_matter_partial). False with one: expansion up to a = 1 takes less time than it should (C113_constant_fails). The code solves the equation for something whose density falls like 1/a in place of the constant (C113_exact), while the initial displacements of particles use the constant (C113_initial_rate). Exact integral, real arithmetic"
  },
  {
   "property": "C114",
   "status": "partial",
   "theorems": [
    "Verif.Cosmo.C114_growing",
    "Verif.Cosmo.C114_rate",
    "Verif.Cosmo.C114_rate_pos",
    "Verif.Cosmo.C114_small",
    "Verif.Cosmo.C114_displacement_partial",
    "Verif.Cosmo.C114_trapezoid",
    "Verif.Cosmo.C114_rate_trapezoid",
    "Verif.Cosmo.C114_code_partial"
   ],
   "note": "proved with the exact integral: the function of the code solves the equation of small perturbations (C114_growing), fomega is its logarithmic derivative and positive, also where the code treats omegam = 1 by itself (C114_rate, C114_rate_pos), and displacements are velocities times dt_perturb (C114_displacement_partial). The solution vanishes at the beginning (C114_small). The 1000 trapezoids of the code give the solution up to 1/800 of it and the rate up to 1/799 of the rate plus 3/2, if 2 omegav a^3 <= omegam (C114_trapezoid, C114_rate_trapezoid). It follows a bound of the error of the displacements (C114_code_partial). Missing: these bounds for later starts, and a lower bound of the rate of the code, by which it divides. Expansion by the constant, not by the table of the code (C113)"
  },
  {
   "property": "C12",
   "status": "proved",
   "theorems": [
    "Verif.Adapt.C12_adapt_preserves_balance"
   ],
   "note": "same preconditions as C09"
  },
  {
   "property": "C13",
   "status": "partial",
   "theorems": [
    "Verif.Adapt.C13_adapt_preserves_tiling_partial",
    "Verif.Adapt.C13_coarsen_to_level_zero_fails",
    "Verif.Adapt.quadMesh_tiling"
   ],
   "note": "holds when target levels are >= 1; for level_min = 0 coarsening to level 0 loses the mesh (counterexample proved)"
  },
  {
   "property": "C14",
   "status": "proved",
   "theorems": [
    "Verif.Adapt.C14_storage_filled_exactly",
    "Verif.Adapt.C14_morton_order",
    "Verif.Adapt.C14_global_numbering"
   ],
   "note": "any order of parallel writes"
  },
  {
   "property": "C15",
   "status": "proved",
   "theorems": [
    "Verif.Adapt.C15_levels_in_range"
   ],
   "note": ""
  },
  {
   "property": "C16",
   "status": "proved",
   "theorems": [
    "Verif.Partition.C16_loadBalance_permutes"
   ],
   "note": "rank 0 holds octants before load balancing and there are at least as many octants as ranks (the code aborts otherwise)"
  },
  {
   "property": "C17",
   "status": "proved",
   "theorems": [
    "Verif.Partition.C17_even_without_compaction",
    "Verif.Partition.C17_groups_kept_together",
    "Verif.Partition.C17_no_group_split"
   ],
   "note": "same preconditions as C16"
  },
  {
   "property": "C18",
   "status": "partial",
   "theorems": [
    "Verif.Partition.C18_ghost_ranks_exact",
    "Verif.Partition.C18_ghost_layer_complete",
    "Verif.Partition.C18_adapt_intervals_partial",
    "Verif.Partition.C18_rank_emptied_by_adapt_fails",
    "Verif.Partition.C18_empty_rank0_fails"
   ],
   "note": "exact for all intervals that cut the mesh; adapt computes such intervals unless a rank loses all octants or rank 0 is empty (counterexamples proved)"
  },
  {
   "property": "C19",
   "status": "proved",
   "theorems": [
    "Verif.Comm.C19_exchange_packed",
    "Verif.Comm.C19_exchange_contiguous",
    "Verif.Comm.C19_ghost_count",
    "Verif.Comm.ofMap_realises",
    "Verif.Comm.part_realises"
   ],
   "note": "both memory layouts, any kernel order; local arrays are separate from ghost arrays and are only read"
  },
  {
   "property": "C20",
   "status": "proved",
   "theorems": [
    "Verif.Comm.C20_reduce_owner",
    "Verif.Comm.C20_reduce_total",
    "Verif.Comm.C20_adjoint"
   ],
   "note": "no octant is sent by a rank to itself (the code asserts this); exact addition"
  },
  {
   "property": "C21",
   "status": "proved",
   "theorems": [
    "Verif.Comm.C21_facemask_cells_exact",
    "Verif.Comm.C21_guard_accepts_bad_size"
   ],
   "note": "ghost count at most the x and y block size; the guard of the code also lets other sizes through (witness proved)"
  },
  {
   "property": "C22",
   "status": "proved",
   "theorems": [
    "Verif.Comm.C22_defined_iff",
    "Verif.Comm.C22_redistribute"
   ],
   "note": "a target that is not a rank writes outside an array"
  },
  {
   "property": "C23",
   "status": "partial",
   "theorems": [
    "Verif.Cells.Traverse.C23_foreach_cell_partial",
    "Verif.Cells.Traverse.C23_reduce_partial",
    "Verif.Cells.Traverse.C23_group_patches",
    "Verif.Cells.Traverse.C23_scratch_patches",
    "Verif.Cells.Traverse.C23_overflow"
   ],
   "note": "holds when the cells of one process are fewer than 2^32; beyond, the 32-bit loop bound wraps and cells are skipped (counterexample proved); patch traversals only need this per group"
  },
  {
   "property": "C24",
   "status": "partial",
   "theorems": [
    "Verif.Cells.C24_interior",
    "Verif.Cells.C24_local_ghost_invalid",
    "Verif.Cells.C24_ghost_partial",
    "Verif.Cells.C24_boundary",
    "Verif.Cells.C24_wide_ghosts_undefined"
   ],
   "note": "next to finer octants the ghost layers must be at most half a block wide and the block size even; wider layers read outside an array (counterexample proved)"
  },
  {
   "property": "C25",
   "status": "proved",
   "theorems": [
    "Verif.Cells.C25_neighbor_cell",
    "Verif.Cells.C25_boundary",
    "Verif.Cells.C25_face_cells",
    "Verif.Cells.C25_siblings",
    "Verif.Cells.C25_diagonal_not_adjacent",
    "Verif.Cells.C25_local_inverted"
   ],
   "note": "balanced tilings; face offsets of any mesh and edge/corner offsets that leave the block where negative; other diagonal offsets and the local-array overload disagree with their documentation (witnesses proved)"
  },
  {
   "property": "C26",
   "status": "proved",
   "theorems": [
    "Verif.Cells.C26_size",
    "Verif.Cells.C26_center",
    "Verif.Cells.C26_cell_of_pos",
    "Verif.Cells.C26_center_locates"
   ],
   "note": "exact arithmetic"
  },
  {
   "property": "C27",
   "status": "partial",
   "theorems": [
    "Verif.Fields.C27_fields_are_named_arrays_partial",
    "Verif.Fields.C27_accessor",
    "Verif.Fields.C27_self_rename_fails"
   ],
   "note": "holds for every history without renaming a field to itself; self-renaming deletes the field (counterexample proved)"
  },
  {
   "property": "C28",
   "status": "partial",
   "theorems": [
    "Verif.Fields.C28_loadbalance_partial",
    "Verif.Fields.C28_after_remap",
    "Verif.Fields.C28_stale_fields_fails"
   ],
   "note": "holds when slots are in alphabetical order, which is so just after a remap; a load balance after renames without a remap gives fields the data of other slots (counterexample proved)"
  },
  {
   "property": "C29",
   "status": "partial",
   "theorems": [
    "Verif.Fields.Particles.C29_attributes_are_named_arrays_partial",
    "Verif.Fields.Particles.C29_distribute",
    "Verif.Fields.Particles.C29_create_after_delete_fails",
    "Verif.Fields.Particles.C29_self_rename_fails"
   ],
   "note": "redistribution is fully proved; named-array behaviour holds when no attribute is created while a deleted one's column is unused and none is renamed to itself (counterexamples proved)"
  },
  {
   "property": "C30",
   "status": "partial",
   "theorems": [
    "Verif.Remap.C30_remap_partial",
    "Verif.Remap.C30_ends_iff",
    "Verif.Remap.C30_split_family_no_result"
   ],
   "note": "values and integral right for every corrected marking when each coarsened family is on one rank; otherwise, and only then, remap_aux never returns (C30_ends_iff, counterexample proved)"
  },
  {
   "property": "C31",
   "status": "proved",
   "theorems": [
    "Verif.Config.C31_written_config_reads_back",
    "Verif.Config.C31_file_written_reads_back",
    "Verif.Config.C31_semicolon_fails",
    "Verif.Config.C31_long_line_fails"
   ],
   "note": "for all configurations in the stated grammar (Writable); what the parser returns is in the grammar up to the stated conditions, whose necessity is shown by counterexamples"
  },
  {
   "property": "C32",
   "status": "proved",
   "theorems": [
    "Verif.Config.C32_entries",
    "Verif.Config.C32_lookup",
    "Verif.Config.C32_lookup_succeeds",
    "Verif.Config.C32_unused_reported"
   ],
   "note": "for any conversion between types and text"
  },
  {
   "property": "C33",
   "status": "partial",
   "theorems": [
    "Verif.Config.C33_option_round_trip",
    "Verif.Config.C33_unknown_rejected_partial",
    "Verif.Config.C33_no_text_for_other_values",
    "Verif.Config.C33_tables_of_the_code",
    "Verif.Config.C33_factory",
    "Verif.Config.C33_number_accepted_fails"
   ],
   "note": "unknown texts are rejected unless they are numbers; any number is accepted (counterexample proved)"
  },
  {
   "property": "C34",
   "status": "proved",
   "theorems": [
    "Verif.Config.C34_typed_map",
    "Verif.Config.C34_error"
   ],
   "note": ""
  },
  {
   "property": "C35",
   "status": "partial",
   "theorems": [
    "Verif.Io.C35_same_order",
    "Verif.Io.C35_file_same_order",
    "Verif.Io.C35_either_order_partial",
    "Verif.Io.C35_empty",
    "Verif.Io.C35_success",
    "Verif.Io.C35_wrong_size_rejected_partial",
    "Verif.Io.C35_128_bytes_fails",
    "Verif.Io.C35_palindrome_fails"
   ],
   "note": "files in the byte order of the machine are read exactly; files in the other order are read exactly unless a record length has bit 7 set or is a byte palindrome (counterexamples proved)"
  },
  {
   "property": "C36",
   "status": "proved",
   "theorems": [
    "Verif.Io.C36_ranges_partition",
    "Verif.Io.C36_collective_write",
    "Verif.Io.C36_read",
    "Verif.Io.C36_read_any_extents",
    "Verif.Io.C36_write_then_read"
   ],
   "note": "total extent below 2^63"
  },
  {
   "property": "C37",
   "status": "proved",
   "theorems": [
    "Verif.Io.C37_cell_corners",
    "Verif.Io.C37_own_octant",
    "Verif.Io.C37_every_entry",
    "Verif.Io.C37_distinct"
   ],
   "note": "the 32-bit node counters of a rank do not overflow"
  },
  {
   "property": "C38",
   "status": "proved",
   "theorems": [
    "Verif.Restart.C38_restart_mesh",
    "Verif.Restart.C38_restart_fields"
   ],
   "note": "balanced mesh with levels within the configured range; exact arithmetic for positions; octants in Z-order in both runs"
  },
  {
   "property": "C39",
   "status": "partial",
   "theorems": [
    "Verif.Io.C39_particles_split_partial",
    "Verif.Io.C39_overflow_fails"
   ],
   "note": "holds when (number of particles)*(number of ranks) is below 2^32; beyond, the 32-bit product wraps (counterexample proved)"
  },
  {
   "property": "C40",
   "status": "proved",
   "theorems": [
    "Verif.TimeLoop.C40_time_trigger",
    "Verif.TimeLoop.C40_iteration_trigger",
    "Verif.TimeLoop.C40_every_nth_iteration",
    "Verif.TimeLoop.C40_once_per_multiple",
    "Verif.TimeLoop.C40_disabled",
    "Verif.TimeLoop.C40_disabled_int",
    "Verif.TimeLoop.C40_output",
    "Verif.TimeLoop.C40_zero_interval_fails",
    "Verif.TimeLoop.C40_negative_iteration_fails"
   ],
   "note": "positive or negative intervals; interval 0 for iterations divides by zero, and negative iterations round towards zero (counterexamples proved)"
  },
  {
   "property": "C41",
   "status": "partial",
   "theorems": [
    "Verif.TimeLoop.C41_no_overshoot",
    "Verif.TimeLoop.C41_final",
    "Verif.TimeLoop.C41_stops_iterations",
    "Verif.TimeLoop.C41_stops_time",
    "Verif.TimeLoop.C41_start_after_end_fails"
   ],
   "note": "holds for the default end variable (time) when the run starts before its end time; started after it, one step with a negative dt is made (counterexample proved)"
  },
  {
   "property": "C42",
   "status": "partial",
   "theorems": [
    "Verif.Dt.C42_hydro_partial",
    "Verif.Dt.C42_mhd_partial",
    "Verif.Dt.C42_parabolic_partial",
    "Verif.Dt.C42_particle_partial",
    "Verif.Dt.C42_all_kernels",
    "Verif.Dt.C42_empty_rank_fails",
    "Verif.Dt.C42_nan_forgets_fails",
    "Verif.Dt.C42_particle_fails"
   ],
   "note": "holds when every rank has a cell; a rank without cells (or particles) ends the run, and the particle kernel adds its small velocity to signed components (counterexamples proved)"
  },
  {
   "property": "C43",
   "status": "proved",
   "theorems": [
    "Verif.Hydro.C43_cons_prim_cons",
    "Verif.Hydro.C43_prim_cons_prim",
    "Verif.Hydro.C43_2d",
    "Verif.Hydro.C43_pressure",
    "Verif.Hydro.C43_2d_third_component_fails"
   ],
   "note": "in 2D for states as read from arrays, with no third velocity component; a third component is lost (counterexample proved)"
  },
  {
   "property": "C44",
   "status": "proved",
   "theorems": [
    "Verif.Hydro.C44_consistent",
    "Verif.Hydro.C44_mirror",
    "Verif.Hydro.C44_hllc"
   ],
   "note": ""
  },
  {
   "property": "C45",
   "status": "partial",
   "theorems": [
    "Verif.Hydro.OneNeighbor.C45_conservation",
    "Verif.Hydro.OneNeighbor.C45_balance",
    "Verif.Hydro.Euler.C45_euler_balance_partial",
    "Verif.Hydro.Euler.C45_euler_conservation_partial",
    "Verif.Hydro.Euler.C45_well_balanced_fails"
   ],
   "note": "proved for HydroUpdate_hancock_oneneighbor with arbitrary reconstruction and Riemann solver, and for euler_update without gravity and with blocks of even size >= 4; with the well-balanced option of euler_update it fails"
  },
  {
   "property": "C46",
   "status": "proved",
   "theorems": [
    "Verif.Hydro.C46_zero_at_extremum",
    "Verif.Hydro.C46_between",
    "Verif.Hydro.C46_euler_faces",
    "Verif.Hydro.C46_density_floor",
    "Verif.Hydro.C46_oneneighbor_extremum",
    "Verif.Hydro.C46_oneneighbor_between",
    "Verif.Hydro.C46_no_neighbour_fails"
   ],
   "note": "in directions in which the cell has a neighbour; otherwise the slope keeps its initial value"
  },
  {
   "property": "C47",
   "status": "partial",
   "theorems": [
    "Verif.Hydro.C47_wall_flux",
    "Verif.Hydro.C47_wall_flux_left",
    "Verif.Hydro.C47_ghost_partial",
    "Verif.Hydro.C47_wall",
    "Verif.Hydro.C47_closed_box",
    "Verif.Hydro.C47_min_max_swapped_fails",
    "Verif.Hydro.C47_absorbing_depth_fails",
    "Verif.Hydro.C47_user_flux",
    "Verif.Hydro.C47_user_flux_partial",
    "Verif.Hydro.C47_user_flux_fails"
   ],
   "note": "holds if both sides of a direction have the same condition, and for the first absorbing ghost; the code exchanges the conditions of the two sides"
  },
  {
   "property": "C48",
   "status": "proved",
   "theorems": [
    "Verif.Hydro.C48_gravity_correction"
   ],
   "note": ""
  },
  {
   "property": "C49",
   "status": "proved",
   "theorems": [
    "Verif.Gravity.C49_symmetric",
    "Verif.Gravity.C49_positive",
    "Verif.Gravity.C49_residual",
    "Verif.Gravity.C49_accuracy",
    "Verif.Gravity.C49_descent",
    "Verif.Gravity.C49_compatible",
    "Verif.Gravity.C49_defined",
    "Verif.Gravity.C49_terminates"
   ],
   "note": "exact arithmetic; also: the loop never divides by zero and ends when the sources cancel (which the mean density ensures) or the potential is fixed on a boundary"
  },
  {
   "property": "C50",
   "status": "partial",
   "theorems": [
    "Verif.Parabolic.C50_rhs",
    "Verif.Parabolic.C50_budget",
    "Verif.Parabolic.C50_conserves_partial",
    "Verif.Parabolic.C50_constant",
    "Verif.Parabolic.C50_one_level",
    "Verif.Parabolic.C50_hot_to_cold",
    "Verif.Parabolic.C50_extrema",
    "Verif.Parabolic.C50_dissipates",
    "Verif.Parabolic.C50_closed",
    "Verif.Parabolic.C50_analytic_fails"
   ],
   "note": "the direction of heat holds in full; energy is conserved for constant conductivity, or for any conductivity on a mesh of one level without periodic boundaries; a conductivity that depends on the position is not conservative at a change of level (counterexample proved, with the exact energy budget)"
  },
  {
   "property": "C51",
   "status": "proved",
   "theorems": [
    "Verif.Hydro.C51_repaired",
    "Verif.Hydro.C51_valid_unchanged",
    "Verif.Hydro.C51_repair_minimal"
   ],
   "note": "rho != 0: with rho = 0 the velocity is a NaN that is kept"
  },
  {
   "property": "C52",
   "status": "partial",
   "theorems": [
    "Verif.Refine.C52_refine",
    "Verif.Refine.C52_coarsen",
    "Verif.Refine.C52_order_and_range",
    "Verif.Refine.C52_second_derivative_partial",
    "Verif.Refine.C52_second_derivative_fails",
    "Verif.Refine.C52_criterion"
   ],
   "note": "holds for the criteria that use mark_cells of the helper; RefineCondition_second_derivative_error starts from 0 and never coarsens (counterexample proved)"
  },
  {
   "property": "C53",
   "status": "partial",
   "theorems": [
    "Verif.Particles.C53_ngp",
    "Verif.Particles.C53_ngp_place",
    "Verif.Particles.C53_overlap",
    "Verif.Particles.C53_cic_budget",
    "Verif.Particles.C53_cic_partial",
    "Verif.Particles.C53_cic_nonneg",
    "Verif.Particles.C53_cic_fails"
   ],
   "note": "nearest grid point: holds. Cloud in cell: the exact balance is proved; mass is lost where a cloud reaches across an edge or corner into finer cells (counterexample proved). 3D, blocks even or 1. The sum over ranks is the reduction of C20"
  },
  {
   "property": "C54",
   "status": "partial",
   "theorems": [
    "Verif.Particles.C54_wrap",
    "Verif.Particles.C54_in_domain_partial",
    "Verif.Particles.C54_in_domain_fails",
    "Verif.Particles.C54_lower_end",
    "Verif.Particles.C54_ngp",
    "Verif.Particles.C54_tracer",
    "Verif.Particles.C54_tracer_fails"
   ],
   "note": "congruence holds always; inside the domain iff not more than one length below it (counterexample proved); tracers are not wrapped at all"
  },
  {
   "property": "C55",
   "status": "partial",
   "theorems": [
    "Verif.Cosmo.C55_lookup_partial",
    "Verif.Cosmo.C55_exact_partial",
    "Verif.Cosmo.C55_mono",
    "Verif.Cosmo.C55_inverse",
    "Verif.Cosmo.C55_outside",
    "Verif.Cosmo.C55_table",
    "Verif.Cosmo.C55_manager_partial",
    "Verif.Cosmo.C55_first_fails",
    "Verif.Cosmo.C55_start_fails"
   ],
   "note": "holds for all arguments in the table but the first entry, which is read out of bounds; the code looks it up at the start of every cosmological run (counterexample proved). The inverse property holds everywhere, not only at table points"
  },
  {
   "property": "C56",
   "status": "partial",
   "theorems": [
    "Verif.Timers.C56_start_partial",
    "Verif.Timers.C56_stop",
    "Verif.Timers.C56_print",
    "Verif.Timers.C56_order_partial",
    "Verif.Timers.C56_nested",
    "Verif.Timers.C56_times",
    "Verif.Timers.C56_other",
    "Verif.Timers.C56_total_fails",
    "Verif.Timers.C56_print_inside_fails"
   ],
   "note": "holds for all timers but the root: current_timer is not initialised, and if it happens to be null a second start of Total is accepted (counterexample proved). Measured times are proved equal to the time the region was open, and parts add up to at most the whole"
  },
  {
   "property": "C57",
   "status": "proved",
   "theorems": [
    "Verif.Cells.Temp.C57_group",
    "Verif.Cells.Temp.C57_scratch",
    "Verif.Cells.Temp.C57_scratch_elem",
    "Verif.Cells.Temp.C57_ghosts"
   ],
   "note": "reserved arrays have a place for exactly the cells of the block and its ghosts (C57_ghosts); each reserved array is allocated at most once per patch; reserved bytes below 2^32"
  },
  {
   "property": "C58",
   "status": "proved",
   "theorems": [
    "Verif.Comm.C58_partial_exchange",
    "Verif.Comm.C58_partial_reduce"
   ],
   "note": "any table of cells per mask"
  },
  {
   "property": "C59",
   "status": "proved",
   "theorems": [
    "Verif.Refine.C59_indicator",
    "Verif.Refine.C59_pseudo_gradient",
    "Verif.Refine.C59_request",
    "Verif.Refine.C59_second_derivative",
    "Verif.Refine.C59_second_derivative_max",
    "Verif.Refine.C59_default_thresholds"
   ],
   "note": "exact arithmetic"
  },
  {
   "property": "C60",
   "status": "partial",
   "theorems": [
    "Verif.Particles.C60_transpose",
    "Verif.Particles.C60_bounded",
    "Verif.Particles.C60_budget",
    "Verif.Particles.C60_constant_partial",
    "Verif.Particles.C60_constant_fails",
    "Verif.Particles.C60_step_partial"
   ],
   "note": "transpose and bound hold in full; a constant acceleration is reproduced except where a cloud reaches across an edge or corner into finer cells (counterexample proved, with the exact factor)"
  },
  {
   "property": "C61",
   "status": "partial",
   "theorems": [
    "Verif.Cosmo.C61_result",
    "Verif.Cosmo.C61_exact",
    "Verif.Cosmo.C61_cubic",
    "Verif.Cosmo.C61_ends",
    "Verif.Cosmo.C61_pos",
    "Verif.Cosmo.C61_mono",
    "Verif.Cosmo.C61_antisymm",
    "Verif.Cosmo.C61_dt_pos",
    "Verif.Cosmo.C61_not_converged_fails"
   ],
   "note": "everything holds except that the warning after the last step reads one entry past the buffer (counterexample proved)"
  },
  {
   "property": "C62",
   "status": "proved",
   "theorems": [
    "Verif.Hydro.RK2.C62_defined",
    "Verif.Hydro.RK2.C62_heun",
    "Verif.Hydro.RK2.C62_balance",
    "Verif.Hydro.RK2.C62_conservation",
    "Verif.Hydro.RK2.C62_gravity",
    "Verif.Hydro.RK2.C62_valid"
   ],
   "note": "HydroState without the well-balanced option (which fails already in one stage, C45), even blocks of at least 4 cells; balances under the stated condition that no stage needs a repair. Densities of exactly 0 after a stage are excluded"
  },
  {
   "property": "C63",
   "status": "partial",
   "theorems": [
    "Verif.Cooling.C63_budget",
    "Verif.Cooling.C63_energy_partial",
    "Verif.Cooling.C63_rows",
    "Verif.Cooling.C63_layer",
    "Verif.Cooling.C63_energy_fails"
   ],
   "note": "holds for all meshes with at least two rows of coarse cells; with a single row the row is only cooled (counterexample proved, with the exact budget)"
  },
  {
   "property": "C64",
   "status": "partial",
   "theorems": [
    "Verif.Parabolic.Viscosity.C64_rhs",
    "Verif.Parabolic.Viscosity.C64_conserved",
    "Verif.Parabolic.Viscosity.C64_dissipation",
    "Verif.Parabolic.Viscosity.C64_linear",
    "Verif.Parabolic.Viscosity.C64_rigid",
    "Verif.Parabolic.Viscosity.C64_heat",
    "Verif.Parabolic.Viscosity.C64_mesh",
    "Verif.Parabolic.Viscosity.C64_defined",
    "Verif.Parabolic.Viscosity.C64_level_fails",
    "Verif.Parabolic.Viscosity.C64_jump_fails"
   ],
   "note": "holds for all periodic meshes of one level; where the level changes momentum is not conserved (counterexample proved), and in 2D the viscosity is scaled by the third size of the cell, which halves with each level (proved)"
  },
  {
   "property": "C65",
   "status": "partial",
   "theorems": [
    "Verif.Particles.Init.C65_sites_partial",
    "Verif.Particles.Init.C65_even",
    "Verif.Particles.Init.C65_middle",
    "Verif.Particles.Init.C65_default",
    "Verif.Particles.Init.C65_velocity_partial",
    "Verif.Particles.Init.C65_mass_partial",
    "Verif.Particles.Init.C65_parse_partial",
    "Verif.Particles.Init.C65_sites_fails",
    "Verif.Particles.Init.C65_parse_fails"
   ],
   "note": "proved for grids of less than 2^32 sites; larger grids lose particles (2048^3: none, proved); arrays of simple_particles are read only if they have exactly npart values, everything else is undefined behaviour (proved)"
  },
  {
   "property": "C66",
   "status": "proved",
   "theorems": [
    "Verif.Octree.C66_search",
    "Verif.Octree.C66_rank",
    "Verif.Octree.C66_offsets",
    "Verif.Octree.C66_table",
    "Verif.Octree.C66_table_mesh"
   ],
   "note": "full statement, under the stated bound on the number of octants (the views are indexed with 32 bits)"
  },
  {
   "property": "C67",
   "status": "partial",
   "theorems": [
    "Verif.Restart.C67_mesh_partial",
    "Verif.Restart.C67_levels",
    "Verif.Restart.C67_coarse_partial",
    "Verif.Restart.C67_fields_partial",
    "Verif.Restart.C67_coarse_fails",
    "Verif.Restart.C67_three_fails",
    "Verif.Restart.C67_fields_fails"
   ],
   "note": "mesh: proved if the file's mesh is balanced also where copies meet, (coarse+1)*2^levels <= 10^5 and the new coarse grid fits; data: proved for coarse grids that are cubes of a power of two. Counterexamples outside; particles not modelled (the code says they do not work)"
  },
  {
   "property": "C68",
   "status": "partial",
   "theorems": [
    "Verif.Init.C68_mesh",
    "Verif.Init.C68_deterministic",
    "Verif.Init.C68_resolved_partial",
    "Verif.Init.C68_region",
    "Verif.Init.C68_auto_refine",
    "Verif.Init.C68_resolved_fails"
   ],
   "note": "tiling, balance, levels, coarser than every resolved mesh, determinism: proved for all formulas. That the mesh is itself resolved: proved for formulas that ask to refine an octant if they ask to refine a part of it (all formulas that refine a region), false for others (counterexample)"
  },
  {
   "property": "C69",
   "status": "proved",
   "theorems": [
    "Verif.Mhd.C69_cons_prim_cons",
    "Verif.Mhd.C69_prim_cons_prim",
    "Verif.Mhd.C69_primitive",
    "Verif.Mhd.C69_store",
    "Verif.Mhd.C69_swap",
    "Verif.Mhd.C69_swap_swap",
    "Verif.Mhd.C69_glm",
    "Verif.Mhd.C69_repair"
   ],
   "note": "exact arithmetic over any ordered field; in 2D states as read from the arrays (no third momentum)"
  },
  {
   "property": "C70",
   "status": "partial",
   "theorems": [
    "Verif.Mhd.C70_relaxation",
    "Verif.Mhd.C70_contact",
    "Verif.Mhd.C70_consistent",
    "Verif.Mhd.C70_mirror_partial",
    "Verif.Mhd.C70_mirror_fails"
   ],
   "note": "relaxation structure, stability condition, consistency, contacts: proved. Mirror symmetry: proved if the normal field is continuous or gas flows through the face, false otherwise (counterexample)"
  },
  {
   "property": "C71",
   "status": "partial",
   "theorems": [
    "Verif.Mhd.C71_fan_partial",
    "Verif.Mhd.C71_contact",
    "Verif.Mhd.C71_consistent",
    "Verif.Mhd.C71_mirror_partial",
    "Verif.Mhd.C71_hydro",
    "Verif.Mhd.C71_order_fails",
    "Verif.Mhd.C71_mirror_fails",
    "Verif.Mhd.C71_supersonic_fails"
   ],
   "note": "contacts, consistency and the limit without field (HLLC): proved. Wave fan: proved if the normal field is that of both states and the degenerate switch does not cut off a tangential field. Mirror symmetry: proved if the rotational waves are inside the outer ones and, where an inner state is used, the same conditions hold. False otherwise (counterexamples): order of waves, mirror symmetry, supersonic flux with another normal field at the face"
  },
  {
   "property": "C72",
   "status": "partial",
   "theorems": [
    "Verif.Mhd.C72_fan",
    "Verif.Mhd.C72_consistent",
    "Verif.Mhd.C72_mirror_partial",
    "Verif.Mhd.C72_decay_partial",
    "Verif.Mhd.C72_decay_run_partial",
    "Verif.Mhd.C72_step_exact",
    "Verif.Mhd.C72_decay_steps",
    "Verif.Mhd.C72_decay_steps_rk2",
    "Verif.Mhd.C72_vanishes",
    "Verif.Mhd.C72_decay_fails",
    "Verif.Mhd.C72_decay_rk2_fails",
    "Verif.Mhd.C72_direction_fails",
    "Verif.Mhd.C72_default_fails",
    "Verif.Mhd.C72_speed"
   ],
   "note": "Riemann problem, consistency, cleaning speed: proved. Mirror symmetry: where the MHD solver has it (C70, C71). Decay: proved in 2D, for any number of steps with changing time steps (`C72_decay_run_partial`); false in 3D (three factors) and with the Runge-Kutta update. The factor of each step is known exactly and does not depend on the time step (`C72_decay_steps`, `C72_decay_steps_rk2`), and the potential vanishes in the long run in all cases (`C72_vanishes`). Also false: directions are not treated alike, the default solver gives no flux (counterexamples)"
  },
  {
   "property": "C73",
   "status": "partial",
   "theorems": [
    "Verif.Mhd.C73_hydro",
    "Verif.Mhd.C73_mhd",
    "Verif.Mhd.C73_2d_partial",
    "Verif.Mhd.C73_2d_fails"
   ],
   "note": "Hydrodynamics in 2D and 3D and MHD in 3D: proved. MHD in 2D: all but the third momentum, which is false while the third field component is kept (counterexample)"
  },
  {
   "property": "C74",
   "status": "partial",
   "theorems": [
    "Verif.Mhd.C74_wall_partial",
    "Verif.Mhd.C74_glm_wall_partial",
    "Verif.Mhd.C74_outflow",
    "Verif.Mhd.C74_glm_outflow",
    "Verif.Mhd.C74_energy_fails"
   ],
   "note": "mass, normal field (plain MHD) and outflow: proved. Energy: proved to be minus the work of the magnetic tension (five waves), and 0 if that is 0 (both solvers); false otherwise (counterexample), since the ghost keeps the field"
  },
  {
   "property": "C75",
   "status": "partial",
   "theorems": [
    "Verif.Hydro.Hancock.C75_face",
    "Verif.Hydro.Hancock.C75_conservation_partial",
    "Verif.Hydro.Hancock.C75_constant",
    "Verif.Hydro.Hancock.C75_jump_fails",
    "Verif.Hydro.Hancock.C75_corner_fails"
   ],
   "note": "faces between octants of one level away from boundaries, constant states, and conservation on periodic meshes of one level: proved. False at jumps in refinement (as the code documents) and at walls (corner ghosts), with counterexamples. Gravity and the repair of negative values are not part of the model"
  },
  {
   "property": "C76",
   "status": "partial",
   "theorems": [
    "Verif.Init.C76_c91",
    "Verif.Init.C76_c91_gas",
    "Verif.Init.C76_trilayer",
    "Verif.Init.C76_trilayer_perturbation",
    "Verif.Init.C76_rt_layers",
    "Verif.Init.C76_rt_partial",
    "Verif.Init.C76_rt_fails",
    "Verif.Init.C76_rt_amplitude_partial",
    "Verif.Init.C76_rt_amplitude_fails",
    "Verif.Init.C76_seed_partial",
    "Verif.Init.C76_seed_fails"
   ],
   "note": "C91 and tri_layer: the accelerations for which they are in equilibrium are determined exactly. Rayleigh-Taylor: each fluid is, but the pressure jumps at an interface that is not at 0. The amplitude is doubled in 3D and the seed has no effect on rank 0: counterexamples. The random number generator is not modelled, kelvin_helmholtz is C104"
  },
  {
   "property": "C77",
   "status": "partial",
   "theorems": [
    "Verif.Init.C77_partial",
    "Verif.Init.C77_center_fails",
    "Verif.Init.C77_domain_fails"
   ],
   "note": "proved for the default centre in the unit domain; the settings of the centre and the bounds of the domain are read but not used: counterexamples"
  },
  {
   "property": "C78",
   "status": "partial",
   "theorems": [
    "Verif.Gravity.C78_partial",
    "Verif.Gravity.C78_singular",
    "Verif.Gravity.C78_2d_fails"
   ],
   "note": "proved in 3D, and in 2D if the third coordinate of the mass is 0. With the default settings it is false in 2D: counterexample"
  },
  {
   "property": "C79",
   "status": "proved",
   "theorems": [
    "Verif.Init.C79_orszag_tang",
    "Verif.Init.C79_orszag_tang_mach",
    "Verif.Init.C79_rotor",
    "Verif.Init.C79_rotor_continuous",
    "Verif.Init.C79_blast"
   ],
   "note": "the field of the rotor and of the blast is uniform; the rotor turns clockwise"
  },
  {
   "property": "C80",
   "status": "partial",
   "theorems": [
    "Verif.AdaptOld.C80_adapt_partial",
    "Verif.AdaptOld.C80_one_rank_least",
    "Verif.AdaptOld.C80_distribution_fails"
   ],
   "note": "on several ranks the markers of ghosts are dropped, so families cut by a rank boundary are never coarsened and the result depends on the distribution"
  },
  {
   "property": "C81",
   "status": "partial",
   "theorems": [
    "Verif.Run.C81_every_mesh_partial",
    "Verif.Run.C81_ranks_do_not_matter",
    "Verif.Run.C81_progress_partial",
    "Verif.Run.C81_whole_never_fails",
    "Verif.Run.C81_rank_emptied_fails"
   ],
   "note": "there must be at least as many coarse octants as ranks and fewer than 2^32; adapt fails when a rank loses its last octant, which is reachable (C81_rank_emptied_fails); it does not if every rank has 2^d octants, nor as long as coarse octants are not split between ranks"
  },
  {
   "property": "C82",
   "status": "partial",
   "theorems": [
    "Verif.RunOld.C82_every_mesh_partial",
    "Verif.RunOld.C82_progress_partial",
    "Verif.RunOld.C82_steps",
    "Verif.RunOld.C82_one_rank_same_mesh",
    "Verif.RunOld.C82_too_many_ranks_fails",
    "Verif.RunOld.C82_compaction_fails"
   ],
   "note": "keys must fit in 64 bits; load balancing aborts the program when the blocks to be kept together leave a rank without octants, always with more ranks than blocks (C82_too_many_ranks_fails); the exact condition is proved; the constructor aborts with more ranks than coarse octants; the mesh depends on the distribution (C80_distribution_fails)"
  },
  {
   "property": "C83",
   "status": "partial",
   "theorems": [
    "Verif.Legacy.C83_every_ghost_cell_once",
    "Verif.Legacy.C83_ghost_values_partial",
    "Verif.Legacy.C83_third_gravity_component_stale",
    "Verif.Legacy.C83_user_boundary_keeps_placeholder",
    "Verif.Legacy.C83_not_small_blocks",
    "Verif.Legacy.C83_not_odd_blocks"
   ],
   "note": "the values hold for blocks of even size that are at least twice the ghost width wide next to smaller octants, with both loops run one after the other; smaller blocks make the code use the index of no octant (C83_not_small_blocks), odd sizes give wrong cells (C83_not_odd_blocks); user-defined boundaries and the third gravity component are not handled by the code"
  },
  {
   "property": "C84",
   "status": "partial",
   "theorems": [
    "Verif.Legacy.C84_conserved_partial",
    "Verif.Legacy.C84_closed_box_partial",
    "Verif.Legacy.C84_uniform_flow",
    "Verif.Legacy.C84_slopes",
    "Verif.Legacy.C84_half_step",
    "Verif.Legacy.C84_godunov",
    "Verif.Legacy.C84_gravity_partial",
    "Verif.Legacy.C84_not_conservative_over_level_jumps",
    "Verif.Legacy.C84_gravity_field_of_another_cell",
    "Verif.Legacy.C84_constant_gravity_3d_fails",
    "Verif.Legacy.C84_field_alone_not_predicted",
    "Verif.Legacy.C84_other_update_ignores_domain_size",
    "Verif.Legacy.C84_other_update_missing_3d"
   ],
   "note": "conservation is proved for meshes with octants of one level; where the level changes the code does not conserve (C84_not_conservative_over_level_jumps). Gravity: 2D with constant acceleration and 3D with a field are proved; in 2D a field is read in another cell, in 3D constant acceleration reads missing fields"
  },
  {
   "property": "C85",
   "status": "partial",
   "theorems": [
    "Verif.Sim.C85_same_result",
    "Verif.Sim.C85_serial",
    "Verif.Sim.C85_serial_never_fails",
    "Verif.Sim.C85_progress_partial",
    "Verif.Sim.C85_whole_never_fails",
    "Verif.Sim.C85_without_balancing",
    "Verif.Sim.C85_conserved",
    "Verif.Sim.C85_more_ranks_never_end"
   ],
   "note": "same result and conservation are proved for all runs that end. On one rank, and without load balancing, all runs end. With load balancing an AMR cycle ends if and only if no coarsened family is spread over several ranks (C85_progress_partial), which fails in a reachable state (C85_more_ranks_never_end); it never happens if load balancing keeps coarse octants whole (C85_whole_never_fails). Exact arithmetic"
  },
  {
   "property": "C86",
   "status": "partial",
   "theorems": [
    "Verif.Hydro.Euler.C86_density_partial",
    "Verif.Hydro.Euler.C86_default_fails",
    "Verif.Hydro.mass_le",
    "Verif.Hydro.neg_mass_le"
   ],
   "note": "a step takes at most (6 d + 3) cfl of the mass of a cell, so densities stay positive for cfl < 1/(6 d + 3). At the default cfl = 1/2 the property is false (C86_default_fails). The values of cfl between are open. Periodic domains, no gravity, exact arithmetic"
  },
  {
   "property": "C87",
   "status": "partial",
   "theorems": [
    "Verif.Sim.C87_restart_state",
    "Verif.Sim.C87_restart_continues",
    "Verif.Sim.C87_same_end",
    "Verif.Sim.C87_restart_serial",
    "Verif.Sim.C87_more_ranks_never_end",
    "Verif.Sim.C87_particles_fail",
    "Verif.Sim.C87_aexp_trigger_fails"
   ],
   "note": "the restart works on any number of ranks and the runs agree as long as both go on; restarted on one rank the run never fails first. On more ranks it may hang in an AMR cycle (C87_more_ranks_never_end). Particles are not sent to the ranks of their cells (C87_particles_fail). Output triggers on aexp fire wrongly after a restart (C87_aexp_trigger_fails). Exact arithmetic"
  },
  {
   "property": "C88",
   "status": "partial",
   "theorems": [
    "Verif.Gravity.C88_uniform_gas",
    "Verif.Gravity.C88_third_law",
    "Verif.Gravity.C88_solver_net_force",
    "Verif.Gravity.C88_linear_partial",
    "Verif.Gravity.C88_error_at_larger",
    "Verif.Gravity.C88_refined_fails",
    "Verif.Gravity.C88_larger_neighbour_fails"
   ],
   "note": "on meshes of one level there is no net force, and on every mesh there is none on a uniform gas. With a level jump there is one, for exact solutions too (C88_refined_fails). Linear potentials are exact except next to larger cells (C88_larger_neighbour_fails), where the error is known exactly and does not fall with the cell size (C88_error_at_larger). Exact arithmetic"
  },
  {
   "property": "C89",
   "status": "partial",
   "theorems": [
    "Verif.Sim.C89_mask_exact",
    "Verif.Sim.C89_listed_cells",
    "Verif.Sim.C89_listed_cells_2d",
    "Verif.Sim.C89_layers",
    "Verif.Sim.C89_touching_cells",
    "Verif.Sim.C89_legacy_ghosts_fail"
   ],
   "note": "masks, lists of cells and what a rank sees after an exchange, for all runs. That no solver reads further is false for HydroUpdate_legacy (C89_legacy_ghosts_fail); it is proved for HydroUpdate_hancock_oneneighbor and the refinement marker by C85, for the gravity solver by C90 and for HydroUpdate_hancock, _euler and _RK2 by C91"
  },
  {
   "property": "C90",
   "status": "proved",
   "theorems": [
    "Verif.Sim.C90_ranks_solve_the_mesh",
    "Verif.Sim.C90_independent_of_ranks",
    "Verif.Sim.C90_ends"
   ],
   "note": "exact arithmetic; sums over cells in any order are equal then. A division by zero in the solver is a failure of the model, and fails on all ranks alike; C90_ends excludes it"
  },
  {
   "property": "C91",
   "status": "proved",
   "theorems": [
    "Verif.Sim.C91_ranks_update_the_mesh",
    "Verif.Sim.C91_rk2_ranks_update_the_mesh",
    "Verif.Sim.C91_independent_of_ranks",
    "Verif.Sim.C91_rk2_independent_of_ranks",
    "Verif.Sim.C91_defined",
    "Verif.Sim.C91_three_layers_fail"
   ],
   "note": "exact arithmetic; gravity and clean_negative_primitive_values are any function of one cell. The special treatment of boundaries in euler_update L563-594 is not modelled (see C45). C91_defined is for schemes without well_balanced, the others hold with it. C91_three_layers_fail shows that 4 layers is sharp for HydroUpdate_hancock"
  },
  {
   "property": "C92",
   "status": "partial",
   "theorems": [
    "Verif.Sim.C92_projection",
    "Verif.Sim.C92_move",
    "Verif.Sim.C92_distribution_partial",
    "Verif.Sim.C92_cycle_partial",
    "Verif.Sim.C92_independent_of_ranks_partial",
    "Verif.Sim.C92_defined_partial",
    "Verif.Sim.C92_ngp_mass",
    "Verif.Sim.C92_cic_mass_partial",
    "Verif.Sim.C92_distribution_fails"
   ],
   "note": "exact arithmetic. Projection and move hold for all coarse grids; the distribution sends particles to wrong ranks if the coarse grid is not a full cube of 2^level_min octants, and NGP then loses their mass (C92_distribution_fails). The cycle needs moved particles in the domain, see C54; C92_defined_partial shows that they are for small steps. Cloud in cell loses mass at edges of finer regions, see C53"
  },
  {
   "property": "C93",
   "status": "partial",
   "theorems": [
    "Verif.Sim.C93_same_result_partial",
    "Verif.Sim.C93_serial_partial",
    "Verif.Sim.C93_iteration_partial",
    "Verif.Sim.C93_particles_partial",
    "Verif.Sim.C93_mass_partial",
    "Verif.Sim.C93_progress_partial"
   ],
   "note": "exact arithmetic; 3D; coarse grids that are full cubes of 2^level_min octants (the others fail, see C92_distribution_fails); with viscosity, conduction and cooling (C105); no output, MUSCL-Hancock MHD or tracers. Conservation of gas mass is for the one-neighbour solver and for Euler and RK2 without well_balanced (HydroUpdate_hancock does not conserve at level jumps, see C75)"
  },
  {
   "property": "C94",
   "status": "partial",
   "theorems": [
    "Verif.Legacy.C94_four_layers",
    "Verif.Legacy.C94_two_layers_partial",
    "Verif.Legacy.C94_independent_of_ranks_partial",
    "Verif.Legacy.C94_two_layers_fail"
   ],
   "note": "false for the code: it exchanges two layers (C94_two_layers_fail, on a mesh that a run reaches, with riemann_hllc). C94_four_layers: true with four layers, as for HydroUpdate_hancock. C94_two_layers_partial: with two layers it is true for octants without smaller octants around them, and, except in 2D with a gravity field, for cells that are not in the outermost layer of their block or if slope_type is neither 1 nor 2. Exact arithmetic"
  },
  {
   "property": "C95",
   "status": "proved",
   "theorems": [
    "Verif.Legacy.C95_markers",
    "Verif.Legacy.C95_independent_of_ranks",
    "Verif.Legacy.C95_thresholds",
    "Verif.Legacy.C95_uniform"
   ],
   "note": "C95_markers: the markers of a rank from the two ghost layers of the time loop or more. C95_independent_of_ranks also compares different group sizes, layers and schedules. C95_thresholds, C95_uniform: consequences (thresholds of at least 1; gas at rest that is the same everywhere). The number of octants of a rank plus the group size is at most 2^32; real arithmetic is exact"
  },
  {
   "property": "C96",
   "status": "partial",
   "theorems": [
    "Verif.Legacy.C96_dt",
    "Verif.Legacy.C96_independent_of_ranks",
    "Verif.Legacy.C96_courant_partial",
    "Verif.Legacy.C96_courant_fails"
   ],
   "note": "C96_dt, C96_independent_of_ranks: the time step itself. The last sentence holds for the default update (C96_courant_partial) and is false for the one that is not conservative, which leaves out the size of the domain (C96_courant_fails: in a domain with all sides lam the sum is lam*cfl in some cell; in 3D that update writes nothing, see C84). Exact arithmetic, dz not 0 in 2D, host initial value of the reduction"
  },
  {
   "property": "C97",
   "status": "partial",
   "theorems": [
    "Verif.Hydro.WellBalanced.C97_equilibrium_partial",
    "Verif.Hydro.WellBalanced.C97_run",
    "Verif.Hydro.WellBalanced.C97_mass_partial",
    "Verif.Hydro.WellBalanced.C97_refined_fails",
    "Verif.Hydro.WellBalanced.C97_field_fails"
   ],
   "note": "proved for gravity_type=constant_scalar: one step in every cell whose neighbours have its size (C97_equilibrium_partial), any number of steps on a mesh with one level (C97_run). False at jumps in refinement (C97_refined_fails) and with constant_field (C97_field_fails). Mass: one level, any state, before the repair of negative values (C97_mass_partial). Exact arithmetic, no boundaries defined by the user"
  },
  {
   "property": "C98",
   "status": "partial",
   "theorems": [
    "Verif.Init.Grafic.C98_arrays",
    "Verif.Init.Grafic.C98_header_partial",
    "Verif.Init.Grafic.C98_config_partial",
    "Verif.Init.Grafic.C98_start",
    "Verif.Init.Grafic.C98_index",
    "Verif.Init.Grafic.C98_fields_partial",
    "Verif.Init.Grafic.C98_units",
    "Verif.Init.Grafic.C98_mass",
    "Verif.Init.Grafic.C98_total_mass_partial",
    "Verif.Init.Grafic.C98_big_endian_fails",
    "Verif.Init.Grafic.C98_large_fails",
    "Verif.Init.Grafic.C98_omega_fails",
    "Verif.Init.Grafic.C98_volume_fails",
    "Verif.Init.Grafic.C98_temperature_fails"
   ],
   "note": "proved for files in the byte order of the machine: if the constructor accepts the files, all cells get the states of the files (C98_fields_partial) in the right units (C98_units), the configuration has the values of the file (C98_config_partial), mass 1 in a domain of volume 1 (C98_total_mass_partial). False: headers in the other byte order (C98_big_endian_fails), 2^31 cells or more (C98_large_fails), omega_m and omega_v of CosmoManager (C98_omega_fails), domains of another volume (C98_volume_fails), temperature ~ (1+z)^2 (C98_temperature_fails). Exact arithmetic, one conversion to text for float and real_t"
  },
  {
   "property": "C99",
   "status": "partial",
   "theorems": [
    "Verif.StepFields.C99_step_partial",
    "Verif.StepFields.C99_run_partial",
    "Verif.StepFields.C99_constant_fails",
    "Verif.StepFields.C99_ids"
   ],
   "note": "proved for all settings with fields that fit (Fits) except the constant gravity solver, with which every step stops the program (C99_constant_fails), and load balancing in steps without AMR cycle (C28_stale_fields_fails). The time loop and the registered solvers agree about the fields of the magnetic field (C99_ids). Solvers are functions of the arrays that they ask for; cells of the mesh of one rank before and after the AMR cycle are named by the same type"
  }
 ]
}