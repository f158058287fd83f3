# Axioms each theorem depends on

Output of `#print axioms` for every theorem of `MANIFEST.json`, grouped.

## none

`C24_box_violated`

## propext

`C06_decode_violated`, `C06_adjacency_violated`, `C07_violated`, `C09_size_violated`, `C22_entity_order_violated`, `C49_declared_violated`, `Log.C88_stamp_violated`, `Log.C88_once`, `Log.C88_lost_violated`

## propext, Classical.choice, Quot.sound

`C01_push_builds_path`, `C01_depth`, `C01_pop`, `C01_pop_root`, `C01_popD`, `C01_truncate`, `C01_injective`, `C01_order`, `C01_min_max`, `C01_bounds`, `C01_output`, `C01_conflict_depth`, `C02_encode`, `C02_same_key_iff`, `C02_surjective`, `C02_decode`, `C03_full_depth_partial`, `C03_always_full_depth`, `C03_violated`, `C04_range_exact`, `C04_children_subdivide`, `C05_key_range`, `C05_decode_encode`, `C05_encode_decode`, `C05_injective`, `C05_adjacent`, `C05_truncated`, `C05_points`, `C06_injective_partial`, `C06_surjective_partial`, `C07_injective_partial`, `C08_independent`, `C08_empty_node`, `C10_canonical`, `C10_duplicate_violated`, `C11_summaries`, `Startup.C11_shared_partial`, `C12_exact`, `C13_partial`, `C13_uniform`, `C13_violated`, `SphRun.C13_distributed_partial`, `SphRun.C13_distributed_uniform`, `SphRun.C13_sequence_partial`, `C14_exactly_once`, `Startup.C14_built_partial`, `Startup.C14_built_leaves`, `Ghosts.C14_distributed`, `Ghosts.C14_distributed_calls`, `Ghosts.C14_sizes_needed`, `C15_criterion`, `C15_error_bound`, `C15_antisymmetric`, `C15_no_self`, `C15_taylor`, `C16_distributed`, `Share.C17_power_partial`, `Share.C17_matched`, `Share.C17_other_violated`, `Share.C17_three_violated`, `Startup.C17_tables_partial`, `Startup.C18_start_partial`, `Startup.C18_built_partial`, `Ghosts.C18_safe`, `Ghosts.C18_once`, `Ghosts.C18_complete`, `Ghosts.C18_visited`, `Ghosts.C18_single`, `Ghosts.C18_bounded`, `Ghosts.C18_progress`, `Ghosts.C18_end`, `Ghosts.C18_can_end`, `Ghosts.C18_served`, `Ghosts.C18_again`, `Ghosts.C18_order_needed`, `Ghosts.C18_fmm_safe`, `Ghosts.C18_fmm_once`, `Ghosts.C18_fmm_complete`, `Ghosts.C18_fmm_bounded`, `Ghosts.C18_fmm_progress`, `Ghosts.C18_fmm_can_end`, `Ghosts.C18_fmm_served`, `Ghosts.C18_fmm_again`, `Ghosts.C18_fmm_end`, `C19_psort_partial`, `C19_particles_partial`, `C19_dist_violated`, `C19_empty_first_violated`, `C19_hole_violated`, `C20_partial`, `C20_violated`, `C20_min_violated`, `C21_alltoallv_partial`, `C21_allgatherv_partial`, `C21_each_partial`, `C21_violated`, `C22_particle_order`, `C22_entity_order_partial`, `C23_within_distance2`, `C23_within_distance2_violated`, `C23_within_partial`, `C23_within_violated`, `C23_within_square`, `C23_within_box_1d`, `C23_within_box_partial`, `C23_within_box_violated`, `C23_box_box`, `C23_sphere_sphere_3d`, `C23_sphere_sphere_partial`, `C23_sphere_box_3d`, `C23_sphere_box_partial`, `C24_wrap_partial`, `C24_far_violated`, `C25_sound`, `C25_complete_partial`, `C25_small_box_violated`, `C26_ids_partial`, `C26_only_ghosts_violated`, `C26_only_ghosts_reached`, `C26_check`, `Io.C27_divisible_partial`, `Io.C27_ghosts_violated`, `Io.C28_read`, `Io.C28_disjoint`, `Io.C28_write`, `Io.C28_round_trip`, `Io.C29_round_trip_partial`, `Io.C29_large_violated`, `Io.C29_accepted_partial`, `Io.C29_opened`, `Io.C29_accepted_violated`, `Io.C29_inside_partial`, `Io.C29_inside_violated`, `Io.C30_found_partial`, `Io.C30_missing_partial`, `Io.C30_missing_violated`, `C31_partial`, `C31_gaussian_partial`, `C31_gaussian_violated`, `C31_super_gaussian_violated`, `C31_sinc_partial`, `C31_sinc_violated`, `C32_partial`, `C32_gaussian_partial`, `C32_sinc_partial`, `C32_antisymmetric`, `C32_support`, `C32_gaussian_violated`, `C32_sinc_violated`, `C33_partial`, `C33_violated`, `C34_momentum`, `C34_traversal_lists`, `C34_fresh`, `C34_run`, `DistRun.C34_processes`, `C35_total_energy`, `C35_internal_plus_kinetic`, `C35_run`, `DistRun.C35_processes`, `C36_partial`, `C36_violated`, `C36_run_partial`, `DistRun.C36_processes_partial`, `C37_viscous_pressure`, `C37_heating_partial`, `C37_violated`, `C38_selected`, `C38_soundspeed`, `C38_polytropic`, `C38_ideal`, `C38_piecewise`, `C38_white_dwarf`, `C38_white_dwarf_zero_density_violated`, `C39_leapfrog`, `C39_energy`, `C39_hydro`, `C40_energy`, `C40_particle_limit`, `C40_no_output_partial`, `C40_single_output_partial`, `C40_start`, `C40_equal_partial`, `C40_several_violated`, `C40_violated`, `C41_times_partial`, `C41_written_partial`, `C41_equal_times_partial`, `C41_equal_written_partial`, `C41_initial_violated`, `C41_fixed_step_violated`, `C41_violated`, `C41_several_violated`, `C41_every`, `C42_walls`, `C42_spherical_wall`, `C42_gravity`, `C42_orbit`, `C42_support_partial`, `C42_support_violated`, `C42_airfoil_partial`, `C42_airfoil_violated`, `C42_total_partial`, `C43_constant`, `C43_parabolic`, `C43_mesa_partial`, `C43_mesa_violated`, `C44_search`, `C44_search_outside`, `C44_cubic_exact`, `C44_nodes`, `C44_violated`, `C44_above_violated`, `C45_symmetric`, `C45_all_used`, `C45_size`, `C45_generic`, `C46_compound_partial`, `C46_violated`, `C46_scalar`, `C46_binary`, `C46_assign`, `C47_1d`, `C47_2d`, `C47_3d_rectangular`, `C47_3d_hcp_partial`, `C47_3d_fcc_partial`, `C47_3d_other`, `C47_3d_fcc_violated`, `C47_3d_hcp_box_violated`, `C47_circle_violated`, `C47_no_separation`, `C47_fill_1d`, `C47_fill_2d_rectangular`, `C47_fill_2d_triangular`, `C47_fill_3d_rectangular`, `C47_fill_3d_hcp`, `C47_fill_3d_fcc_partial`, `C47_margin_1d`, `C47_margin_2d`, `C47_margin_3d`, `C48_closed_forms_partial`, `C48_shell_partial`, `C48_closed_forms_violated`, `C48_generator_partial`, `C48_on_shells`, `C48_all_placed_partial`, `C48_generator_violated`, `C48_thirteen`, `C49_comments`, `C49_file_partial`, `C49_line_partial`, `C49_unknown`, `C49_hash_violated`, `C49_long_violated`, `C49_crlf_violated`, `C49_names`, `C50_violated`, `C50_expected_partial`, `C50_momentum_violated`, `C51_partial`, `C51_violated`, `C52_range_partial`, `C52_keys_partial`, `C52_violated`, `C53_round_trip_partial`, `C53_line_violated`, `C53_origin_violated`, `C53_tangential_partial`, `C53_tangential_violated`, `C53_stays_partial`, `C53_far_violated`, `C53_fast_violated`, `C53_reflected`, `C53_line_reflected_violated`, `C54_violated`, `C55_density`, `C55_rates`, `C55_alpha`, `C55_state_partial`, `C55_violated`, `C56_angular_momentum`, `C56_run`, `C57_drag`, `C57_dudt_violated`, `C57_repulsion_momentum`, `C58_indicator`, `C58_expansion`, `C58_update`, `C58_history_partial`, `C58_violated`, `AlphaRange.C58_fixed_partial`, `AlphaRange.C58_adaptive_partial`, `AlphaRange.C58_newton_partial`, `AlphaRange.C58_newton_adaptive_partial`, `AlphaRange.C58_program_partial`, `AlphaRange.C58_program_adaptive_partial`, `AlphaRange.C58_program_newton_partial`, `AlphaRange.C58_program_newton_adaptive_partial`, `C59_first_law_polytropic`, `C59_ideal`, `C59_first_law_piecewise`, `C59_first_law_white_dwarf`, `C59_white_dwarf_violated`, `C60_clock`, `C61_restart_partial`, `C61_violated`, `C62_no_deadlock`, `C62_progress`, `C63_volume`, `C64_run`, `C64_run_past`, `C64_convergence`, `C64_cool_down`, `Io.C65_clear_partial`, `Io.C65_directory_violated`, `C66_shapes`, `C66_sinc_partial`, `C66_sinc_near`, `C67_stop`, `C67_iterations`, `C67_time`, `C67_ends`, `C67_endless`, `C68_variable`, `C68_uniform`, `C68_fixed`, `C69_momentum_partial`, `C69_violated`, `DistGravity.C69_distributed_partial`, `DistRun.C70_processes_partial`, `DistRun.C70_single_partial`, `DistRun.C70_exists`, `DistRun.C70_lists`, `DistRun.C70_violated`, `Reductions.C71_columns_partial`, `Reductions.C71_column_violated`, `Reductions.C71_run`, `Reductions.C71_run_energy`, `Reductions.C72_smoothing`, `Reductions.C72_neighbors_partial`, `Reductions.C72_run_partial`, `Reductions.C72_velocity_partial`, `Reductions.C72_max_violated`, `Reductions.C72_velocity_violated`, `Reductions.C72_rest_violated`, `Reductions.C72_empty_violated`, `IdGen.C73_mass_partial`, `IdGen.C73_interval_violated`, `IdGen.C73_profile`, `IdGen.C73_profile_violated`, `IdGen.C73_energy_partial`, `IdGen.C73_pressure`, `IdGen.C73_empty_violated`, `IdGen.C73_modify_violated`, `IdGen.C73_noh_partial`, `IdGen.C73_noh_violated`, `IdGen.C73_uniform`, `IdGen.C73_implosion_partial`, `IdGen.C73_implosion_violated`, `IdGen.C73_wtunnel_violated`, `IdGen.C73_tunnel_mass_violated`, `IdGen.C74_sod_states`, `IdGen.C74_separation_partial`, `IdGen.C74_equal_mass`, `IdGen.C74_separation_violated`, `IdGen.C74_rt`, `IdGen.C74_fluid`, `IdGen.C74_kh_2d`, `IdGen.C74_kh_3d`, `Torus.C75_run_partial`, `Torus.C75_first_partial`, `Torus.C75_motion_partial`, `Torus.C75_torus_unique`, `Torus.C75_same_partial`, `Torus.C75_energy_violated`, `Torus.C75_uniform_violated`, `DistGravity.C76_error_bound_partial`, `DistGravity.C76_independent_partial`, `Update.C77_keys`, `Update.C77_sorted`, `Update.C77_neighbours_partial`, `Update.C77_gravity_partial`, `Update.C77_separate`, `Newtonian.C78_processes_partial`, `Newtonian.C78_exists`, `Newtonian.C78_leapfrog_partial`, `Newtonian.C78_energy_partial`, `Newtonian.C78_momentum_partial`, `Newtonian.C78_newton_power`, `Program.C79_hydro_partial`, `Program.C79_newton_partial`, `Program.C79_hydro_refines`, `Program.C79_newton_refines`, `Program.C79_hydro_laws_partial`, `Program.C79_newton_laws_partial`, `Program.C79_hydro_exists`, `Program.C79_newton_exists`, `Rounded.C80_search_partial`, `Rounded.C80_uniform`, `Rounded.C80_key`, `Rounded.C80_key_distinct`, `IdGen.C81_length`, `IdGen.C81_width_partial`, `IdGen.C81_layers_partial`, `IdGen.C81_found`, `IdGen.C81_narrow_violated`, `IdGen.C81_height_violated`, `Rounded.C82_positive`, `Rounded.C82_backward`, `Rounded.C82_density`, `Rounded.C82_search_partial`, `Rounded.C83_columns_partial`, `Rounded.C83_written`, `Rounded.C83_processes_partial`, `Rounded.C83_centre_partial`, `Rounded.C84_opposite`, `Rounded.C84_pair`, `Rounded.C84_reach`, `Rounded.C84_symmetric`, `Rounded.C84_momentum_partial`, `Rounded.C84_energy_partial`, `Rounded.C84_angular_momentum_partial`, `Rounded.C84_internal_partial`, `Rounded.C84_kick`, `Rounded.C84_run_partial`, `Rounded.C84_one_sided`, `Rounded.C84_double`, `Rounded.C85_gradient_partial`, `Rounded.C85_viscosity`, `Rounded.C85_acceleration_partial`, `Rounded.C85_dedt_partial`, `Rounded.C85_dudt_partial`, `Rounded.C85_edge_partial`, `Rounded.C85_missed_partial`, `Rounded.C85_momentum_partial`, `Rounded.C85_one_sided_partial`, `Log.C86_one_partial`, `Log.C86_exactly_one`, `Log.C86_rank_violated`, `Log.C86_warn_violated`, `Log.C86_error_violated`, `Log.C86_all_violated`, `Log.C86_all`, `Log.C86_before_start`, `Log.C86_tags_partial`, `Log.C86_tag_count`, `Log.C86_unregistered_violated`, `Log.C86_container_one`, `Log.C86_container_violated`, `Log.C87_outputs_partial`, `Log.C87_any_text`, `Log.C87_unknown_violated`, `Log.C88_stamp_partial`, `Log.C88_order_partial`, `Log.C88_order_violated`, `Log.C88_end`, `TreeDriver.C89_run_partial`, `TreeDriver.C89_uniform`, `TreeDriver.C89_exists`, `Rounded.C90_eos`, `Rounded.C90_energy`, `Rounded.C90_round_trip`, `Rounded.C90_round_trip_ppt`, `Rounded.C90_exponent`, `Rounded.C90_ppt_pressure`, `Rounded.C90_ppt_soundspeed_partial`, `Rounded.C90_ppt_violated`, `Rounded.C90_wd_pressure`, `Rounded.C90_wd_soundspeed_partial`, `Rounded.C90_wd_violated`, `Rounded.C90_recover`, `Rounded.C90_signalspeed`, `Rounded.C90_divv`, `Rounded.C90_state_partial`, `Rounded.C90_acceleration_partial`, `Rounded.C90_dedt_partial`, `Rounded.C90_dudt_partial`, `C91_inside`, `C91_outside`, `C91_reflective_partial`, `C91_image`, `C91_own_inward`, `C91_frozen_partial`, `C91_frozen_violated`, `C91_order`, `C91_repulsive`, `C91_bounded`, `C91_pass`, `C91_balance_partial`, `C91_symmetric`, `C91_rotation_partial`, `C91_twice_violated`, `C91_line_violated`, `C91_balance_violated`, `C92_ends_partial`, `C92_inside_partial`, `C92_density`, `C92_final`, `C92_first`, `C92_moves_partial`, `C92_lengths_partial`, `C92_stop_partial`, `C92_equilibrium`, `C92_length`, `C92_edge_violated`, `C92_neighbours_violated`, `KhGen.C93_layers_partial`, `KhGen.C93_inside_partial`, `KhGen.C93_symmetric_partial`, `KhGen.C93_mass_partial`, `KhGen.C93_mass_violated`, `KhGen.C93_perturbation_partial`, `KhGen.C93_narrow_violated`, `KhGen.C93_interface_violated`, `Rounded.C94_pair`, `Rounded.C94_momentum`, `Rounded.C94_error_bound_partial`, `RoundedUpdate.C95_range`, `RoundedUpdate.C95_keys`, `RoundedUpdate.C95_sorted`, `RoundedUpdate.C95_neighbours_partial`, `RoundedUpdate.C95_gravity_partial`, `RoundedUpdate.C95_density_partial`, `RoundedUpdate.C95_unresolved_violated`, `RoundedClock.C96_fixed`, `RoundedClock.C96_fixed_ends`, `RoundedClock.C96_stuck_violated`, `RoundedClock.C96_step`, `RoundedClock.C96_adaptive_ends_partial`, `RoundedClock.C96_frozen`, `RoundedClock.C96_frozen_violated`, `RoundedClock.C96_output_step`, `RoundedClock.C96_output_times`, `RoundedClock.C96_outputs_partial`, `AdaptRun.C97_division`, `AdaptRun.C97_momentum_partial`, `AdaptRun.C97_polytropic_partial`, `AdaptRun.C97_energy_partial`, `AdaptRun.C97_limits_partial`, `AdaptRun.C97_replay`, `AdaptRun.C97_exists`, `AdaptRun.C97_violated`, `AdaptProgram.C98_refines`, `AdaptProgram.C98_momentum_partial`, `AdaptProgram.C98_energy_partial`, `AdaptProgram.C98_limits_partial`, `AdaptProgram.C98_polytropic_partial`, `AdaptProgram.C98_replay_partial`, `AdaptProgram.C98_exists`, `SodGen.C99_profile_partial`, `SodGen.C99_mass_partial`, `SodGen.C99_lost_violated`, `SodGen.C99_open_partial`, `SodGen.C99_open_violated`, `SodGen.C99_separation_partial`, `SodGen.C99_support_violated`, `SodGen.C99_timestep_partial`, `RandomLattice.C100_points_partial`, `RandomLattice.C100_number_partial`, `RandomLattice.C100_ends`, `RandomLattice.C100_share_partial`, `RandomLattice.C100_offset_violated`, `RandomLattice.C100_tall_violated`, `RandomLattice.C100_profiles`, `AdaptNewton.C101_leapfrog_partial`, `AdaptNewton.C101_momentum_partial`, `AdaptNewton.C101_energy_partial`, `AdaptNewton.C101_limits_partial`, `AdaptNewton.C101_exists`, `AdaptNewton.C101_replay`, `AdaptNewton.C101_polytropic_partial`, `NewtonProgram.C102_refines`, `NewtonProgram.C102_newton_partial`, `NewtonProgram.C102_limits_partial`, `NewtonProgram.C102_polytropic_partial`, `NewtonProgram.C102_replay_partial`, `NewtonProgram.C102_energy_partial`, `NewtonProgram.C102_exists`, `RunOutputs.C103_hydro_partial`, `RunOutputs.C103_program_partial`, `RunOutputs.C103_newton_partial`, `RunOutputs.C103_newton_program_partial`, `RtGen.C104_layers_partial`, `RtGen.C104_periodic_partial`, `RtGen.C104_inside_partial`, `RtGen.C104_distinct_partial`, `RtGen.C104_mass_partial`, `RtGen.C104_perturbation_partial`, `RtGen.C104_timestep_violated`, `RtGen.C104_length_violated`, `DistConserve.C105_fixed_momentum_partial`, `DistConserve.C105_fixed_energy_partial`, `DistConserve.C105_adaptive_momentum_partial`, `DistConserve.C105_adaptive_energy_partial`, `DistConserve.C105_fixed_refines`, `DistConserve.C105_adaptive_refines`, `DistConserve.C105_fixed_trees_partial`, `DistConserve.C105_adaptive_trees_partial`, `DistConserve.C105_exists`, `SnapshotTools.C106_extract`, `SnapshotTools.C106_start_partial`, `SnapshotTools.C106_restart_violated`, `SnapshotTools.C106_separate_violated`, `SnapshotTools.C106_merge_partial`, `SnapshotTools.C106_merge_violated`, `SnapshotTools.C106_trajectory_partial`, `SnapshotTools.C106_first_violated`, `SnapshotTools.C106_slice`, `SnapshotTools.C106_cut_violated`, `BinaryTool.C107_runs`, `BinaryTool.C107_particles`, `BinaryTool.C107_centre`, `BinaryTool.C107_momentum`, `BinaryTool.C107_orbit`, `BinaryTool.C107_shape`, `BinaryTool.C107_point_partial`, `BinaryTool.C107_point_orbit_partial`, `BinaryTool.C107_state_violated`, `BinaryTool.C107_identical_violated`, `BinaryTool.C107_type_violated`, `BinaryTool.C107_energy_violated`, `PnBinary.C108_particles_partial`, `PnBinary.C108_centre_partial`, `PnBinary.C108_axis_partial`, `PnBinary.C108_shape_partial`, `PnBinary.C108_orbit_partial`, `PnBinary.C108_count_violated`, `PnBinary.C108_vz_violated`, `PnBinary.C108_masses_violated`, `UniformSphere.C109_uniform`, `UniformSphere.C109_direction`, `UniformSphere.C109_radial`, `UniformSphere.C109_fills`, `UniformSphere.C109_mass`, `UniformSphere.C109_energy`, `UniformSphere.C109_smoothing`, `UniformSphere.C109_line_violated`, `UniformSphere.C109_size_violated`, `UniformSphere.C109_momentum_violated`, `TovStar.C110_inverse`, `TovStar.C110_pressure`, `TovStar.C110_monotone`, `TovStar.C110_profile`, `TovStar.C110_densities`, `TovStar.C110_neighbours`, `TovStar.C110_cubic`, `TovStar.C110_linear`, `TovStar.C110_structure`, `TovStar.C110_smoothing_violated`, `TovStar.C110_energy_violated`, `TovStar.C110_centre`, `WdStar.C111_pressure`, `WdStar.C111_first_law`, `WdStar.C111_energy`, `WdStar.C111_density_partial`, `WdStar.C111_newton`, `WdStar.C111_tov_partial`, `WdStar.C111_slope_partial`, `WdStar.C111_drop_violated`, `WdStar.C111_small_violated`, `WdStar.C111_centre_violated`, `WdStar.C111_tov_violated`, `WdStar.C111_slope_violated`

## propext, Quot.sound

`C01_push_rejects`, `C01_surjective`, `C06_unrotation`, `C09_map`, `C09_size_partial`, `C09_duplicate`, `Io.C27_not_divisible_violated`, `Io.C27_duplicate_violated`, `Io.C30_single`, `Io.C30_single_violated`, `C45_names`, `C45_all_names`, `C45_generic_names_partial`, `C45_generic_names_violated`, `C46_equal`, `Log.C87_escape_violated`, `Log.C88_size`, `Log.C88_long_violated`
