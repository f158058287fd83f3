/-!
Tables of include/params.h: the parameters which are declared (params.h:160-781) and those which `set_param` knows, with their kinds and in its order
(params.h:834-1365), for a build which defines none of them as a macro.
-/
namespace FleCSPH.Params

/-- How `set_param` reads a parameter: `READ_BOOLEAN_PARAM`, `READ_NUMERIC_PARAM`, `READ_STRING_PARAM` (params.h:100-116), or one of the three blocks for keywords. -/
inductive Kind | boolean | numeric | string | kernel | eos | viscosity
  deriving DecidableEq, Repr

/-- The tests of `set_param`, params.h:834-1365. -/
def known : List (String × Kind) := [
   ("initial_iteration", .numeric), ("final_iteration", .numeric), ("initial_time", .numeric), ("final_time", .numeric), ("initial_dt", .numeric),
   ("timestep_cfl_factor", .numeric), ("adaptive_timestep", .boolean), ("pressure_updates_number", .numeric), ("nparticles", .numeric), ("lattice_nx", .numeric),
   ("sph_eta", .numeric), ("sph_smoothing_length", .numeric), ("sph_separation", .numeric), ("sph_kernel", .kernel), ("sph_sinc_index", .numeric),
   ("sph_update_uniform_h", .boolean), ("sph_variable_h", .boolean), ("domain_type", .numeric), ("box_length", .numeric), ("box_width", .numeric),
   ("box_height", .numeric), ("sphere_radius", .numeric), ("do_boundaries", .boolean), ("stop_boundaries", .boolean), ("reflect_boundaries", .boolean),
   ("periodic_boundary_x", .boolean), ("periodic_boundary_y", .boolean), ("periodic_boundary_z", .boolean), ("lattice_mismatch_tolerance", .numeric),
   ("initial_data_prefix", .string), ("modify_initial_data", .boolean), ("output_h5data_prefix", .string), ("out_screen_every", .numeric), ("out_screen_dt", .numeric),
   ("out_scalar_every", .numeric), ("out_scalar_dt", .numeric), ("out_diagnostic_every", .numeric), ("out_h5data_every", .numeric), ("out_h5data_dt", .numeric),
   ("out_h5data_separate_iterations", .boolean), ("wvt_method", .string), ("wvt_boundary", .string), ("wvt_mu", .numeric), ("wvt_ngb", .numeric),
   ("wvt_convergence_check", .boolean), ("wvt_convergence_point", .numeric), ("wvt_h_ngb", .boolean), ("wvt_cool_down", .numeric), ("wvt_radius", .numeric),
   ("eos_type", .eos), ("eos_tab_file_path", .string), ("poly_gamma", .numeric), ("poly_gamma2", .numeric), ("ppt_density_thr", .numeric), ("sph_viscosity", .viscosity),
   ("sph_viscosity_alpha", .numeric), ("sph_viscosity_beta", .numeric), ("sph_viscosity_epsilon", .numeric), ("sph_viscosity_alpha_max", .numeric),
   ("sph_viscosity_l", .numeric), ("sph_viscosity_delta", .numeric), ("enable_fmm", .boolean), ("fmm_macangle", .numeric), ("relaxation_steps", .numeric),
   ("relaxation_beta", .numeric), ("relaxation_gamma", .numeric), ("relaxation_repulsion_radius", .numeric), ("relaxation_repulsion_gamma", .numeric),
   ("evolve_internal_energy", .boolean), ("thermokinetic_formulation", .boolean), ("external_force_type", .string), ("zero_potential_poison_value", .numeric),
   ("extforce_wall_powerindex", .numeric), ("extforce_wall_steepness", .numeric), ("mesa_rim_width", .numeric), ("gravity_acceleration_constant", .numeric),
   ("gravitational_constant", .numeric), ("orbital_separation", .numeric), ("mass_neutron_star", .numeric), ("mass_white_dwarf", .numeric), ("sodtest_num", .numeric),
   ("equal_mass", .boolean), ("density_profile", .string), ("input_density_file", .string), ("rho_initial", .numeric), ("pressure_initial", .numeric),
   ("uint_initial", .numeric), ("sedov_blast_energy", .numeric), ("sedov_blast_radius", .numeric), ("noh_infall_velocity", .numeric), ("lattice_type", .numeric),
   ("lattice_perturbation_amplitude", .numeric), ("flow_velocity", .numeric), ("density_ratio", .numeric), ("KH_A", .numeric), ("KH_lambda", .numeric),
   ("rt_perturbation_amplitude", .numeric), ("rt_perturbation_stripe_width", .numeric), ("rt_perturbation_mode", .numeric), ("airfoil_size", .numeric),
   ("airfoil_thickness", .numeric), ("airfoil_camber", .numeric), ("airfoil_anchor_x", .numeric), ("airfoil_anchor_y", .numeric), ("airfoil_attack_angle", .numeric)]

/-- The declared parameters, params.h:160-781. -/
def declared : List String := [
   "initial_iteration", "final_iteration", "initial_time", "final_time", "initial_dt", "timestep_cfl_factor", "adaptive_timestep", "pressure_updates_number",
   "nparticles", "lattice_nx", "sph_eta", "sph_smoothing_length", "sph_separation", "sph_kernel", "sph_sinc_index", "sph_update_uniform_h", "sph_variable_h",
   "domain_type", "box_length", "box_width", "box_height", "sphere_radius", "do_boundaries", "stop_boundaries", "reflect_boundaries", "periodic_boundary_x",
   "periodic_boundary_y", "periodic_boundary_z", "lattice_mismatch_tolerance", "initial_data_prefix", "modify_initial_data", "output_h5data_prefix", "out_screen_every",
   "out_screen_dt", "out_scalar_every", "out_scalar_dt", "out_diagnostic_every", "out_h5data_every", "out_h5data_dt", "out_h5data_separate_iterations", "wvt_method",
   "wvt_boundary", "wvt_mu", "wvt_ngb", "wvt_convergence_check", "wvt_convergence_point", "wvt_h_ngb", "wvt_cool_down", "wvt_set_boundary", "wvt_radius", "eos_type",
   "eos_tab_file_path", "poly_gamma", "poly_gamma2", "ppt_density_thr", "sph_viscosity", "sph_viscosity_alpha", "sph_viscosity_beta", "sph_viscosity_epsilon",
   "sph_viscosity_alpha_max", "sph_viscosity_l", "sph_viscosity_delta", "enable_fmm", "fmm_macangle", "fmm_max_cell_mass", "relaxation_steps", "relaxation_beta",
   "relaxation_gamma", "relaxation_repulsion_radius", "relaxation_repulsion_gamma", "evolve_internal_energy", "thermokinetic_formulation", "external_force_type",
   "zero_potential_poison_value", "extforce_wall_powerindex", "extforce_wall_steepness", "mesa_rim_width", "gravity_acceleration_constant", "gravitational_constant",
   "orbital_separation", "mass_neutron_star", "mass_white_dwarf", "sodtest_num", "equal_mass", "density_profile", "input_density_file", "rho_initial",
   "pressure_initial", "uint_initial", "sedov_blast_energy", "sedov_blast_radius", "noh_infall_velocity", "lattice_type", "lattice_perturbation_amplitude",
   "flow_velocity", "density_ratio", "KH_A", "KH_lambda", "rt_perturbation_amplitude", "rt_perturbation_stripe_width", "rt_perturbation_mode", "airfoil_size",
   "airfoil_thickness", "airfoil_camber", "airfoil_anchor_x", "airfoil_anchor_y", "airfoil_attack_angle"]

end FleCSPH.Params
