{
 "claims": [
  {
   "property": "C01",
   "status": "proved",
   "theorems": [
    "FleCSPH.C01_push_builds_path",
    "FleCSPH.C01_push_rejects",
    "FleCSPH.C01_depth",
    "FleCSPH.C01_pop",
    "FleCSPH.C01_pop_root",
    "FleCSPH.C01_popD",
    "FleCSPH.C01_truncate",
    "FleCSPH.C01_injective",
    "FleCSPH.C01_surjective",
    "FleCSPH.C01_order",
    "FleCSPH.C01_min_max",
    "FleCSPH.C01_bounds",
    "FleCSPH.C01_output",
    "FleCSPH.C01_conflict_depth"
   ],
   "note": ""
  },
  {
   "property": "C02",
   "status": "proved",
   "theorems": [
    "FleCSPH.C02_encode",
    "FleCSPH.C02_same_key_iff",
    "FleCSPH.C02_surjective",
    "FleCSPH.C02_decode"
   ],
   "note": ""
  },
  {
   "property": "C03",
   "status": "partial",
   "theorems": [
    "FleCSPH.C03_full_depth_partial",
    "FleCSPH.C03_always_full_depth",
    "FleCSPH.C03_violated"
   ],
   "note": "The code always builds a key of depth max_depth (C03_violated); only d = max_depth works."
  },
  {
   "property": "C04",
   "status": "proved",
   "theorems": [
    "FleCSPH.C04_range_exact",
    "FleCSPH.C04_children_subdivide"
   ],
   "note": ""
  },
  {
   "property": "C05",
   "status": "proved",
   "theorems": [
    "FleCSPH.C05_key_range",
    "FleCSPH.C05_decode_encode",
    "FleCSPH.C05_encode_decode",
    "FleCSPH.C05_injective",
    "FleCSPH.C05_adjacent",
    "FleCSPH.C05_truncated",
    "FleCSPH.C05_points"
   ],
   "note": "Words of 32 to 64 bits, because a coordinate passes through an int."
  },
  {
   "property": "C06",
   "status": "partial",
   "theorems": [
    "FleCSPH.C06_injective_partial",
    "FleCSPH.C06_surjective_partial",
    "FleCSPH.C06_decode_violated",
    "FleCSPH.C06_adjacency_violated",
    "FleCSPH.C06_unrotation"
   ],
   "note": "Encoding is a bijection; decoding is wrong (C06_decode_violated); consecutive keys need not be neighbours."
  },
  {
   "property": "C07",
   "status": "partial",
   "theorems": [
    "FleCSPH.C07_injective_partial",
    "FleCSPH.C07_violated"
   ],
   "note": "The lowest bit of the cell is dropped (C07_violated); pairs of cells are separated."
  },
  {
   "property": "C08",
   "status": "proved",
   "theorems": [
    "FleCSPH.C08_independent",
    "FleCSPH.C08_empty_node"
   ],
   "note": ""
  },
  {
   "property": "C09",
   "status": "partial",
   "theorems": [
    "FleCSPH.C09_map",
    "FleCSPH.C09_size_partial",
    "FleCSPH.C09_size_violated",
    "FleCSPH.C09_duplicate"
   ],
   "note": "find refines a map; size() is indeterminate until the first clear() (C09_size_violated)."
  },
  {
   "property": "C10",
   "status": "proved",
   "theorems": [
    "FleCSPH.C10_canonical",
    "FleCSPH.C10_duplicate_violated"
   ],
   "note": "Distinct keys are assumed by the property; C10_duplicate_violated shows that equal keys make build_tree run into undefined behaviour."
  },
  {
   "property": "C11",
   "status": "partial",
   "theorems": [
    "FleCSPH.C11_summaries",
    "FleCSPH.Startup.C11_shared_partial"
   ],
   "note": "C11_summaries: the nodes every process computes itself in build_tree, any number of processes. C11_shared_partial: on 2^m processes, after share_nodes_, every node in the table of every process (also those completed from the summaries of others) summarises exactly the particles of all processes it holds. Missing: other numbers of processes, where the top nodes lack data (C17_other_violated)."
  },
  {
   "property": "C12",
   "status": "proved",
   "theorems": [
    "FleCSPH.C12_exact"
   ],
   "note": ""
  },
  {
   "property": "C13",
   "status": "partial",
   "theorems": [
    "FleCSPH.C13_partial",
    "FleCSPH.C13_uniform",
    "FleCSPH.C13_violated",
    "FleCSPH.SphRun.C13_distributed_partial",
    "FleCSPH.SphRun.C13_distributed_uniform",
    "FleCSPH.SphRun.C13_sequence_partial"
   ],
   "note": "Complete and exact for the mean of the two smoothing lengths, on one process (C13_partial) and on 2^m processes from the keys through the start of the traversal, the groups of cells and the ghost exchange to the calls of the user's function, for every order of messages (C13_distributed_partial), also when any number of searches and computations of gravity ran on the same tree before (C13_sequence_partial); equal smoothing lengths give the full claim (C13_uniform, C13_distributed_uniform). With different smoothing lengths the search radius is not the maximum of the two (C13_violated)."
  },
  {
   "property": "C14",
   "status": "partial",
   "theorems": [
    "FleCSPH.C14_exactly_once",
    "FleCSPH.Startup.C14_built_partial",
    "FleCSPH.Startup.C14_built_leaves",
    "FleCSPH.Ghosts.C14_distributed",
    "FleCSPH.Ghosts.C14_distributed_calls",
    "FleCSPH.Ghosts.C14_sizes_needed"
   ],
   "note": "C14_exactly_once: tree of a single process, from the keys. C14_built_partial: 2^m processes, from the keys through build_tree and share_nodes_ to the end of the traversal, any message order. C14_distributed: any number of processes from any state a traversal can start from (Start). Both need that entities have radius 0 (Sizes; C14_sizes_needed shows the condition is used). Missing: numbers of processes other than powers of two, where share_nodes_ loses nodes (C17_other_violated)."
  },
  {
   "property": "C15",
   "status": "proved",
   "theorems": [
    "FleCSPH.C15_criterion",
    "FleCSPH.C15_error_bound",
    "FleCSPH.C15_antisymmetric",
    "FleCSPH.C15_no_self",
    "FleCSPH.C15_taylor"
   ],
   "note": "Exact real arithmetic. Beyond the property: error bound against Newton's law, exact at zero angle; on several processes see C76."
  },
  {
   "property": "C16",
   "status": "proved",
   "theorems": [
    "FleCSPH.C16_distributed"
   ],
   "note": ""
  },
  {
   "property": "C17",
   "status": "partial",
   "theorems": [
    "FleCSPH.Share.C17_power_partial",
    "FleCSPH.Share.C17_matched",
    "FleCSPH.Share.C17_other_violated",
    "FleCSPH.Share.C17_three_violated",
    "FleCSPH.Startup.C17_tables_partial"
   ],
   "note": "Proved for powers of two: C17_power_partial (every item, each once, and the global bounds) and C17_tables_partial (from the keys: the tables of all processes hold exactly the wanted cells with the data of the global tree). For every other number of processes the last process of the lower half misses everything of the upper half (C17_other_violated); on three processes process 1 moreover gets the bounds of process 2 without its nodes (C17_three_violated). C17_matched: the exchanges always meet, for every number of processes."
  },
  {
   "property": "C18",
   "status": "partial",
   "theorems": [
    "FleCSPH.Startup.C18_start_partial",
    "FleCSPH.Startup.C18_built_partial",
    "FleCSPH.Ghosts.C18_safe",
    "FleCSPH.Ghosts.C18_once",
    "FleCSPH.Ghosts.C18_complete",
    "FleCSPH.Ghosts.C18_visited",
    "FleCSPH.Ghosts.C18_single",
    "FleCSPH.Ghosts.C18_bounded",
    "FleCSPH.Ghosts.C18_progress",
    "FleCSPH.Ghosts.C18_end",
    "FleCSPH.Ghosts.C18_can_end",
    "FleCSPH.Ghosts.C18_served",
    "FleCSPH.Ghosts.C18_again",
    "FleCSPH.Ghosts.C18_order_needed",
    "FleCSPH.Ghosts.C18_fmm_safe",
    "FleCSPH.Ghosts.C18_fmm_once",
    "FleCSPH.Ghosts.C18_fmm_complete",
    "FleCSPH.Ghosts.C18_fmm_bounded",
    "FleCSPH.Ghosts.C18_fmm_progress",
    "FleCSPH.Ghosts.C18_fmm_can_end",
    "FleCSPH.Ghosts.C18_fmm_served",
    "FleCSPH.Ghosts.C18_fmm_again",
    "FleCSPH.Ghosts.C18_fmm_end"
   ],
   "note": "Proved for traversal_sph and traversal_fmm on any number of processes from any state in which the tables fit together (Start): every interleaving and every message order MPI allows (only the two replies of one request keep their order, which C18_order_needed shows is required). No undefined behaviour, no key requested twice, no early exit, bounded number of changing steps, no deadlock, results equal the single-process ones, and any sequence of traversals on one tree. C18_start_partial and C18_built_partial: on 2^m processes build_tree with share_nodes_ leads to such a state, so everything holds from the keys on. Missing: numbers of processes other than powers of two, where share_nodes_ loses nodes (C17_other_violated)."
  },
  {
   "property": "C19",
   "status": "partial",
   "theorems": [
    "FleCSPH.C19_psort_partial",
    "FleCSPH.C19_particles_partial",
    "FleCSPH.C19_dist_violated",
    "FleCSPH.C19_empty_first_violated",
    "FleCSPH.C19_hole_violated"
   ],
   "note": "Sort proved for arbitrary process counts, sizes and std::sort; precondition: dist = current local sizes and no process empty before a nonempty one. C19_dist_violated, C19_empty_first_violated, C19_hole_violated show the code aborts or reads out of bounds without them."
  },
  {
   "property": "C20",
   "status": "partial",
   "theorems": [
    "FleCSPH.C20_partial",
    "FleCSPH.C20_violated",
    "FleCSPH.C20_min_violated"
   ],
   "note": "Proved when all keys lie strictly between the smallest and largest key and processes do not outnumber samples. C20_violated: any particle with the largest key makes the bucket loop read past the splitters; C20_min_violated: all keys smallest fails an assertion."
  },
  {
   "property": "C21",
   "status": "partial",
   "theorems": [
    "FleCSPH.C21_alltoallv_partial",
    "FleCSPH.C21_allgatherv_partial",
    "FleCSPH.C21_each_partial",
    "FleCSPH.C21_violated"
   ],
   "note": "Exchange proved correct when byte counts and displacements fit int; C21_violated: with 2^32 bytes in a block the int count wraps and data is silently lost."
  },
  {
   "property": "C22",
   "status": "partial",
   "theorems": [
    "FleCSPH.C22_particle_order",
    "FleCSPH.C22_entity_order_partial",
    "FleCSPH.C22_entity_order_violated"
   ],
   "note": "The particle order modelled with the comparisons of the code. entity::operator< is <=, which the theorem names."
  },
  {
   "property": "C23",
   "status": "partial",
   "theorems": [
    "FleCSPH.C23_within_distance2",
    "FleCSPH.C23_within_distance2_violated",
    "FleCSPH.C23_within_partial",
    "FleCSPH.C23_within_violated",
    "FleCSPH.C23_within_square",
    "FleCSPH.C23_within_box_1d",
    "FleCSPH.C23_within_box_partial",
    "FleCSPH.C23_within_box_violated",
    "FleCSPH.C23_box_box",
    "FleCSPH.C23_sphere_sphere_3d",
    "FleCSPH.C23_sphere_sphere_partial",
    "FleCSPH.C23_sphere_box_3d",
    "FleCSPH.C23_sphere_box_partial"
   ],
   "note": "Geometric predicates against point-set specifications; tolerances and lower faces are exactly characterised, violations shown where the code departs from the set meaning."
  },
  {
   "property": "C24",
   "status": "partial",
   "theorems": [
    "FleCSPH.C24_wrap_partial",
    "FleCSPH.C24_far_violated",
    "FleCSPH.C24_box_violated"
   ],
   "note": "Holds for particles at most one box length outside (C24_wrap_partial). The box length is added or subtracted only once, so a particle further away stays outside (C24_far_violated); in 1D and 2D the construction of the box writes outside the corner points (C24_box_violated)."
  },
  {
   "property": "C25",
   "status": "partial",
   "theorems": [
    "FleCSPH.C25_sound",
    "FleCSPH.C25_complete_partial",
    "FleCSPH.C25_small_box_violated"
   ],
   "note": "Soundness in full. Completeness for boxes at least two halos long (C25_complete_partial); in shorter boxes images are missing (C25_small_box_violated)."
  },
  {
   "property": "C26",
   "status": "partial",
   "theorems": [
    "FleCSPH.C26_ids_partial",
    "FleCSPH.C26_only_ghosts_violated",
    "FleCSPH.C26_only_ghosts_reached",
    "FleCSPH.C26_check"
   ],
   "note": "Along every history in which each process keeps a real particle. A process with only ghosts or no particle stops the run (C26_only_ghosts_violated), and such a state is reached (C26_only_ghosts_reached). C26_check: the internal check fails unless the ids add up to those of 0..N-1."
  },
  {
   "property": "C27",
   "status": "partial",
   "theorems": [
    "FleCSPH.Io.C27_divisible_partial",
    "FleCSPH.Io.C27_not_divisible_violated",
    "FleCSPH.Io.C27_duplicate_violated",
    "FleCSPH.Io.C27_ghosts_violated"
   ],
   "note": "Only when the number of processes divides N (C27_divisible_partial). Otherwise the assertion of the last process fails, and without assertions ids are duplicated. The ids 1..N are never accepted by the ghost generation, which needs 0..N-1 (C27_ghosts_violated)."
  },
  {
   "property": "C28",
   "status": "proved",
   "theorems": [
    "FleCSPH.Io.C28_read",
    "FleCSPH.Io.C28_disjoint",
    "FleCSPH.Io.C28_write",
    "FleCSPH.Io.C28_round_trip"
   ],
   "note": "Reading, writing in every order of the processes, and reading back on another number of processes."
  },
  {
   "property": "C29",
   "status": "partial",
   "theorems": [
    "FleCSPH.Io.C29_round_trip_partial",
    "FleCSPH.Io.C29_large_violated",
    "FleCSPH.Io.C29_accepted_partial",
    "FleCSPH.Io.C29_opened",
    "FleCSPH.Io.C29_accepted_violated",
    "FleCSPH.Io.C29_inside_partial",
    "FleCSPH.Io.C29_inside_violated"
   ],
   "note": "Round trip below step 100000; from there on names are rejected (C29_large_violated). Accepted names are snapshots if the prefix does not contain the extension (C29_accepted_violated otherwise). Short names of digits make the parser read outside (C29_inside_violated)."
  },
  {
   "property": "C30",
   "status": "partial",
   "theorems": [
    "FleCSPH.Io.C30_found_partial",
    "FleCSPH.Io.C30_missing_partial",
    "FleCSPH.Io.C30_missing_violated",
    "FleCSPH.Io.C30_single",
    "FleCSPH.Io.C30_single_violated"
   ],
   "note": "Found if present, in every order of listing. If absent the code returns the snapshot listed last instead of a failure (C30_missing_violated). In a single file only the first 1000000 steps are searched."
  },
  {
   "property": "C31",
   "status": "partial",
   "theorems": [
    "FleCSPH.C31_partial",
    "FleCSPH.C31_gaussian_partial",
    "FleCSPH.C31_gaussian_violated",
    "FleCSPH.C31_super_gaussian_violated",
    "FleCSPH.C31_sinc_partial",
    "FleCSPH.C31_sinc_violated"
   ],
   "note": "Cubic and quintic splines and Wendland C2/C4/C6: all four clauses, all dimensions, all h > 0. The Gaussian kernel is compared with <= 3 and is positive at r = h (C31_gaussian_violated), otherwise fine; the super-Gaussian takes negative values (C31_super_gaussian_violated); the sinc kernel is non-negative, supported and non-increasing for indices 1..1000 but has a jump where its series branch ends (C31_sinc_violated)."
  },
  {
   "property": "C32",
   "status": "partial",
   "theorems": [
    "FleCSPH.C32_partial",
    "FleCSPH.C32_gaussian_partial",
    "FleCSPH.C32_sinc_partial",
    "FleCSPH.C32_antisymmetric",
    "FleCSPH.C32_support",
    "FleCSPH.C32_gaussian_violated",
    "FleCSPH.C32_sinc_violated"
   ],
   "note": "Directional derivative = gradient . direction up to the TINY factor, for the polynomial kernels everywhere (p = 0 included), for the Gaussians inside the support, for sinc beyond the series branch; antisymmetry and support for every kernel. Gaussian has no derivative at r = h; the series branch of the sinc gradient has a wrong second-order coefficient (C32_sinc_violated)."
  },
  {
   "property": "C33",
   "status": "partial",
   "theorems": [
    "FleCSPH.C33_partial",
    "FleCSPH.C33_violated"
   ],
   "note": "Lebesgue integral over EuclideanSpace in dimensions 1, 2, 3, each polynomial kernel, every h > 0, except the quintic spline in 3D, whose integral is 360/359 (C33_violated: 81/(359 pi) should be 81/(360 pi))."
  },
  {
   "property": "C34",
   "status": "proved",
   "theorems": [
    "FleCSPH.C34_momentum",
    "FleCSPH.C34_traversal_lists",
    "FleCSPH.C34_fresh",
    "FleCSPH.C34_run",
    "FleCSPH.DistRun.C34_processes"
   ],
   "note": "computeAcceleration with every kernel and both viscosities, any visiting order. C34_traversal_lists shows that the neighbour lists the tree traversal delivers on one process meet the hypothesis. C34_fresh: nothing of earlier forces is left. C34_run: whole runs; C34_processes: whole runs on any number of processes (constant viscosity, fixed time step)."
  },
  {
   "property": "C35",
   "status": "proved",
   "theorems": [
    "FleCSPH.C35_total_energy",
    "FleCSPH.C35_internal_plus_kinetic",
    "FleCSPH.C35_run",
    "FleCSPH.DistRun.C35_processes"
   ],
   "note": "Thermokinetic formulation and internal energy formulation separately; exact real arithmetic. C35_run: whole runs; C35_processes: whole runs on any number of processes (constant viscosity, fixed time step)."
  },
  {
   "property": "C36",
   "status": "partial",
   "theorems": [
    "FleCSPH.C36_partial",
    "FleCSPH.C36_violated",
    "FleCSPH.C36_run_partial",
    "FleCSPH.DistRun.C36_processes_partial"
   ],
   "note": "Positive for the polynomial, Gaussian and sinc kernels; C36_run_partial for whole runs of a polytropic gas, C36_processes_partial for such runs on any number of processes. The super-Gaussian kernel is negative in its outer part; a heavy neighbour there makes the density negative and the assertion fails (C36_violated)."
  },
  {
   "property": "C37",
   "status": "partial",
   "theorems": [
    "FleCSPH.C37_viscous_pressure",
    "FleCSPH.C37_heating_partial",
    "FleCSPH.C37_violated"
   ],
   "note": "Viscous pressure: sign, symmetry, zero when receding. Heating proved for velocities equal to the half-step velocities. The driver computes dudt with kicked velocities and the viscosity of the half step: cooling is possible (C37_violated)."
  },
  {
   "property": "C38",
   "status": "partial",
   "theorems": [
    "FleCSPH.C38_selected",
    "FleCSPH.C38_soundspeed",
    "FleCSPH.C38_polytropic",
    "FleCSPH.C38_ideal",
    "FleCSPH.C38_piecewise",
    "FleCSPH.C38_white_dwarf",
    "FleCSPH.C38_white_dwarf_zero_density_violated"
   ],
   "note": "Exact reals. C38_selected and C38_soundspeed state it for the functions select() installs. Piecewise polytrope is continuous at the joint; the white dwarf formulae divide 0/0 at zero density (violated)."
  },
  {
   "property": "C39",
   "status": "proved",
   "theorems": [
    "FleCSPH.C39_leapfrog",
    "FleCSPH.C39_energy",
    "FleCSPH.C39_hydro"
   ],
   "note": "C39_leapfrog for every force field which depends on positions; C39_hydro for the iteration of the hydro driver itself with inviscid polytropic gas."
  },
  {
   "property": "C40",
   "status": "partial",
   "theorems": [
    "FleCSPH.C40_energy",
    "FleCSPH.C40_particle_limit",
    "FleCSPH.C40_no_output_partial",
    "FleCSPH.C40_single_output_partial",
    "FleCSPH.C40_start",
    "FleCSPH.C40_equal_partial",
    "FleCSPH.C40_several_violated",
    "FleCSPH.C40_violated"
   ],
   "note": "Particle limit for all inputs (C40_energy: exactly which limit the thermokinetic criterion chooses and when it stops the program); global step with no timed output, with one kind of timed output and limits up to 0.9 of its interval, and over every history with several timed outputs of the same interval (C40_equal_partial). C40_violated: with growing limits and timed screen output the step becomes negative. C40_several_violated: with screen and scalar outputs of different intervals it is too long and then negative although all limits are constant and smaller than every interval."
  },
  {
   "property": "C41",
   "status": "partial",
   "theorems": [
    "FleCSPH.C41_times_partial",
    "FleCSPH.C41_written_partial",
    "FleCSPH.C41_equal_times_partial",
    "FleCSPH.C41_equal_written_partial",
    "FleCSPH.C41_initial_violated",
    "FleCSPH.C41_fixed_step_violated",
    "FleCSPH.C41_violated",
    "FleCSPH.C41_several_violated",
    "FleCSPH.C41_every"
   ],
   "note": "One kind of timed output and limits up to 0.9 of its interval: time increases strictly over every history, every output time reached is hit exactly, output is written exactly then; the same for several outputs of the same interval (C41_equal_times_partial, C41_equal_written_partial). C41_every: outputs by iteration number. Violations: scalar/data output of the initial time is lost in adaptive runs, fixed-step runs write every iteration, an output time can be jumped over, by growing limits (C41_violated) or by two outputs of different intervals (C41_several_violated)."
  },
  {
   "property": "C42",
   "status": "partial",
   "theorems": [
    "FleCSPH.C42_walls",
    "FleCSPH.C42_spherical_wall",
    "FleCSPH.C42_gravity",
    "FleCSPH.C42_orbit",
    "FleCSPH.C42_support_partial",
    "FleCSPH.C42_support_violated",
    "FleCSPH.C42_airfoil_partial",
    "FleCSPH.C42_airfoil_violated",
    "FleCSPH.C42_total_partial"
   ],
   "note": "Walls, spherical wall, gravity, orbit proved everywhere they are defined. Airfoil and density support only where potential is smooth; the airfoil's potential jumps at the trailing edge and the support force of a parabolic profile is zeroed below radius 1e-12 (both _violated). C42_total_partial: any selection string. Density tables are not covered: their derivative column is arbitrary data."
  },
  {
   "property": "C43",
   "status": "partial",
   "theorems": [
    "FleCSPH.C43_constant",
    "FleCSPH.C43_parabolic",
    "FleCSPH.C43_mesa_partial",
    "FleCSPH.C43_mesa_violated"
   ],
   "note": "Constant and parabolic profiles for every radius. Mesa up to 0.9999 of the radius; beyond, density is cut to zero while the mass grows, and mass is 0 beyond the surface (C43_mesa_violated)."
  },
  {
   "property": "C44",
   "status": "partial",
   "theorems": [
    "FleCSPH.C44_search",
    "FleCSPH.C44_search_outside",
    "FleCSPH.C44_cubic_exact",
    "FleCSPH.C44_nodes",
    "FleCSPH.C44_violated",
    "FleCSPH.C44_above_violated"
   ],
   "note": "Binary search brackets every abscissa of the table's range; interpolation reproduces cubics exactly and the nodes. Outside the range or with fewer than 4 points the code reads outside of the table or extrapolates (violated)."
  },
  {
   "property": "C45",
   "status": "partial",
   "theorems": [
    "FleCSPH.C45_symmetric",
    "FleCSPH.C45_all_used",
    "FleCSPH.C45_size",
    "FleCSPH.C45_names",
    "FleCSPH.C45_all_names",
    "FleCSPH.C45_generic",
    "FleCSPH.C45_generic_names_partial",
    "FleCSPH.C45_generic_names_violated"
   ],
   "note": "All ranks 2-4, every dimension; one slot per multiset (C45_symmetric, C45_all_used, C45_size); all names (C45_names). Generic tensors: mixed radix bijection; names only for equal dimensions, C45_generic_names_violated shows an out-of-range access otherwise."
  },
  {
   "property": "C46",
   "status": "partial",
   "theorems": [
    "FleCSPH.C46_compound_partial",
    "FleCSPH.C46_violated",
    "FleCSPH.C46_scalar",
    "FleCSPH.C46_binary",
    "FleCSPH.C46_assign",
    "FleCSPH.C46_equal"
   ],
   "note": "Right for different objects, scalars, binary operators, assignment; a += a and a -= a are no-ops (C46_violated)."
  },
  {
   "property": "C47",
   "status": "partial",
   "theorems": [
    "FleCSPH.C47_1d",
    "FleCSPH.C47_2d",
    "FleCSPH.C47_3d_rectangular",
    "FleCSPH.C47_3d_hcp_partial",
    "FleCSPH.C47_3d_fcc_partial",
    "FleCSPH.C47_3d_other",
    "FleCSPH.C47_3d_fcc_violated",
    "FleCSPH.C47_3d_hcp_box_violated",
    "FleCSPH.C47_circle_violated",
    "FleCSPH.C47_no_separation",
    "FleCSPH.C47_fill_1d",
    "FleCSPH.C47_fill_2d_rectangular",
    "FleCSPH.C47_fill_2d_triangular",
    "FleCSPH.C47_fill_3d_rectangular",
    "FleCSPH.C47_fill_3d_hcp",
    "FleCSPH.C47_fill_3d_fcc_partial",
    "FleCSPH.C47_margin_1d",
    "FleCSPH.C47_margin_2d",
    "FleCSPH.C47_margin_3d"
   ],
   "note": "Real arithmetic. 1D, 2D (rectangular, triangular), 3D rectangular, hcp and fcc: the counting pass and the writing pass agree, slots from posid on are written, particles are in the box and at least one separation apart; C47_fill_*: no site of the lattice inside of the domain (a millionth of the width off the upper faces) is left out. Violated: fcc with five or more layers (the fifth layer lies right above the fourth), hcp below the lower faces when the separation is under the tolerance, the circle of the domain test is shifted by the tolerance. A separation <= 0 never ends."
  },
  {
   "property": "C48",
   "status": "partial",
   "theorems": [
    "FleCSPH.C48_closed_forms_partial",
    "FleCSPH.C48_shell_partial",
    "FleCSPH.C48_closed_forms_violated",
    "FleCSPH.C48_generator_partial",
    "FleCSPH.C48_on_shells",
    "FleCSPH.C48_all_placed_partial",
    "FleCSPH.C48_generator_violated",
    "FleCSPH.C48_thirteen"
   ],
   "note": "Checked 32-bit arithmetic; real positions, arbitrary density profile and stopping criterion. Closed forms exact up to 599 shells (14654 for one shell); beyond them int overflow, shown for every k. Generator: both passes agree, never more than the closed form, exactly as many when shells stay clear of the domain surface; all particles lie on spheres strictly inside the half width."
  },
  {
   "property": "C49",
   "status": "partial",
   "theorems": [
    "FleCSPH.C49_comments",
    "FleCSPH.C49_file_partial",
    "FleCSPH.C49_line_partial",
    "FleCSPH.C49_unknown",
    "FleCSPH.C49_declared_violated",
    "FleCSPH.C49_hash_violated",
    "FleCSPH.C49_long_violated",
    "FleCSPH.C49_crlf_violated",
    "FleCSPH.C49_names"
   ],
   "note": "Strings as lists of characters, the table of parameters extracted from params.h. Every file of documented lines is read, the last assignment wins, comments and blank lines change nothing. Violated: # inside quotes cuts the string and loses one more character; strings of 511+ characters overflow; CRLF files abort or read flags as false; wvt_set_boundary and fmm_max_cell_mass are declared but rejected. Conversion of text to numbers is not modelled."
  },
  {
   "property": "C50",
   "status": "partial",
   "theorems": [
    "FleCSPH.C50_violated",
    "FleCSPH.C50_expected_partial",
    "FleCSPH.C50_momentum_violated"
   ],
   "note": "The answer of check_conservation is true for every file scalar_output writes (C50_violated): the header stops the reader. On files of the layout the reader expects, without header, the answer for mass and energy is right (C50_expected_partial); the tests of momenta compare addresses and always fail (C50_momentum_violated). Missing: nothing more can be proved of the code as it is; number formatting is not modelled."
  },
  {
   "property": "C51",
   "status": "partial",
   "theorems": [
    "FleCSPH.C51_partial",
    "FleCSPH.C51_violated"
   ],
   "note": "Galilean invariance and the gradient of linear fields; C51_violated names where the code's divergence differs from the statement."
  },
  {
   "property": "C52",
   "status": "partial",
   "theorems": [
    "FleCSPH.C52_range_partial",
    "FleCSPH.C52_keys_partial",
    "FleCSPH.C52_violated"
   ],
   "note": "Range computed by the reduction; violated when a process has no local particle."
  },
  {
   "property": "C53",
   "status": "partial",
   "theorems": [
    "FleCSPH.C53_round_trip_partial",
    "FleCSPH.C53_line_violated",
    "FleCSPH.C53_origin_violated",
    "FleCSPH.C53_tangential_partial",
    "FleCSPH.C53_tangential_violated",
    "FleCSPH.C53_stays_partial",
    "FleCSPH.C53_far_violated",
    "FleCSPH.C53_fast_violated",
    "FleCSPH.C53_reflected",
    "FleCSPH.C53_line_reflected_violated"
   ],
   "note": "The code violates the full statement: on the line the sign is lost, at the origin of space it divides by zero, remove_radial_acc returns twice the tangential part, far or very fast particles leave the sphere, and on the line a particle leaving on the left comes back on the right. The partial theorems give the exact conditions under which it holds."
  },
  {
   "property": "C54",
   "status": "partial",
   "theorems": [
    "FleCSPH.C54_violated"
   ],
   "note": "max_depth() is at least D-1 on rank 0 whatever the tree (C54_violated)."
  },
  {
   "property": "C55",
   "status": "partial",
   "theorems": [
    "FleCSPH.C55_density",
    "FleCSPH.C55_rates",
    "FleCSPH.C55_alpha",
    "FleCSPH.C55_state_partial",
    "FleCSPH.C55_violated"
   ],
   "note": "Density, rates and alpha passes do not depend on the order in which particles are visited; the signal speed does (C55_violated)."
  },
  {
   "property": "C56",
   "status": "proved",
   "theorems": [
    "FleCSPH.C56_angular_momentum",
    "FleCSPH.C56_run"
   ],
   "note": "C56_run: over any run of the hydro driver."
  },
  {
   "property": "C57",
   "status": "partial",
   "theorems": [
    "FleCSPH.C57_drag",
    "FleCSPH.C57_dudt_violated",
    "FleCSPH.C57_repulsion_momentum"
   ],
   "note": "Drag and repulsion as accelerations; drag also cools the internal energy in the dudt formulation (C57_dudt_violated)."
  },
  {
   "property": "C58",
   "status": "partial",
   "theorems": [
    "FleCSPH.C58_indicator",
    "FleCSPH.C58_expansion",
    "FleCSPH.C58_update",
    "FleCSPH.C58_history_partial",
    "FleCSPH.C58_violated",
    "FleCSPH.AlphaRange.C58_fixed_partial",
    "FleCSPH.AlphaRange.C58_adaptive_partial",
    "FleCSPH.AlphaRange.C58_newton_partial",
    "FleCSPH.AlphaRange.C58_newton_adaptive_partial",
    "FleCSPH.AlphaRange.C58_program_partial",
    "FleCSPH.AlphaRange.C58_program_adaptive_partial",
    "FleCSPH.AlphaRange.C58_program_newton_partial",
    "FleCSPH.AlphaRange.C58_program_newton_adaptive_partial"
   ],
   "note": "alpha stays in [0, alpha_max] over every history of particles with neighbours (C58_history_partial), and after any number of iterations of whole runs: hydro and newtonian drivers on several processes, the programs with their trees, fixed and adaptive steps (C58_fixed_partial ... C58_program_newton_adaptive_partial, in Props/C58run.lean). C58_indicator: the shock indicator lies in [-1,1] and is 1/-1 in expansion/compression; C58_expansion: no rise in expansion. Missing: runs in which an update divides zero by zero (an isolated particle, C58_violated), and rounding."
  },
  {
   "property": "C59",
   "status": "partial",
   "theorems": [
    "FleCSPH.C59_first_law_polytropic",
    "FleCSPH.C59_ideal",
    "FleCSPH.C59_first_law_piecewise",
    "FleCSPH.C59_first_law_white_dwarf",
    "FleCSPH.C59_white_dwarf_violated"
   ],
   "note": "Polytropic, ideal and piecewise: dE/drho = P/rho^2 and c^2 = dP/drho at constant entropy. White dwarf: the first law holds, the sound speed of the code is not the derivative of its own pressure (C59_white_dwarf_violated)."
  },
  {
   "property": "C60",
   "status": "proved",
   "theorems": [
    "FleCSPH.C60_clock"
   ],
   "note": "Over the model of the hydro main loop; vmid is the velocity with which the particle drifts. The first iteration does not move particles."
  },
  {
   "property": "C61",
   "status": "partial",
   "theorems": [
    "FleCSPH.C61_restart_partial",
    "FleCSPH.C61_violated"
   ],
   "note": "Proved for an inviscid polytropic gas with fixed smoothing lengths and fixed time step. C61_violated: with adaptive steps, timed screen output and initial_time left at its default 0 the first iteration after a restart sets the clock back. Missing (and false in general): variable smoothing lengths (forces are recomputed with the updated h), viscosity (vhalf is replaced by vel), evolved energies, the second call of set_adaptive_timestep in the first iteration."
  },
  {
   "property": "C62",
   "status": "proved",
   "theorems": [
    "FleCSPH.C62_no_deadlock",
    "FleCSPH.C62_progress"
   ],
   "note": "Small-step network semantics; progress from every reachable state and delivery at every terminal state."
  },
  {
   "property": "C63",
   "status": "proved",
   "theorems": [
    "FleCSPH.C63_volume"
   ],
   "note": "Over the reals, with the Lebesgue volume of the Euclidean ball as specification."
  },
  {
   "property": "C64",
   "status": "proved",
   "theorems": [
    "FleCSPH.C64_run",
    "FleCSPH.C64_run_past",
    "FleCSPH.C64_convergence",
    "FleCSPH.C64_cool_down"
   ],
   "note": "Convergence checks are an arbitrary sequence in C64_run; C64_convergence describes one check."
  },
  {
   "property": "C65",
   "status": "partial",
   "theorems": [
    "FleCSPH.Io.C65_clear_partial",
    "FleCSPH.Io.C65_directory_violated"
   ],
   "note": "Holds when the output prefix has no directory part; otherwise the removal acts on the working directory (C65_directory_violated)."
  },
  {
   "property": "C66",
   "status": "partial",
   "theorems": [
    "FleCSPH.C66_shapes",
    "FleCSPH.C66_sinc_partial",
    "FleCSPH.C66_sinc_near"
   ],
   "note": "C66_shapes: all kernels but sinc, all dimensions, exact reals. sinc: exact from r = h/10^6 on; nearer the centre the code replaces sin x / x by a polynomial which is within 10^-24 (C66_sinc_near). The constants are C33."
  },
  {
   "property": "C67",
   "status": "proved",
   "theorems": [
    "FleCSPH.C67_stop",
    "FleCSPH.C67_iterations",
    "FleCSPH.C67_time",
    "FleCSPH.C67_ends",
    "FleCSPH.C67_endless"
   ],
   "note": "Main loop of the hydro driver over any sequence of neighbour searches; stop criterion, number of iterations, termination, no termination without a criterion. A final iteration before the initial one still makes one iteration. C67_iterations/time say when it ends if it ends; that no iteration aborts is C36. Exact arithmetic; the clock with rounding is C96, where a run can fail to end."
  },
  {
   "property": "C68",
   "status": "proved",
   "theorems": [
    "FleCSPH.C68_variable",
    "FleCSPH.C68_uniform",
    "FleCSPH.C68_fixed"
   ],
   "note": "compute_smoothinglength and compute_average_smoothinglength, exact reals; the sum over processes is one sum over all particles."
  },
  {
   "property": "C69",
   "status": "partial",
   "theorems": [
    "FleCSPH.C69_momentum_partial",
    "FleCSPH.C69_violated",
    "FleCSPH.DistGravity.C69_distributed_partial"
   ],
   "note": "Holds unless two different nodes of the tree have equal radii, on one process and on 2^m processes (C69_distributed_partial); otherwise the cells are split one-sidedly and C69_violated gives four particles on a line whose forces do not cancel. Exact reals."
  },
  {
   "property": "C70",
   "status": "partial",
   "theorems": [
    "FleCSPH.DistRun.C70_processes_partial",
    "FleCSPH.DistRun.C70_single_partial",
    "FleCSPH.DistRun.C70_exists",
    "FleCSPH.DistRun.C70_lists",
    "FleCSPH.DistRun.C70_violated"
   ],
   "note": "Constant viscosity and fixed time step: any two runs on any numbers of processes agree on the clock and all particle data but the signal speed, or both fail (C70_processes_partial), and agree with the one-process driver (C70_single_partial); such runs exist (C70_exists); the lists of the distributed traversal are of the assumed kind (C70_lists). The adaptive time step, for which the property fails, is in C97. With the adaptive viscosity it fails as well (C70_violated); what such runs conserve is in C105."
  },
  {
   "property": "C71",
   "status": "partial",
   "theorems": [
    "FleCSPH.Reductions.C71_columns_partial",
    "FleCSPH.Reductions.C71_column_violated",
    "FleCSPH.Reductions.C71_run",
    "FleCSPH.Reductions.C71_run_energy"
   ],
   "note": "Columns = totals of all fluid particles for every division (C71_columns_partial), constant over runs on any number of processes (C71_run, C71_run_energy). Excluded setting: 1D/2D, self-gravity, no evolution of internal energy: there the column internal_energy holds the gravitational energy (C71_column_violated)."
  },
  {
   "property": "C72",
   "status": "partial",
   "theorems": [
    "FleCSPH.Reductions.C72_smoothing",
    "FleCSPH.Reductions.C72_neighbors_partial",
    "FleCSPH.Reductions.C72_run_partial",
    "FleCSPH.Reductions.C72_velocity_partial",
    "FleCSPH.Reductions.C72_max_violated",
    "FleCSPH.Reductions.C72_velocity_violated",
    "FleCSPH.Reductions.C72_rest_violated",
    "FleCSPH.Reductions.C72_empty_violated"
   ],
   "note": "Smoothing lengths right for every division (C72_smoothing). Neighbour numbers: least and average right, the greatest is that of all outputs so far (C72_neighbors_partial, C72_run_partial, C72_max_violated), every process needs a particle (C72_empty_violated). Speeds right on one process for speeds of normal size (C72_velocity_partial); C72_velocity_violated, C72_rest_violated. Uninitialised neighbour counts are not modelled."
  },
  {
   "property": "C73",
   "status": "partial",
   "theorems": [
    "FleCSPH.IdGen.C73_mass_partial",
    "FleCSPH.IdGen.C73_interval_violated",
    "FleCSPH.IdGen.C73_profile",
    "FleCSPH.IdGen.C73_profile_violated",
    "FleCSPH.IdGen.C73_energy_partial",
    "FleCSPH.IdGen.C73_pressure",
    "FleCSPH.IdGen.C73_empty_violated",
    "FleCSPH.IdGen.C73_modify_violated",
    "FleCSPH.IdGen.C73_noh_partial",
    "FleCSPH.IdGen.C73_noh_violated",
    "FleCSPH.IdGen.C73_uniform",
    "FleCSPH.IdGen.C73_implosion_partial",
    "FleCSPH.IdGen.C73_implosion_violated",
    "FleCSPH.IdGen.C73_wtunnel_violated",
    "FleCSPH.IdGen.C73_tunnel_mass_violated"
   ],
   "note": "Masses and energies right for constant profiles in boxes and balls of 2 and 3 dimensions, spheres with profiles, new initial data with a particle in the blast zone, unperturbed Noh particles, implosions of radius 1. The other cases fail: C73_interval_violated, C73_profile_violated, C73_empty_violated, C73_modify_violated, C73_noh_violated, C73_implosion_violated, C73_wtunnel_violated, C73_tunnel_mass_violated. Velocity perturbations are not modelled."
  },
  {
   "property": "C74",
   "status": "partial",
   "theorems": [
    "FleCSPH.IdGen.C74_sod_states",
    "FleCSPH.IdGen.C74_separation_partial",
    "FleCSPH.IdGen.C74_equal_mass",
    "FleCSPH.IdGen.C74_separation_violated",
    "FleCSPH.IdGen.C74_rt",
    "FleCSPH.IdGen.C74_fluid",
    "FleCSPH.IdGen.C74_kh_2d",
    "FleCSPH.IdGen.C74_kh_3d"
   ],
   "note": "Shock tube states for all tests, lattices and dimensions (C74_sod_states, C74_separation_partial); masses of cells (C74_equal_mass, C74_kh_2d, C74_kh_3d); equilibrium (C74_rt, C74_fluid). Without equal_mass the masses are right only for blocks of volume 1 (C74_separation_violated). The classification of Rayleigh-Taylor particles and their adjustment to periodic boundaries are in C104. Missing: the adjustment of the other blocks to periodic boundaries (lengths alone: C81)."
  },
  {
   "property": "C75",
   "status": "partial",
   "theorems": [
    "FleCSPH.Torus.C75_run_partial",
    "FleCSPH.Torus.C75_first_partial",
    "FleCSPH.Torus.C75_motion_partial",
    "FleCSPH.Torus.C75_torus_unique",
    "FleCSPH.Torus.C75_same_partial",
    "FleCSPH.Torus.C75_energy_violated",
    "FleCSPH.Torus.C75_uniform_violated"
   ],
   "note": "Proved: without the energy equation, for any number of iterations and processes, the particles which are not ghosts are the result of a run on the torus (C75_run_partial); the same for the first iteration with the energy equation (C75_first_partial) and for later iterations up to the second velocity kick (C75_motion_partial); the specification is deterministic up to periods and signal speed (C75_torus_unique), so two runs from the same particles agree (C75_same_partial). False, with witnesses: internal energies from the second iteration on, uniform smoothing lengths. Missing: adaptive viscosity and time step, relaxation, runs which stop with a failed assertion, the construction of the box (C24)."
  },
  {
   "property": "C76",
   "status": "partial",
   "theorems": [
    "FleCSPH.DistGravity.C76_error_bound_partial",
    "FleCSPH.DistGravity.C76_independent_partial"
   ],
   "note": "Independence and error bound (4t+5t^2+2t^3 for the acceleration, 2t+t^2 for the potential, relative to the sum of the magnitudes) proved in exact real arithmetic for every number of processes that is a power of two (for others the tables are incomplete, C17), every division into consecutive non-empty parts, every schedule and any number of earlier traversals of the same tree; each process reads only the data it holds; at least two particles at different places. With rounding: C94 has the error bound; independence then holds up to these errors only, since the order of additions can change the last digits."
  },
  {
   "property": "C77",
   "status": "partial",
   "theorems": [
    "FleCSPH.Update.C77_keys",
    "FleCSPH.Update.C77_sorted",
    "FleCSPH.Update.C77_neighbours_partial",
    "FleCSPH.Update.C77_gravity_partial",
    "FleCSPH.Update.C77_separate"
   ],
   "note": "C77_keys: keys are the interleaved cell coordinates, unique, and different for particles in different cells. C77_sorted (any number of processes): range, keys and sort on any division. C77_neighbours_partial and C77_gravity_partial (2^m processes): from positions to the calls of the traversal and to the gravitational field, with the error bound, for every order of messages and (for gravity) any number of earlier traversals of the same tree. C77_separate: particles further apart than the width of a finest cell along one axis satisfy the hypothesis. Rounding: C95. Missing: periodic boundaries, numbers of processes which are not powers of two, particles in one finest cell (see C10_duplicate_violated), Hilbert keys."
  },
  {
   "property": "C78",
   "status": "partial",
   "theorems": [
    "FleCSPH.Newtonian.C78_processes_partial",
    "FleCSPH.Newtonian.C78_exists",
    "FleCSPH.Newtonian.C78_leapfrog_partial",
    "FleCSPH.Newtonian.C78_energy_partial",
    "FleCSPH.Newtonian.C78_momentum_partial",
    "FleCSPH.Newtonian.C78_newton_power"
   ],
   "note": "Newtonian driver with gravity by the multipole method, on 2^m processes. C78_processes_partial: the end of a run does not depend on the number of processes, divisions, messages, orders or std::sort. C78_exists: runs can be carried out. C78_leapfrog_partial: each iteration is a leapfrog step with Newton's attraction and potential up to the multipole error. C78_momentum_partial: momenta. C78_energy_partial: in the thermokinetic formulation the energy of the gas starts from that of the initial data and each later iteration adds the work of gravity by the trapezoid rule; C78_newton_power: that power is the rate of loss of the energy of gravity. Leapfrog, momenta and energy for either viscosity. Missing: adaptive time step (C101), processes with the adaptive viscosity (C70_violated), periodic boundaries, rounding; a bound on the error of the trapezoid rule; runs that end because two particles share a cell of the finest grid are an outcome of their own."
  },
  {
   "property": "C79",
   "status": "partial",
   "theorems": [
    "FleCSPH.Program.C79_hydro_partial",
    "FleCSPH.Program.C79_newton_partial",
    "FleCSPH.Program.C79_hydro_refines",
    "FleCSPH.Program.C79_newton_refines",
    "FleCSPH.Program.C79_hydro_laws_partial",
    "FleCSPH.Program.C79_newton_laws_partial",
    "FleCSPH.Program.C79_hydro_exists",
    "FleCSPH.Program.C79_newton_exists"
   ],
   "note": "Hydro and newtonian driver with the trees of all 2^m processes. C79_hydro_partial, C79_newton_partial: how a run ends does not depend on the number of processes, first division, messages, visits, std::sort. C79_hydro_refines, C79_newton_refines: every run is one of C70 / C78. C79_hydro_laws_partial, C79_newton_laws_partial: ids, masses, momenta, energy (hydro), leapfrog steps with Newton's attraction. C79_hydro_exists, C79_newton_exists: a run can always be carried out. The theorems of the newtonian driver but C79_newton_partial are for either viscosity. Missing: adaptive time step (hydro: C98) and viscosity (C70_violated; conservation laws of the hydro driver: C105), periodic boundaries, rounding, a single particle, numbers of processes that are not powers of two; outputs are left out."
  },
  {
   "property": "C80",
   "status": "partial",
   "theorems": [
    "FleCSPH.Rounded.C80_search_partial",
    "FleCSPH.Rounded.C80_uniform",
    "FleCSPH.Rounded.C80_key",
    "FleCSPH.Rounded.C80_key_distinct"
   ],
   "note": "C80_search_partial: from the keys to the lists on 2^m processes with all operations rounded, for every order of messages; missing: reach beyond the mean of the smoothing lengths and other numbers of processes (as in C13), overflow and underflow. C80_uniform: right lists for one smoothing length but for pairs within 100 D u X. C80_key, C80_key_distinct: the keys in rounded arithmetic."
  },
  {
   "property": "C81",
   "status": "partial",
   "theorems": [
    "FleCSPH.IdGen.C81_length",
    "FleCSPH.IdGen.C81_width_partial",
    "FleCSPH.IdGen.C81_layers_partial",
    "FleCSPH.IdGen.C81_found",
    "FleCSPH.IdGen.C81_narrow_violated",
    "FleCSPH.IdGen.C81_height_violated"
   ],
   "note": "Length of the tube proved. For widths, heights and the length of the layers: what the search returns fits all lattices and is not much smaller than asked for; it succeeds for rational ratios of the periods with denominator at most 99 times the starting number. Missing, because the code does not do it: domains narrower than two periods (C81_narrow_violated) and the height of the layers (C81_height_violated). The blocks themselves with the adjusted extents are not connected with the lattice loops of C74; the generator KH, which adjusts its blocks differently, is not covered. Values outside the range of int are not considered."
  },
  {
   "property": "C82",
   "status": "partial",
   "theorems": [
    "FleCSPH.Rounded.C82_positive",
    "FleCSPH.Rounded.C82_backward",
    "FleCSPH.Rounded.C82_density",
    "FleCSPH.Rounded.C82_search_partial"
   ],
   "note": "C82_search_partial: from the keys through trees, search and messages on 2^m processes to the densities, all operations rounded. C82_density, C82_backward, C82_positive: for any list of neighbours in any order. Missing: Gaussian, super-Gaussian and sinc kernels, overflow and underflow, numbers of processes which are not a power of two (C17_other_violated). std::pow is taken to be accurate to one rounding."
  },
  {
   "property": "C83",
   "status": "partial",
   "theorems": [
    "FleCSPH.Rounded.C83_columns_partial",
    "FleCSPH.Rounded.C83_written",
    "FleCSPH.Rounded.C83_processes_partial",
    "FleCSPH.Rounded.C83_centre_partial"
   ],
   "note": "C83_columns_partial: every column but the centre of mass; C83_processes_partial: two lines compared; C83_written: a line is always written; C83_centre_partial: mass and centre of mass of all cells of the tree on 2^m processes. Missing: overflow and underflow, the rounding within the external potential, numbers of processes which are not a power of two for the tree."
  },
  {
   "property": "C84",
   "status": "partial",
   "theorems": [
    "FleCSPH.Rounded.C84_opposite",
    "FleCSPH.Rounded.C84_pair",
    "FleCSPH.Rounded.C84_reach",
    "FleCSPH.Rounded.C84_symmetric",
    "FleCSPH.Rounded.C84_momentum_partial",
    "FleCSPH.Rounded.C84_energy_partial",
    "FleCSPH.Rounded.C84_angular_momentum_partial",
    "FleCSPH.Rounded.C84_internal_partial",
    "FleCSPH.Rounded.C84_kick",
    "FleCSPH.Rounded.C84_run_partial",
    "FleCSPH.Rounded.C84_one_sided",
    "FleCSPH.Rounded.C84_double"
   ],
   "note": "C84_opposite, C84_pair, C84_reach: two particles; C84_momentum_partial, C84_angular_momentum_partial, C84_energy_partial, C84_internal_partial: the balances after the passes; C84_kick, C84_run_partial: kicks and runs; C84_one_sided: pairs with one-sided lists lie within the rounding of the edge (with C80); C84_double: round to nearest, ties to even is odd. Missing: overflow, underflow and fused operations; self-gravity. What pairs with one-sided lists exchange is bounded in C85_one_sided_partial and C85_momentum_partial for the polynomial kernels."
  },
  {
   "property": "C85",
   "status": "partial",
   "theorems": [
    "FleCSPH.Rounded.C85_gradient_partial",
    "FleCSPH.Rounded.C85_viscosity",
    "FleCSPH.Rounded.C85_acceleration_partial",
    "FleCSPH.Rounded.C85_dedt_partial",
    "FleCSPH.Rounded.C85_dudt_partial",
    "FleCSPH.Rounded.C85_edge_partial",
    "FleCSPH.Rounded.C85_missed_partial",
    "FleCSPH.Rounded.C85_momentum_partial",
    "FleCSPH.Rounded.C85_one_sided_partial"
   ],
   "note": "C85_gradient_partial, C85_viscosity: the parts; C85_acceleration_partial, C85_dedt_partial, C85_dudt_partial: the passes against exact arithmetic; C85_edge_partial, C85_missed_partial, C85_momentum_partial, C85_one_sided_partial: neighbours missed near the edge. Missing: overflow, underflow and fused operations; the Gaussian, super-Gaussian and sinc kernels. Densities, pressures and sound speeds are inputs here; their errors are carried through the forces in C90."
  },
  {
   "property": "C86",
   "status": "partial",
   "theorems": [
    "FleCSPH.Log.C86_one_partial",
    "FleCSPH.Log.C86_exactly_one",
    "FleCSPH.Log.C86_rank_violated",
    "FleCSPH.Log.C86_warn_violated",
    "FleCSPH.Log.C86_error_violated",
    "FleCSPH.Log.C86_all_violated",
    "FleCSPH.Log.C86_all",
    "FleCSPH.Log.C86_before_start",
    "FleCSPH.Log.C86_tags_partial",
    "FleCSPH.Log.C86_tag_count",
    "FleCSPH.Log.C86_unregistered_violated",
    "FleCSPH.Log.C86_container_one",
    "FleCSPH.Log.C86_container_violated"
   ],
   "note": "C86_one_partial: log_one/log_rank with severity trace and info, every sequence of messages, every rank, with and without log_init. C86_exactly_one: exactly one rank prints. C86_all: what logm hands over after log_init. C86_tags_partial: every set of tags and nesting of guards; C86_tag_count. C86_before_start: before log_init messages with tags are let through or not as the program was compiled. C86_container_one: containers for one rank. Fails for: warnings (C86_warn_violated) and errors (C86_error_violated) on other ranks, the rank printed (C86_rank_violated), logm without log_init (C86_all_violated), unregistered tags (C86_unregistered_violated), log_container (C86_container_violated). Missing: messages inside the text of a message, several threads."
  },
  {
   "property": "C87",
   "status": "partial",
   "theorems": [
    "FleCSPH.Log.C87_outputs_partial",
    "FleCSPH.Log.C87_any_text",
    "FleCSPH.Log.C87_escape_violated",
    "FleCSPH.Log.C87_unknown_violated"
   ],
   "note": "C87_outputs_partial: every history of adding, switching and writing proper texts. C87_any_text: every text whatsoever, only complete codes are removed and at most six characters withheld. Fails after stray escape characters (C87_escape_violated) and for unknown outputs (C87_unknown_violated)."
  },
  {
   "property": "C88",
   "status": "partial",
   "theorems": [
    "FleCSPH.Log.C88_stamp_partial",
    "FleCSPH.Log.C88_stamp_violated",
    "FleCSPH.Log.C88_size",
    "FleCSPH.Log.C88_long_violated",
    "FleCSPH.Log.C88_once",
    "FleCSPH.Log.C88_order_partial",
    "FleCSPH.Log.C88_order_violated",
    "FleCSPH.Log.C88_lost_violated",
    "FleCSPH.Log.C88_end"
   ],
   "note": "Every interleaving of both threads: C88_once (printed exactly once, never invented; the messages of the first calls), C88_order_partial (earlier before later), C88_end (the program ends). Fails: C88_stamp_violated and C88_order_violated (zero bytes in the time), C88_long_violated (1024 characters), C88_lost_violated (last messages). Missing: messages of the same microsecond may be exchanged; memory model (run_flusher_ is taken to be atomic); the gather itself."
  },
  {
   "property": "C89",
   "status": "partial",
   "theorems": [
    "FleCSPH.TreeDriver.C89_run_partial",
    "FleCSPH.TreeDriver.C89_uniform",
    "FleCSPH.TreeDriver.C89_exists"
   ],
   "note": "C89_run_partial: 5000 iterations, the assertion never fails, printed numbers between the averages of the particles within the mean and within the maximum of the smoothing lengths; C89_uniform: exact for one smoothing length; C89_exists: the program can be carried out. Missing: different smoothing lengths exactly (C13_violated), rounding, periodic boundaries, a single particle, numbers of processes which are not powers of two; the times printed are left out."
  },
  {
   "property": "C90",
   "status": "partial",
   "theorems": [
    "FleCSPH.Rounded.C90_eos",
    "FleCSPH.Rounded.C90_energy",
    "FleCSPH.Rounded.C90_round_trip",
    "FleCSPH.Rounded.C90_round_trip_ppt",
    "FleCSPH.Rounded.C90_exponent",
    "FleCSPH.Rounded.C90_ppt_pressure",
    "FleCSPH.Rounded.C90_ppt_soundspeed_partial",
    "FleCSPH.Rounded.C90_ppt_violated",
    "FleCSPH.Rounded.C90_wd_pressure",
    "FleCSPH.Rounded.C90_wd_soundspeed_partial",
    "FleCSPH.Rounded.C90_wd_violated",
    "FleCSPH.Rounded.C90_recover",
    "FleCSPH.Rounded.C90_signalspeed",
    "FleCSPH.Rounded.C90_divv",
    "FleCSPH.Rounded.C90_state_partial",
    "FleCSPH.Rounded.C90_acceleration_partial",
    "FleCSPH.Rounded.C90_dedt_partial",
    "FleCSPH.Rounded.C90_dudt_partial"
   ],
   "note": "C90_eos, C90_energy, C90_round_trip, C90_round_trip_ppt, C90_exponent: polytropic and ideal gases; C90_ppt_pressure, C90_ppt_soundspeed_partial, C90_ppt_violated: piecewise polytrope; C90_wd_pressure, C90_wd_soundspeed_partial, C90_wd_violated: white dwarfs; C90_recover, C90_signalspeed, C90_divv: the other quantities; C90_state_partial: the pass; C90_acceleration_partial, C90_dedt_partial, C90_dudt_partial: the forces from positions. Missing: overflow, underflow and fused operations; Gaussian and sinc kernels; for the pass and the forces, the piecewise polytrope, the white dwarf and the thermokinetic formulation."
  },
  {
   "property": "C91",
   "status": "partial",
   "theorems": [
    "FleCSPH.C91_inside",
    "FleCSPH.C91_outside",
    "FleCSPH.C91_reflective_partial",
    "FleCSPH.C91_image",
    "FleCSPH.C91_own_inward",
    "FleCSPH.C91_frozen_partial",
    "FleCSPH.C91_frozen_violated",
    "FleCSPH.C91_order",
    "FleCSPH.C91_repulsive",
    "FleCSPH.C91_bounded",
    "FleCSPH.C91_pass",
    "FleCSPH.C91_balance_partial",
    "FleCSPH.C91_symmetric",
    "FleCSPH.C91_rotation_partial",
    "FleCSPH.C91_twice_violated",
    "FleCSPH.C91_line_violated",
    "FleCSPH.C91_balance_violated"
   ],
   "note": "C91_inside, C91_outside, C91_reflective_partial, C91_image, C91_own_inward, C91_frozen_partial: what acts where; C91_order, C91_pass: order of neighbours and particles; C91_repulsive, C91_bounded, C91_symmetric, C91_balance_partial, C91_rotation_partial: signs, size, balance, rotations. The code violates the statement for the own image near a reflective edge (C91_twice_violated), on the line (C91_line_violated), for different smoothing lengths (C91_balance_violated) and for a frozen particle at the centre (C91_frozen_violated). Missing: rounding, Gaussian kernels for the method arth."
  },
  {
   "property": "C92",
   "status": "partial",
   "theorems": [
    "FleCSPH.C92_ends_partial",
    "FleCSPH.C92_inside_partial",
    "FleCSPH.C92_density",
    "FleCSPH.C92_final",
    "FleCSPH.C92_first",
    "FleCSPH.C92_moves_partial",
    "FleCSPH.C92_lengths_partial",
    "FleCSPH.C92_stop_partial",
    "FleCSPH.C92_equilibrium",
    "FleCSPH.C92_length",
    "FleCSPH.C92_edge_violated",
    "FleCSPH.C92_neighbours_violated"
   ],
   "note": "C92_ends_partial, C92_inside_partial: ends, in the sphere, numbers and masses; C92_density, C92_final, C92_first: outputs; C92_moves_partial, C92_lengths_partial, C92_stop_partial: steps; C92_length: the length of a particle after a displacement, in a vacuum too; C92_equilibrium. The code violates the statement where the profile vanishes (C92_edge_violated) and for wvt_h_ngb (C92_neighbours_violated). Missing: particles faster than the stated bound (C53_fast_violated), distribution over processes, rounding; C92_moves_partial leaves steps that cross the edge to C53; C92_lengths_partial and C92_stop_partial leave out sph_variable_h and wvt_h_ngb."
  },
  {
   "property": "C93",
   "status": "partial",
   "theorems": [
    "FleCSPH.KhGen.C93_layers_partial",
    "FleCSPH.KhGen.C93_inside_partial",
    "FleCSPH.KhGen.C93_symmetric_partial",
    "FleCSPH.KhGen.C93_mass_partial",
    "FleCSPH.KhGen.C93_mass_violated",
    "FleCSPH.KhGen.C93_perturbation_partial",
    "FleCSPH.KhGen.C93_narrow_violated",
    "FleCSPH.KhGen.C93_interface_violated"
   ],
   "note": "Two dimensions, rectangular and triangular lattices, exact arithmetic, at most 8000 particles per row (from about 8660 on the tolerance of the lattice loops drops the uppermost row of the middle layer; not proved), separations of at most a third of the width. Proved: the three layers explicitly (C93_layers_partial), inside the box, symmetric with antisymmetric perturbation, masses of the layers, extent of the perturbation. Violations: the box is too heavy by one row, the perturbation misses the interface for the default width and vanishes for narrow boxes. Missing: three dimensions."
  },
  {
   "property": "C94",
   "status": "partial",
   "theorems": [
    "FleCSPH.Rounded.C94_pair",
    "FleCSPH.Rounded.C94_momentum",
    "FleCSPH.Rounded.C94_error_bound_partial"
   ],
   "note": "Proved for 2^m processes, every division and order of messages: with every operation rounded build_tree succeeds, the traversal is safe and can end, no division by zero occurs, and the error against Newton's law is that of C76 (for an angle t with angle <= t(1-(9D+9)u)) plus 2(n+17D+54)u(1+t)^2 times the sum of the magnitudes (C94_error_bound_partial); one interaction has a relative error of (1+u)^50-1 in every component (C94_pair); momentum (C94_momentum). Missing: overflow and underflow; a number of processes that is not a power of two; earlier traversals of the same tree; that each process holds the data of the cells in its table is assumed here (C76 proves it in exact arithmetic)."
  },
  {
   "property": "C95",
   "status": "partial",
   "theorems": [
    "FleCSPH.RoundedUpdate.C95_range",
    "FleCSPH.RoundedUpdate.C95_keys",
    "FleCSPH.RoundedUpdate.C95_sorted",
    "FleCSPH.RoundedUpdate.C95_neighbours_partial",
    "FleCSPH.RoundedUpdate.C95_gravity_partial",
    "FleCSPH.RoundedUpdate.C95_density_partial",
    "FleCSPH.RoundedUpdate.C95_unresolved_violated"
   ],
   "note": "C95_range, C95_keys, C95_sorted (any number of processes): range, keys and sort in rounded arithmetic; particles more than six finest cells apart along an axis have different keys if 8 u 2^D <= 1. C95_neighbours_partial, C95_density_partial, C95_gravity_partial (2^m processes, every order of messages): from the positions to neighbour lists, densities and gravity, with error bounds. C95_unresolved_violated: without the condition on the smoothing lengths the iteration can be undefined. Missing: overflow and underflow, periodic boundaries, numbers of processes which are not powers of two, particles with equal keys, Hilbert keys, Gaussian and sinc kernels."
  },
  {
   "property": "C96",
   "status": "partial",
   "theorems": [
    "FleCSPH.RoundedClock.C96_fixed",
    "FleCSPH.RoundedClock.C96_fixed_ends",
    "FleCSPH.RoundedClock.C96_stuck_violated",
    "FleCSPH.RoundedClock.C96_step",
    "FleCSPH.RoundedClock.C96_adaptive_ends_partial",
    "FleCSPH.RoundedClock.C96_frozen",
    "FleCSPH.RoundedClock.C96_frozen_violated",
    "FleCSPH.RoundedClock.C96_output_step",
    "FleCSPH.RoundedClock.C96_output_times",
    "FleCSPH.RoundedClock.C96_outputs_partial"
   ],
   "note": "C96_fixed, C96_fixed_ends: fixed step, if it exceeds one rounding of the times. C96_step, C96_adaptive_ends_partial: adaptive step without timed outputs; limits at least 64 roundings of the times and an initial step of at least a quarter of them. C96_output_step, C96_outputs_partial, C96_output_times: one timed output, over every history of limits; missing: that the clock of such a run moves in every iteration, and several timed outputs (C40, C41 in exact arithmetic). C96_stuck_violated: a step below the last digit of the time. C96_frozen, C96_frozen_violated: one lost adaptive step makes the step zero for ever, and a run with a final time never ends. Overflow, underflow and excess precision are left out."
  },
  {
   "property": "C97",
   "status": "partial",
   "theorems": [
    "FleCSPH.AdaptRun.C97_division",
    "FleCSPH.AdaptRun.C97_momentum_partial",
    "FleCSPH.AdaptRun.C97_polytropic_partial",
    "FleCSPH.AdaptRun.C97_energy_partial",
    "FleCSPH.AdaptRun.C97_limits_partial",
    "FleCSPH.AdaptRun.C97_replay",
    "FleCSPH.AdaptRun.C97_exists",
    "FleCSPH.AdaptRun.C97_violated"
   ],
   "note": "Hydro driver with adaptive step on any number of processes; the limits for either viscosity, the rest for the constant one. C97_division: the step does not depend on the division of the particles. C97_limits_partial: without timed outputs, after every iteration the step is positive and within the limits of all particles, and the time is the sum of the steps. C97_momentum_partial, C97_energy_partial: ids, masses, momenta, thermokinetic total energy. C97_replay: runs which set the same clocks end with the same data but signal speeds and particle steps. C97_polytropic_partial: a polytropic gas whose energy is not evolved never stops on an assertion. C97_exists: runs exist. C97_violated: runs from the same particles need not take the same steps, as the limits use signal speeds and these depend on the order of visits (C55_violated). Missing: timed outputs in the limits (in C103), adaptive viscosity in the rest (conservation laws: C105)."
  },
  {
   "property": "C98",
   "status": "partial",
   "theorems": [
    "FleCSPH.AdaptProgram.C98_refines",
    "FleCSPH.AdaptProgram.C98_momentum_partial",
    "FleCSPH.AdaptProgram.C98_energy_partial",
    "FleCSPH.AdaptProgram.C98_limits_partial",
    "FleCSPH.AdaptProgram.C98_polytropic_partial",
    "FleCSPH.AdaptProgram.C98_replay_partial",
    "FleCSPH.AdaptProgram.C98_exists"
   ],
   "note": "Hydro driver with adaptive steps and the trees of all 2^m processes, at least two particles. Refinement, limits and existence for either viscosity, the rest for the constant one. C98_refines: every run is one of C97. C98_momentum_partial, C98_energy_partial, C98_limits_partial (no timed outputs), C98_polytropic_partial: the laws of C97 for it. C98_replay_partial: runs which set the same clocks end with the same data but signal speeds and particle steps. C98_exists: a run can always be carried out. Missing: that two runs set the same clocks (C97_violated), timed outputs in the limits (in C103), adaptive viscosity in the rest (conservation laws: C105), periodic boundaries, rounding, a single particle."
  },
  {
   "property": "C99",
   "status": "partial",
   "theorems": [
    "FleCSPH.SodGen.C99_profile_partial",
    "FleCSPH.SodGen.C99_mass_partial",
    "FleCSPH.SodGen.C99_lost_violated",
    "FleCSPH.SodGen.C99_open_partial",
    "FleCSPH.SodGen.C99_open_violated",
    "FleCSPH.SodGen.C99_separation_partial",
    "FleCSPH.SodGen.C99_support_violated",
    "FleCSPH.SodGen.C99_timestep_partial"
   ],
   "note": "One dimension, exact arithmetic, fewer than a million particles in the middle. Departures: open ends place one particle too many in each outer part (C99_open_violated), few particles lose the outer parts (C99_lost_violated), equal separations in a long box leave every particle without neighbours (C99_support_violated). Two and three dimensions are covered in parts by C74 and C81."
  },
  {
   "property": "C100",
   "status": "partial",
   "theorems": [
    "FleCSPH.RandomLattice.C100_points_partial",
    "FleCSPH.RandomLattice.C100_number_partial",
    "FleCSPH.RandomLattice.C100_ends",
    "FleCSPH.RandomLattice.C100_share_partial",
    "FleCSPH.RandomLattice.C100_offset_violated",
    "FleCSPH.RandomLattice.C100_tall_violated",
    "FleCSPH.RandomLattice.C100_profiles"
   ],
   "note": "The draws are an arbitrary sequence (C100_points_partial, C100_number_partial, C100_ends); that the engine makes them uniform and independent is outside of the model, C100_share_partial gives the measure of the accepted draws for profiles that do not exceed their central value (constant and parabolic: C100_profiles). Departures: boxes away from the origin (C100_offset_violated) and boxes longer in y (C100_tall_violated)."
  },
  {
   "property": "C101",
   "status": "partial",
   "theorems": [
    "FleCSPH.AdaptNewton.C101_leapfrog_partial",
    "FleCSPH.AdaptNewton.C101_momentum_partial",
    "FleCSPH.AdaptNewton.C101_energy_partial",
    "FleCSPH.AdaptNewton.C101_limits_partial",
    "FleCSPH.AdaptNewton.C101_exists",
    "FleCSPH.AdaptNewton.C101_replay",
    "FleCSPH.AdaptNewton.C101_polytropic_partial"
   ],
   "note": "Exact arithmetic, no periodic boundaries, 2^m processes. Leapfrog, momenta, energy and limits for either viscosity, the rest for the constant one. Limits and time are without timed outputs (with them: C103). That two runs set the same clocks is not claimed: they need not (C97_violated)."
  },
  {
   "property": "C102",
   "status": "partial",
   "theorems": [
    "FleCSPH.NewtonProgram.C102_refines",
    "FleCSPH.NewtonProgram.C102_newton_partial",
    "FleCSPH.NewtonProgram.C102_limits_partial",
    "FleCSPH.NewtonProgram.C102_polytropic_partial",
    "FleCSPH.NewtonProgram.C102_replay_partial",
    "FleCSPH.NewtonProgram.C102_energy_partial",
    "FleCSPH.NewtonProgram.C102_exists"
   ],
   "note": "Newtonian driver with self-gravity, adaptive steps and the trees of all 2^m processes, at least two particles, exact arithmetic. C102_refines: every run which ends or stops at an assertion is one of C101. C102_newton_partial, C102_energy_partial, C102_limits_partial (no timed outputs), C102_polytropic_partial: the laws of C101 for it. C102_replay_partial: runs which set the same clocks end with the same data but signal speeds and particle steps. C102_exists: a run can always be carried out. Refinement, existence, Newton, energy and limits for either viscosity, the rest for the constant one. Missing: that two runs set the same clocks (C97_violated), timed outputs in the limits (in C103), adaptive viscosity in the rest, periodic boundaries, rounding, a single particle."
  },
  {
   "property": "C103",
   "status": "partial",
   "theorems": [
    "FleCSPH.RunOutputs.C103_hydro_partial",
    "FleCSPH.RunOutputs.C103_program_partial",
    "FleCSPH.RunOutputs.C103_newton_partial",
    "FleCSPH.RunOutputs.C103_newton_program_partial"
   ],
   "note": "Exact arithmetic, either viscosity. C103_hydro_partial: runs of the hydro driver on any number of processes; C103_program_partial: with the trees and messages of 2^m processes; C103_newton_partial and C103_newton_program_partial: the newtonian driver with self-gravity. All timed outputs have one interval and no step used is longer than 9/20 of it. Missing: longer steps (an output time may be passed over, C41_violated), different intervals, scalar and data output of the first iteration (C41), periodic boundaries, rounding."
  },
  {
   "property": "C104",
   "status": "partial",
   "theorems": [
    "FleCSPH.RtGen.C104_layers_partial",
    "FleCSPH.RtGen.C104_periodic_partial",
    "FleCSPH.RtGen.C104_inside_partial",
    "FleCSPH.RtGen.C104_distinct_partial",
    "FleCSPH.RtGen.C104_mass_partial",
    "FleCSPH.RtGen.C104_perturbation_partial",
    "FleCSPH.RtGen.C104_timestep_violated",
    "FleCSPH.RtGen.C104_length_violated"
   ],
   "note": "Two dimensions, exact arithmetic, parameters in the range of `Ok` (at most 8000 particles asked for per row, at most 800000 separations of width). `C104_layers_partial` describes all that is written for every such box; `C104_periodic_partial` needs tolerances of at most a quarter of the separations and leaves open the boxes for which the search finds no length (then the box is unchanged and the rows of the top layer need not close). Violated: the suggested time step (`C104_timestep_violated`), the length for equal densities (`C104_length_violated`). Three dimensions are not covered."
  },
  {
   "property": "C105",
   "status": "partial",
   "theorems": [
    "FleCSPH.DistConserve.C105_fixed_momentum_partial",
    "FleCSPH.DistConserve.C105_fixed_energy_partial",
    "FleCSPH.DistConserve.C105_adaptive_momentum_partial",
    "FleCSPH.DistConserve.C105_adaptive_energy_partial",
    "FleCSPH.DistConserve.C105_fixed_refines",
    "FleCSPH.DistConserve.C105_adaptive_refines",
    "FleCSPH.DistConserve.C105_fixed_trees_partial",
    "FleCSPH.DistConserve.C105_adaptive_trees_partial",
    "FleCSPH.DistConserve.C105_exists"
   ],
   "note": "Exact arithmetic, either viscosity. C105_fixed_momentum_partial, C105_fixed_energy_partial: fixed step, any number of processes. C105_adaptive_momentum_partial, C105_adaptive_energy_partial: adaptive step. C105_fixed_refines, C105_adaptive_refines: with the trees of all 2^m processes every run is one of these, hence C105_fixed_trees_partial, C105_adaptive_trees_partial. C105_exists: a run can always be carried out. Missing: periodic boundaries, self-gravity, relaxation, rounding."
  },
  {
   "property": "C106",
   "status": "partial",
   "theorems": [
    "FleCSPH.SnapshotTools.C106_extract",
    "FleCSPH.SnapshotTools.C106_start_partial",
    "FleCSPH.SnapshotTools.C106_restart_violated",
    "FleCSPH.SnapshotTools.C106_separate_violated",
    "FleCSPH.SnapshotTools.C106_merge_partial",
    "FleCSPH.SnapshotTools.C106_merge_violated",
    "FleCSPH.SnapshotTools.C106_trajectory_partial",
    "FleCSPH.SnapshotTools.C106_first_violated",
    "FleCSPH.SnapshotTools.C106_slice",
    "FleCSPH.SnapshotTools.C106_cut_violated"
   ],
   "note": "C106_extract: for every file of a run and every step. C106_start_partial: a new run starts from it, without the time steps and states of the particles. C106_trajectory_partial: identifiers from 1 to the number of particles. C106_slice: slices along axes and planes and radial profiles. C106_merge_partial: files with the data sets `density` and `mass` and steps from 0. Violated: the files the code writes have `rho` and `m` and cannot be merged (C106_merge_violated); no run can be continued from a step cut out, the attribute `iteration` is lost (C106_restart_violated); the default step and --last find nothing in separate files after the first (C106_separate_violated); particle 0 of the generators is refused (C106_first_violated); files made by these tools can be neither sliced nor followed, the attribute `dimension` is lost (C106_cut_violated). File names, prompts and printed formats are not modelled."
  },
  {
   "property": "C107",
   "status": "partial",
   "theorems": [
    "FleCSPH.BinaryTool.C107_runs",
    "FleCSPH.BinaryTool.C107_particles",
    "FleCSPH.BinaryTool.C107_centre",
    "FleCSPH.BinaryTool.C107_momentum",
    "FleCSPH.BinaryTool.C107_orbit",
    "FleCSPH.BinaryTool.C107_shape",
    "FleCSPH.BinaryTool.C107_point_partial",
    "FleCSPH.BinaryTool.C107_point_orbit_partial",
    "FleCSPH.BinaryTool.C107_state_violated",
    "FleCSPH.BinaryTool.C107_identical_violated",
    "FleCSPH.BinaryTool.C107_type_violated",
    "FleCSPH.BinaryTool.C107_energy_violated"
   ],
   "note": "Two files: all claims but the energies, which the tool multiplies by the masses; a point mass: all but the data set `state`; identical stars: the tool ends in an exception."
  },
  {
   "property": "C108",
   "status": "partial",
   "theorems": [
    "FleCSPH.PnBinary.C108_particles_partial",
    "FleCSPH.PnBinary.C108_centre_partial",
    "FleCSPH.PnBinary.C108_axis_partial",
    "FleCSPH.PnBinary.C108_shape_partial",
    "FleCSPH.PnBinary.C108_orbit_partial",
    "FleCSPH.PnBinary.C108_count_violated",
    "FleCSPH.PnBinary.C108_vz_violated",
    "FleCSPH.PnBinary.C108_masses_violated"
   ],
   "note": "For stars of the same number of particles (others end in an exception), the places along x only for equal masses within each star (others are torn); `vz` is wrong."
  },
  {
   "property": "C109",
   "status": "partial",
   "theorems": [
    "FleCSPH.UniformSphere.C109_uniform",
    "FleCSPH.UniformSphere.C109_direction",
    "FleCSPH.UniformSphere.C109_radial",
    "FleCSPH.UniformSphere.C109_fills",
    "FleCSPH.UniformSphere.C109_mass",
    "FleCSPH.UniformSphere.C109_energy",
    "FleCSPH.UniformSphere.C109_smoothing",
    "FleCSPH.UniformSphere.C109_line_violated",
    "FleCSPH.UniformSphere.C109_size_violated",
    "FleCSPH.UniformSphere.C109_momentum_violated"
   ],
   "note": "Proved for the particles as computed, in a ball of volume 1; what is written is a line."
  },
  {
   "property": "C110",
   "status": "partial",
   "theorems": [
    "FleCSPH.TovStar.C110_inverse",
    "FleCSPH.TovStar.C110_pressure",
    "FleCSPH.TovStar.C110_monotone",
    "FleCSPH.TovStar.C110_profile",
    "FleCSPH.TovStar.C110_densities",
    "FleCSPH.TovStar.C110_neighbours",
    "FleCSPH.TovStar.C110_cubic",
    "FleCSPH.TovStar.C110_linear",
    "FleCSPH.TovStar.C110_structure",
    "FleCSPH.TovStar.C110_smoothing_violated",
    "FleCSPH.TovStar.C110_energy_violated",
    "FleCSPH.TovStar.C110_centre"
   ],
   "note": "Equation of state, profile and the radii of the neighbours; the smoothing lengths and energies in the file are wrong. The cubic interpolation and the random places are not modelled."
  },
  {
   "property": "C111",
   "status": "partial",
   "theorems": [
    "FleCSPH.WdStar.C111_pressure",
    "FleCSPH.WdStar.C111_first_law",
    "FleCSPH.WdStar.C111_energy",
    "FleCSPH.WdStar.C111_density_partial",
    "FleCSPH.WdStar.C111_newton",
    "FleCSPH.WdStar.C111_tov_partial",
    "FleCSPH.WdStar.C111_slope_partial",
    "FleCSPH.WdStar.C111_drop_violated",
    "FleCSPH.WdStar.C111_small_violated",
    "FleCSPH.WdStar.C111_centre_violated",
    "FleCSPH.WdStar.C111_tov_violated",
    "FleCSPH.WdStar.C111_slope_violated"
   ],
   "note": "The density must be from a tenth to twice that of the shell before, and slopes are exact except in the first shell. The mass of the first shell and the relativistic factor are wrong. The integration is that of C110 and is not repeated; the printed table is not modelled."
  }
 ]
}