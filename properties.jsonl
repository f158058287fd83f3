{"id": "C01", "title": "A tree key is exactly a path of child digits", "statement": "A key built from the root by pushing child digits (each below 2^dimension, at most max_depth of them) has depth equal to the number of pushes; pop, parent, truncate and last_value remove, keep or return exactly the digits they name; distinct paths give distinct keys; at equal depth, key order is lexicographic order of the paths; min() and max() are the all-lowest and all-highest full-depth paths and bound every full-depth key.", "quantifier": "every dimension >= 1, every word width, every path up to max_depth", "why_tests_cant": "The key space has about 2^63 values; tests look at a handful of paths", "anchors": ["include/tree_topology/filling_curve.h: filling_curve::push, pop, pop(d), depth, parent, truncate, last_value, pop_value, min, max"]}
{"id": "C02", "title": "Morton keys identify grid cells and decode back", "statement": "For a full-depth Morton key of a point inside the range, coordinates() returns a point in the same grid cell, re-encoding that point gives the same key, two points get the same key exactly when they fall in the same grid cell, and every full-depth key value is the key of some cell.", "quantifier": "every dimension, every word width, every non-degenerate range, every point in it (exact arithmetic)", "why_tests_cant": "Infinitely many points; 2^63 keys", "anchors": ["include/tree_topology/filling_curve.h: morton_curve_u::morton_curve_u(range,p), coordinates"]}
{"id": "C03", "title": "A Morton key requested at depth d has depth d", "statement": "Constructing a Morton key with an explicit depth d <= max_depth gives a key of depth d, equal to the full-depth key truncated to d.", "quantifier": "every point, every d from 0 to max_depth", "why_tests_cant": "Only d = max_depth is exercised by the code base and its tests", "anchors": ["include/tree_topology/filling_curve.h: morton_curve_u::morton_curve_u(range,p,depth)"]}
{"id": "C04", "title": "A branch's Morton range contains exactly its points", "statement": "The box returned by range() for a key contains every point of the root range whose full-depth key has that key as ancestor; the boxes of the 2^dimension children of a branch subdivide the box of the branch.", "quantifier": "every dimension, every valid key, every point of the range", "why_tests_cant": "Unbounded set of points and keys", "anchors": ["include/tree_topology/filling_curve.h: morton_curve_u::range"]}
{"id": "C05", "title": "The 2D Hilbert key is a bijection on the grid and decodes back", "statement": "In two dimensions, encoding a grid cell as a Hilbert key and decoding it returns the cell, for every grid size, so distinct cells get distinct keys; and cells of consecutive keys are edge neighbours.", "quantifier": "every grid depth, every cell", "why_tests_cant": "Grid of 2^62 cells, tests sample few points", "anchors": ["include/tree_topology/filling_curve.h: hilbert_curve_u::hilbert_curve_u, coordinates, rotation2d"]}
{"id": "C06", "title": "The 3D Hilbert key is a bijection on the grid and decodes back", "statement": "In three dimensions, distinct grid cells get distinct Hilbert keys and coordinates() returns the encoded cell.", "quantifier": "every grid depth, every cell", "why_tests_cant": "Grid of 2^63 cells", "anchors": ["include/tree_topology/filling_curve.h: hilbert_curve_u::hilbert_curve_u, coordinates, rotation3d"]}
{"id": "C07", "title": "1D Hilbert keys separate cells", "statement": "In one dimension the Hilbert key of a point is the point's grid cell and distinct cells get distinct keys.", "quantifier": "every cell", "why_tests_cant": "2^63 cells", "anchors": ["include/tree_topology/filling_curve.h: hilbert_curve_u (dimension == 1 branch)"]}
{"id": "C08", "title": "Tree cell flags are independent", "statement": "Setting one attribute of a tree cell (a child slot, its locality, its requested flag, the number of children to receive) is read back unchanged and leaves every other attribute of the cell unchanged, over any history of updates; a cell whose announced number of children exceeds the children present is reported as empty.", "quantifier": "every dimension, every sequence of updates, every value within the field width", "why_tests_cant": "Histories of updates are unbounded", "anchors": ["include/tree_topology/tree_types.h: hcell_base_u::add_child, get_child, nchildren, set_shared, set_requested, set_nchildren_to_receive, is_empty_node"]}
{"id": "C09", "title": "The hash table behaves as a map", "statement": "After any sequence of emplace/clear with distinct keys the table finds exactly the inserted keys with their values, and size() is the number of keys.", "quantifier": "every sequence of operations, including colliding hashes", "why_tests_cant": "Unbounded histories and collisions", "anchors": ["include/tree_topology/hashtable.h: hashtable::emplace, find, clear, size"]}
{"id": "C10", "title": "Building the tree yields the canonical tree of the particles", "statement": "For particles sorted by distinct keys, build_tree terminates with every particle in exactly one leaf, which is the shallowest cell (below the root) holding that particle alone; inner cells are exactly the cells that hold at least two particles (plus the root); the child flags of a cell name exactly the cells present below it. The result depends only on the set of keys.", "quantifier": "every number of particles, every set of distinct full-depth keys, every dimension", "why_tests_cant": "Key sets are unbounded; the loop interleaves descent and ascent", "anchors": ["include/tree_topology/tree_topology.h: build_tree, finish_"]}
{"id": "C11", "title": "Every node summarises exactly its particles", "statement": "After tree construction, for every inner cell: mass is the sum of masses below it, sub_entities is their number, the coordinates are their centre of mass, every particle below lies within radius of the coordinates, within lap including its own smoothing length, and its half-smoothing-length box lies in [bmin,bmax].", "quantifier": "every tree shape, every particle data with positive masses (exact arithmetic)", "why_tests_cant": "Unbounded shapes and data", "anchors": ["include/physics/default_physics.h: compute_cofm", "include/tree_topology/tree_topology.h: finish_, cofm_children_"]}
{"id": "C12", "title": "Radius search returns exactly the particles in reach", "statement": "find_in_radius(center, radius) returns, without repetition, exactly the particles whose distance to center is at most max(radius, smoothing length of the particle).", "quantifier": "every tree, every centre and radius", "why_tests_cant": "Unbounded trees and queries", "anchors": ["include/tree_topology/tree_topology.h: find_in_radius, traversal", "include/tree_topology/tree_geometry.h: within_distance2"]}
{"id": "C13", "title": "SPH neighbour lists are complete and sound", "statement": "apply_in_smoothinglength calls the function once for every local particle, with every other particle whose distance is at most max(h_i,h_j) and no particle beyond it.", "quantifier": "every tree, every particle data, every smoothing length distribution", "why_tests_cant": "Unbounded; uniform smoothing lengths hide the difference between h/2 boxes and max(h_i,h_j)", "anchors": ["include/tree_topology/tree_topology.h: traversal_sph", "include/physics/default_physics.h: compute_cofm", "include/tree_topology/tree_geometry.h: intersects_box_box, intersects_sphere_box, within_distance2"]}
{"id": "C14", "title": "The FMM traversal counts every particle pair exactly once", "statement": "For every local particle a and every particle b, the FMM traversal accounts for the action of b on a exactly once: either in one particle-particle interaction or inside exactly one cell interaction whose source contains b and whose sink contains a.", "quantifier": "every tree, every multipole acceptance angle", "why_tests_cant": "Exponential number of traversal shapes", "anchors": ["include/tree_topology/tree_topology.h: traversal_fmm", "include/tree_topology/tree_geometry.h: mac"]}
{"id": "C15", "title": "Far-field interactions respect the acceptance criterion and approximate Newton's law by a Taylor expansion", "statement": "Cells interact as wholes only when the sum of their radii is below the angle times their distance; the cell-to-particle evaluation is the first-order Taylor expansion of the direct force field; direct particle interactions never act on the particle itself and are antisymmetric.", "quantifier": "every pair of cells/particles, every angle", "why_tests_cant": "Real-valued data", "anchors": ["include/tree_topology/tree_geometry.h: mac", "include/physics/fmm.h: gravitation_fc, interaction_c2p, taylor_c2c, taylor_p2c, fmm_p2p"]}
{"id": "C16", "title": "Distributed tree construction agrees with the global tree", "statement": "With particles distributed in sorted order over any number of ranks, every rank places each of its particles at the same cell as a single process holding all the particles would, and a rank computes the summary of a node locally only if it owns all particles below the node.", "quantifier": "every number of ranks, every distribution with at least one particle per rank, every distinct key set", "why_tests_cant": "Number of ranks and distributions is unbounded", "anchors": ["include/tree_topology/tree_topology.h: build_tree, exchange_boundaries_"]}
{"id": "C17", "title": "After the node exchange every rank knows the top of every other rank's tree", "statement": "After share_nodes every rank has received the boundary nodes and entities of every other rank.", "quantifier": "every number of ranks", "why_tests_cant": "CI runs a few fixed rank counts, mostly powers of two", "anchors": ["include/tree_topology/tree_topology.h: share_nodes_"]}
{"id": "C18", "title": "Ghost requests are answered completely and at most once", "statement": "During a traversal a remote cell is requested at most once, a cell is treated as complete only when all its announced children have arrived, and for every order of message arrival the traversal terminates having visited exactly the cells a single-process traversal would visit.", "quantifier": "every message arrival order, every partition", "why_tests_cant": "Schedules are unbounded", "anchors": ["include/tree_topology/tree_topology.h: traversal_sph, traversal_fmm, request_, recv_requests_, recv_node_replies_, recv_entity_replies_"]}
{"id": "C19", "title": "The distributed sort returns a sorted permutation with the requested distribution", "statement": "After psort the concatenation over ranks is sorted by (key,id), is a permutation of the input, and each rank holds as many particles as dist prescribes.", "quantifier": "every number of ranks, every data, every dist with the right total", "why_tests_cant": "Unbounded data and ranks", "anchors": ["mpisph/psort.h: psort, Split::split, seqsort, alltoall"]}
{"id": "C20", "title": "The sample sort splits particles by key range", "statement": "mpi_qsort sends every particle to exactly one rank, the ranks' key ranges do not overlap and follow rank order, and no particle is lost, for every key value up to the largest key.", "quantifier": "every sorted particle list, every splitter list", "why_tests_cant": "Splitters equal to data, repeated and extreme keys are rare in tests", "anchors": ["mpisph/tree_colorer.h: mpi_qsort, generate_splitters_samples"]}
{"id": "C21", "title": "The exchange primitives deliver every block to its destination in order", "statement": "mpi_alltoallv delivers to rank j the concatenation, in rank order, of the blocks the ranks addressed to j; mpi_allgatherv delivers to everybody the concatenation of all contributions.", "quantifier": "every number of ranks and block sizes", "why_tests_cant": "Unbounded", "anchors": ["mpisph/utils.h: mpi_alltoallv, mpi_allgatherv, mpi_alltoallv_p2p"]}
{"id": "C22", "title": "The particle order is a strict total order and the entity order usable for sorting", "statement": "The comparison used to sort particles is a strict weak order, total on particles with distinct ids; operator< on entities is a strict weak order.", "quantifier": "all triples of particles", "why_tests_cant": "All triples", "anchors": ["mpisph/bodies_system.h: update_iteration comparator", "include/tree_topology/tree_types.h: entity::operator<"]}
{"id": "C23", "title": "Geometry predicates decide exactly the geometric relation", "statement": "within_distance2, within, within_box, intersects_box_box, intersects_sphere_sphere and intersects_sphere_box return true exactly when the point is in the ball/box or the two closed shapes share a point.", "quantifier": "all coordinates in exact arithmetic, all dimensions 1..3", "why_tests_cant": "Real-valued inputs, boundary cases", "anchors": ["include/tree_topology/tree_geometry.h: tree_geometry"]}
{"id": "C24", "title": "Periodic wrapping puts every particle back in the box", "statement": "After boundary handling every real particle's coordinate along a periodic axis lies in (min,max] of the box, differs from the original by a multiple of the box length, and the number, identity and order of real particles are unchanged.", "quantifier": "every particle list, every displacement", "why_tests_cant": "Displacements larger than one box length are untested", "anchors": ["include/physics/boundary.h: pboundary_generate, pboundary_clean"]}
{"id": "C25", "title": "Periodic ghosts make every periodic neighbour visible", "statement": "For every real particle and every periodic image of a real particle closer than halo_size to it, a wall particle (or the real one) exists at that image's position, and every wall particle is the image of a real particle by a non-zero combination of box vectors.", "quantifier": "every particle list, every halo, boxes of any size relative to the halo, every subset of periodic axes", "why_tests_cant": "Corner and small-box configurations are combinatorial", "anchors": ["include/physics/boundary.h: pboundary_generate, add_corner_XX, add_corner_XXX"]}
{"id": "C26", "title": "Particle ids stay unique across ranks when ghosts are added", "statement": "If the real particles carry ids 0..N-1, after ghost generation all particles on all ranks carry distinct ids, real particles keep theirs, and the internal id check succeeds; removing ghosts restores the real particles.", "quantifier": "every number of ranks and distribution", "why_tests_cant": "Unbounded", "anchors": ["include/physics/boundary.h: pboundary_generate, pboundary_clean"]}
{"id": "C27", "title": "Ids generated on input are unique and consecutive", "statement": "When the input has no ids, reading N particles on any number of ranks assigns every particle a distinct id and the ids satisfy what ghost generation requires.", "quantifier": "every N and number of ranks", "why_tests_cant": "N not divisible by the number of ranks", "anchors": ["mpisph/io.h: H5P_bodiesReadDataset (id), inputDataHDF5"]}
{"id": "C28", "title": "File partition is exact", "statement": "On input the particles of the file are split among ranks into consecutive blocks that cover the file exactly once with sizes differing by at most one; on output the hyperslabs written by the ranks are disjoint and cover the dataset, and reading back what was written on any number of ranks returns the same particles in the same global order.", "quantifier": "every N, every number of ranks for writing and for reading", "why_tests_cant": "Unbounded", "anchors": ["mpisph/io.h: H5P_setNumParticles, inputDataHDF5, H5P_writeDataset, H5P_readDataset"]}
{"id": "C29", "title": "Snapshot names parse back", "statement": "The snapshot number is recovered from every file name the code writes, any other name is rejected, and the parser reads only inside the name.", "quantifier": "every prefix, every step number, every file name", "why_tests_cant": "Names of any length", "anchors": ["mpisph/io.h: H5P_isPrefixSnapshot, outputDataHDF5"]}
{"id": "C30", "title": "Restart finds the requested iteration", "statement": "Looking up an iteration among snapshot files returns a snapshot of that iteration if there is one and otherwise reports failure.", "quantifier": "every directory content and order", "why_tests_cant": "Directory order is not controllable in tests", "anchors": ["mpisph/io.h: H5P_findIterationSnapshot, inputDataHDF5"]}
{"id": "C31", "title": "Kernels are non-negative with compact support", "statement": "Every SPH kernel is non-negative, vanishes at and beyond its support radius h, is continuous, and non-increasing in distance.", "quantifier": "all r >= 0, h > 0 (exact arithmetic)", "why_tests_cant": "Real-valued", "anchors": ["include/physics/kernels.h: cubic_spline, quintic_spline, wendland_*, gaussian, super_gaussian, sinc"]}
{"id": "C32", "title": "Kernel gradients are the derivatives of the kernels", "statement": "The gradient functions return the derivative of the corresponding kernel along the direction of separation (up to the regularisation TINY), are antisymmetric under exchange of the particles and vanish outside the support.", "quantifier": "all separations, h > 0", "why_tests_cant": "Real-valued", "anchors": ["include/physics/kernels.h: gradient_*"]}
{"id": "C33", "title": "Kernels are normalised", "statement": "The integral of each polynomial kernel over space equals 1.", "quantifier": "all h > 0, dimensions 1..3", "why_tests_cant": "Integral over a continuum", "anchors": ["include/physics/kernels.h"]}
{"id": "C34", "title": "Hydrodynamic forces conserve linear momentum", "statement": "The mass-weighted sum of the hydrodynamic accelerations over all particles is zero when neighbour lists are symmetric, whatever densities, pressures and velocities.", "quantifier": "every number of particles, all data", "why_tests_cant": "Unbounded", "anchors": ["include/physics/default_physics.h: compute_acceleration"]}
{"id": "C35", "title": "Energy exchange is conservative", "statement": "With no external force, the mass-weighted sum of the total energy derivatives is zero; in the internal energy formulation, internal plus kinetic energy is stationary.", "quantifier": "every number of particles, all data", "why_tests_cant": "Unbounded", "anchors": ["include/physics/default_physics.h: compute_dudt, compute_dedt, compute_acceleration"]}
{"id": "C36", "title": "Density is positive", "statement": "Computing density over a neighbour list which contains the particle itself gives a strictly positive density for positive masses and smoothing lengths.", "quantifier": "all data", "why_tests_cant": "Unbounded", "anchors": ["include/physics/default_physics.h: compute_density"]}
{"id": "C37", "title": "Artificial viscosity only dissipates", "statement": "The viscous pressure is non-negative, zero for receding particles, symmetric in the two particles and its contribution to internal energy is non-negative.", "quantifier": "all data", "why_tests_cant": "Real-valued", "anchors": ["include/physics/viscosity.h: mu, artificial_viscosity", "include/physics/default_physics.h: compute_dudt"]}
{"id": "C38", "title": "Equations of state are consistent", "statement": "For every EOS: pressure is continuous and non-negative, sound speed squared is non-negative, and adiabatic constant / internal energy / pressure are mutually inverse where the code converts between them.", "quantifier": "all densities and energies > 0", "why_tests_cant": "Real-valued, piecewise", "anchors": ["include/physics/eos/eos.h"]}
{"id": "C39", "title": "The leapfrog step is time reversible", "statement": "Kick-drift-kick with dt followed by the same step with -dt restores position and velocity for any position-dependent acceleration; energy kicks likewise.", "quantifier": "all force fields, all dt", "why_tests_cant": "Function-valued input", "anchors": ["include/physics/integration.h"]}
{"id": "C40", "title": "The adaptive time step never exceeds the stability limit", "statement": "After the update the step is positive and at most the smallest particle limit, grows by at most a factor two per step, and time never goes past a pending output time.", "quantifier": "every history of particle limits and output settings", "why_tests_cant": "Histories", "anchors": ["include/physics/default_physics.h: set_adaptive_timestep, compute_dt"]}
{"id": "C41", "title": "Output happens exactly at output times", "statement": "With time-based output, time is strictly increasing and every multiple of the output interval reached by the run is hit exactly by a step.", "quantifier": "every history", "why_tests_cant": "Histories", "anchors": ["include/physics/default_physics.h: set_adaptive_timestep, advance_time", "include/physics/analysis.h: set_initial_time_iteration, h5data_output"]}
{"id": "C42", "title": "External forces derive from their potentials", "statement": "For every built-in external force the acceleration is minus the gradient of the potential; sums of forces derive from sums of potentials.", "quantifier": "all positions and parameters", "why_tests_cant": "Real-valued", "anchors": ["include/physics/eforce.h"]}
{"id": "C43", "title": "Density profiles are consistent and normalised", "statement": "Each profile's mass function is the integral of its density, its derivative function is the derivative of the density, and the total mass is 1.", "quantifier": "all radii, dimensions 1..3", "why_tests_cant": "Continuum", "anchors": ["include/physics/density_profiles.h"]}
{"id": "C44", "title": "Tabulated profiles interpolate the table", "statement": "The interval search returns the interval containing the point, reads only inside the table, and the interpolation reproduces the table at its nodes and any cubic polynomial exactly.", "quantifier": "every increasing table, every x", "why_tests_cant": "Unbounded tables", "anchors": ["include/physics/density_profiles.h: get_interval_index, cubic_interp"]}
{"id": "C45", "title": "Symmetric tensors index each independent component once", "statement": "In a symmetric tensor of rank 2, 3 or 4 every permutation of the indices addresses the same storage slot, different index multisets address different slots, all slots are in range and all are used; enum names address the same slot as the numeric indices.", "quantifier": "every dimension, every index tuple", "why_tests_cant": "Every dimension", "anchors": ["include/tensor.h: symmetric multiindex, pascal_number, remap"]}
{"id": "C46", "title": "Tensor arithmetic is exact for aliased operands", "statement": "a += b and a -= b store the component-wise sum/difference for all operands, including a itself.", "quantifier": "all tensors", "why_tests_cant": "Aliasing is not tested", "anchors": ["include/tensor.h: operator+=, operator-="]}
{"id": "C47", "title": "Lattice generation keeps particles apart and inside the domain", "statement": "Every generated position lies in the requested domain and distinct particles are at least the requested separation apart; the counting pass returns the number of particles the generation pass writes.", "quantifier": "every box, separation, lattice type, dimension", "why_tests_cant": "Unbounded", "anchors": ["include/lattice.h: generator_lattice_1d/2d/3d"]}
{"id": "C48", "title": "Icosahedral particle counts are exact", "statement": "The closed form for the number of particles in k icosahedral shells equals the sum of the shell counts and the number of points the generator places.", "quantifier": "every k", "why_tests_cant": "Unbounded k", "anchors": ["include/lattice.h: npart_icosahedral_shell, npart_icosahedral_sphere, generator_icosahedral_lattice"]}
{"id": "C49", "title": "Parameter files are parsed as documented", "statement": "Comment and blank lines change nothing; a line 'name = value # comment' sets the parameter to the value; quoting preserves the string.", "quantifier": "every line", "why_tests_cant": "All strings", "anchors": ["include/params.h: read_params, set_param, trim"]}
{"id": "C50", "title": "The conservation check detects violations", "statement": "check_conservation returns true only if the quantity stays constant over all rows of scalar_reductions.dat.", "quantifier": "every file content produced by scalar_output", "why_tests_cant": "All files", "anchors": ["include/physics/analysis.h: check_conservation, scalar_output"]}
{"id": "C51", "title": "Velocity divergence is Galilean invariant", "statement": "Adding a constant velocity to all particles does not change the computed divergence of velocity.", "quantifier": "all data", "why_tests_cant": "Real-valued", "anchors": ["include/physics/default_physics.h: compute_divv"]}
{"id": "C52", "title": "The computed range covers all particles", "statement": "The global range contains every particle with its smoothing length on every rank, so that all keys are well defined and lie in [min(),max()].", "quantifier": "every number of ranks, all data", "why_tests_cant": "Unbounded", "anchors": ["mpisph/bodies_system.h: mpi_compute_range", "mpisph/tree_colorer.h: mpi_compute_range"]}
{"id": "C53", "title": "WVT boundary operations", "statement": "Converting to spherical coordinates and back is the identity; removing the radial acceleration leaves exactly the tangential component; displaced particles stay within the sphere.", "quantifier": "all points", "why_tests_cant": "Real-valued", "anchors": ["include/physics/wvt.h: cartesian_to_spherical, spherical_to_cartesian, remove_radial_acc, wvt_displacement"]}
{"id": "C54", "title": "max_depth() reports the depth of the tree", "statement": "After build_tree, max_depth() is the depth of the deepest cell of the tree.", "quantifier": "every set of distinct keys", "why_tests_cant": "Key sets are unbounded; the value is only printed", "anchors": ["include/tree_topology/tree_topology.h: build_tree, max_depth"]}
{"id": "C55", "title": "A pass over the neighbours does not depend on the visiting order", "statement": "The state after applying a physics function to every particle and its neighbours (density, acceleration, energy derivatives, velocity divergence, viscosity parameter, repulsion) is the same for every order in which the particles are visited.", "quantifier": "all particle sets, neighbour lists and visiting orders", "why_tests_cant": "The order depends on the tree, the number of processes and the moment remote data arrive; a test sees one order", "anchors": ["include/bodies_system.h: apply_in_smoothinglength", "include/topology/tree_topology/tree_topology.h: apply_sub_cells / traversal_sph", "include/physics/default_physics.h: compute_density, compute_density_pressure_soundspeed, compute_signalspeed, compute_acceleration, compute_dudt, compute_dedt"]}
{"id": "C56", "title": "Hydrodynamic forces conserve angular momentum", "statement": "The sum over all particles of mass times the outer product of position and hydrodynamic acceleration, antisymmetrised, is zero without external forces.", "quantifier": "all particle sets, neighbour lists and visiting orders, all kernels", "why_tests_cant": "Real-valued, unbounded number of particles", "anchors": ["include/physics/default_physics.h: compute_acceleration"]}
{"id": "C57", "title": "Relaxation forces dissipate and conserve", "statement": "The relaxation drag never accelerates a particle along its velocity (v.a <= 0 for non-negative coefficients), its contribution to the energy equations is the work it does, and the short-range repulsion exchanges equal and opposite momenta.", "quantifier": "all particles, neighbour lists and non-negative coefficients", "why_tests_cant": "Real-valued, unbounded number of particles", "anchors": ["include/physics/eforce.h: acceleration_drag", "include/physics/default_physics.h: add_drag_acceleration, add_drag_dedt, add_drag_dudt, add_short_range_repulsion"]}
{"id": "C58", "title": "The adaptive viscosity parameter stays in its range", "statement": "With the Cullen-Dehnen viscosity, alpha starts at zero and stays between zero and the configured maximum over the whole run.", "quantifier": "every history of particle states and neighbour lists", "why_tests_cant": "Histories of real-valued states", "anchors": ["include/physics/viscosity.h: initialize_alpha, compute_xi, A_trigger, compute_alpha"]}
{"id": "C59", "title": "Equations of state obey the first law and have the right sound speed", "statement": "For each equation of state, along a reversible adiabat the internal energy returned changes by P/rho^2 per unit of density, and the square of the sound speed returned is the derivative of the pressure with respect to density at constant entropy.", "quantifier": "every equation of state, all densities and energies in its domain, all parameters", "why_tests_cant": "It relates derivatives of real functions at every density; a test evaluates them at a few points and with rounding.", "anchors": ["include/physics/eos/eos.h: compute_pressure_*, compute_soundspeed_*, compute_*_wd, piecewise polytrope"]}
{"id": "C60", "title": "The clock is the time integrated", "statement": "Between two iterations of the main loop the difference of the times printed with the outputs is the time step with which the particles in between were kicked and drifted, and the iteration number grows by one.", "quantifier": "every configuration, state, neighbour lists and visiting orders, adaptive or fixed time steps", "why_tests_cant": "It must hold for every state and every choice of the adaptive time step", "anchors": ["app/drivers/hydro/main_driver.cc: main loop", "include/physics/default_physics.h: set_adaptive_timestep, advance_time", "include/physics/integration.h"]}
{"id": "C61", "title": "A restarted run continues the original run", "statement": "A run started from a snapshot of another run, with the iteration of the snapshot as initial iteration, passes through the same positions, velocities, masses and times as the original run.", "quantifier": "every run, every iteration at which it wrote a snapshot, every number of further iterations", "why_tests_cant": "Crash points and histories: the claim is about every snapshot of every run", "anchors": ["mpisph/io.h: outputDataHDF5, inputDataHDF5", "mpisph/analysis.h: set_initial_time_iteration", "app/drivers/hydro/main_driver.cc"]}
{"id": "C62", "title": "The point-to-point exchange never deadlocks", "statement": "On every schedule of the processes and of the network, the point-to-point all-to-all exchange of particles (send to and receive from every other process, then wait) can always continue until every process has left it, and when it has every receive buffer holds the block sent to it.", "quantifier": "every number of processes, every choice of block sizes, every interleaving of posts, deliveries and waits", "why_tests_cant": "The number of interleavings is unbounded; a test runs one", "anchors": ["mpisph/utils.h: mpi_alltoallv_p2p"]}
{"id": "C63", "title": "Rescaled smoothing lengths fill the sphere", "statement": "The rescaling of smoothing lengths in the relaxation program multiplies all smoothing lengths of all processes by one factor, and afterwards the volumes of the kernel balls of all particles add up to the requested number of neighbours times the volume of the sphere.", "quantifier": "every set of particles, every distribution over processes, every dimension", "why_tests_cant": "Real-valued inputs and every distribution", "anchors": ["include/physics/wvt.h: compute_smoothinglength_wvt"]}
{"id": "C64", "title": "A relaxation run ends and writes its result", "statement": "A relaxation run ends, at the latest with the last iteration of the cool down; exactly at its last iteration the density is reset to the profile and a snapshot is written in any case; convergence means that less than the requested percentage of all particles of all processes moves more than a thousandth of the spacing, however they are distributed; the step size decreases linearly to zero during the cool down.", "quantifier": "every choice of parameters, every history of convergence checks, every distribution of the particles", "why_tests_cant": "Histories of any length", "anchors": ["include/physics/wvt.h: check_convergence_wvt, wvt_displacement", "app/drivers/wvt/main_driver.cc"]}
{"id": "C65", "title": "Old snapshots are removed, and nothing else", "statement": "At the start of a run the snapshots of the output prefix (at a restart those with a number above that of the restart) are removed from the directory of the prefix, and no other file is.", "quantifier": "every directory content, every prefix, every threshold", "why_tests_cant": "Directory contents and prefixes are unbounded", "anchors": ["mpisph/io.h: H5P_removePrefix, inputDataHDF5"]}
{"id": "C66", "title": "The kernels have the published shapes", "statement": "Each selectable kernel, at distance r and smoothing length h, is a constant over h^dim times the textbook profile (cubic and quintic B-splines, Wendland C2/C4/C6 in 1D and in 2D/3D, Gaussian, super-Gaussian, sinc^n) at kernel_width * r / h, cut at the edge of the support.", "quantifier": "all kernels, dimensions 1..3, all distances r >= 0 and smoothing lengths h > 0", "why_tests_cant": "The shape must agree at every distance, in particular on all pieces of the splines; tests sample.", "anchors": ["include/physics/kernels.h: cubic_spline, quintic_spline, wendland_c2_*, wendland_c4_*, wendland_c6_*, gaussian, super_gaussian, sinc_ker, kernel_width"]}
{"id": "C67", "title": "The main loop ends when asked to", "statement": "A run ends after the first iteration (it makes at least one) after which the iteration number exceeds final_iteration or the time exceeds final_time, where these are positive. With only final_iteration set it makes one iteration for each number from the initial to the final one; with a final iteration, or a final time and a fixed time step, it cannot go on for ever; with neither it never ends.", "quantifier": "all parameters, all particle data and all numbers of iterations", "why_tests_cant": "Needs every number of iterations and every time step history.", "anchors": ["app/drivers/hydro/main_driver.cc: mpi_init_task", "include/physics/default_physics.h: termination_criteria", "include/physics/analysis.h: output decisions"]}
{"id": "C68", "title": "Smoothing lengths follow the density", "statement": "With variable smoothing lengths, after an update the density of a particle times the cube (square, ...) of its smoothing length over the kernel width is sph_eta^dim times its mass; with uniform ones all particles share the average of these lengths; otherwise the lengths stay. Nothing else of a particle changes.", "quantifier": "all particle data with positive masses and densities, dimensions 1..3", "why_tests_cant": "Holds for all real masses and densities in all dimensions; uniformity ranges over all particle numbers.", "anchors": ["include/physics/default_physics.h: compute_smoothinglength, compute_average_smoothinglength", "app/drivers/hydro/main_driver.cc"]}
{"id": "C69", "title": "Self-gravity conserves linear momentum", "statement": "With the fast multipole method the gravitational forces on all particles add up to zero: gravity does not change the total linear momentum.", "quantifier": "all particle sets with distinct keys and positions and positive masses, all dimensions, all values of the opening angle", "why_tests_cant": "The pair of cells chosen for (A, B) must mirror the one chosen for (B, A) in every tree; a test looks at a few particle sets.", "anchors": ["include/tree_topology/tree_topology.h: traversal_fmm", "include/physics/fmm.h: fmm_c2c, fmm_p2c, fmm_n2p, fmm_c2p, fmm_p2p", "include/bodies_system.h: gravitation_fmm"]}
{"id": "C70", "title": "The number of processes does not change the physics", "statement": "A simulation gives the same particle data after every iteration on any number of processes, however the particles are divided among them, whatever the order in which they are visited and the messages arrive; in particular it conserves momentum and energy and fails no assertion on several processes if it does on one.", "quantifier": "all parameters, initial data, numbers of processes and iterations, divisions of the particles at every iteration, orders of visits, interleavings of messages", "why_tests_cant": "Copies of particles on other processes are refreshed at fixed places only; whether a stale copy is read depends on the division, the visiting order and the moment a reply is sent. A test sees one of these schedules.", "anchors": ["app/drivers/hydro/main_driver.cc: mpi_init_task", "mpisph/bodies_system.h: apply_in_smoothinglength, apply_all, reset_ghosts, update_iteration, get_all", "include/tree_topology/tree_topology.h: traversal_sph, get_entity, clean, build_tree"]}
{"id": "C71", "title": "Scalar output: each column is the total it is named after", "statement": "Each line appended to scalar_reductions.dat holds, column by column in the order of the header, the iteration, time, step and the totals over all fluid particles of the simulation (mass, total, kinetic and internal or gravitational energy, linear and angular momentum, centre of mass), whatever the division of the particles among the processes and however many wall particles there are; over a run the conserved ones are constant.", "quantifier": "all particle data, numbers of processes, divisions (also empty processes), walls, dimensions, settings of gravity and energy evolution, numbers of iterations", "why_tests_cant": "Conservation is judged from this file alone. A test compares it with a reference for one division and one setting; a column holding another quantity than its name says is not seen.", "anchors": ["include/physics/analysis.h: compute_total_mass, compute_total_energy, compute_total_kinetic_energy, compute_total_internal_energy, compute_total_gravitational_energy, compute_total_momentum, compute_total_ang_mom, scalar_output", "mpisph/utils.h: reduce_sum"]}
{"id": "C72", "title": "Diagnostics: extrema and averages of all particles", "statement": "Each line of diagnostic.dat holds the least, greatest and average number of neighbours, smoothing length and speed of all particles at that iteration, on every number of processes.", "quantifier": "all particle data, numbers of processes, divisions, numbers of outputs", "why_tests_cant": "The values depend on earlier outputs (static variables), on the division, and on reductions over processes; a test looks at one output on one process.", "anchors": ["include/diagnostic.h: compute_neighbors_stats, compute_smoothinglength_stats, compute_velocity_stats, output", "mpisph/utils.h: reduce_sum, reduce_min, reduce_max"]}
{"id": "C73", "title": "Initial data of single regions carries the mass and energy asked for", "statement": "The generators for blast wave, Noh problem, collapse, implosion and wind tunnel write particles whose masses sum up to the density integrated over the requested region, whose energies and pressures are those of the ideal gas at the requested state, and, for the blast wave, which contain exactly the requested blast energy inside of the blast radius; Noh particles move to the centre with the given speed.", "quantifier": "all parameters, lattices, numbers of particles, perturbations, dimensions, domain types", "why_tests_cant": "Generators are run for one parameter file each; a wrong total mass or a lost blast energy produces a plausible run of another problem.", "anchors": ["app/id_generators/sedov/main.cc: set_derived_params, main", "app/id_generators/noh/main.cc", "app/id_generators/collapse/main.cc", "app/id_generators/implosion/main.cc", "app/id_generators/wtunnel/main.cc"]}
{"id": "C74", "title": "Initial data of several blocks represents the densities of the blocks", "statement": "In shock tubes, Rayleigh-Taylor and Kelvin-Helmholtz layers every particle has the velocity, density, pressure and energy of the block it was generated in, its mass is the density of that block times the volume of one lattice cell (after all stretching), and layers under gravity are in hydrostatic equilibrium with continuous pressure.", "quantifier": "all parameters, tests, lattices, dimensions, block sizes, density ratios, stretch factors", "why_tests_cant": "Blocks are recognised by comparing rounded positions with tolerances, masses come from lattice constants per dimension and lattice; each combination is its own case.", "anchors": ["app/id_generators/sodtube/main.cc", "app/id_generators/RT/main.cc", "app/id_generators/KH/main.cc", "app/id_generators/fluid/main.cc", "include/lattice.h: in_domain_1d"]}
{"id": "C75", "title": "A run with periodic boundaries is a run on the torus", "statement": "With periodic boundaries, after any number of iterations the particles which are not ghosts have the positions (up to whole box lengths), velocities, densities, pressures, energies, accelerations and smoothing lengths they would have if every particle interacted with all periodic images of all particles: ghosts, their number, the place of the boundary and the number of processes leave no trace.", "quantifier": "all particle data, numbers of iterations and processes, divisions, orders of visits, neighbour lists that contain the neighbours, sets of periodic axes, kernels, equations of state", "why_tests_cant": "Ghosts at the outer end of the halo always have wrong densities and accelerations; whether these errors reach real particles depends on how many passes follow each other before the ghosts are made again, and on particles sitting in particular places near the boundary.", "anchors": ["app/drivers/hydro/main_driver.cc: mpi_init_task", "mpisph/bodies_system.h: update_iteration, getSmoothinglength, apply_in_smoothinglength", "include/physics/boundary.h: pboundary_generate, pboundary_clean", "include/physics/default_physics.h: compute_average_smoothinglength"]}
{"id": "C76", "title": "Self-gravity on many processes approximates Newton's law and does not depend on the number of processes", "statement": "The gravitational potential and acceleration computed for a particle are determined by the particles and the opening angle alone: running on one or on many processes, dividing the particles differently among them, or receiving messages in another order gives the same field for every particle. The potential and acceleration differ from Newton's law for all other particles by a bounded relative error given by the opening angle.", "quantifier": "all particle positions, masses, keys, opening angles, numbers of processes, divisions of the particles, orders of tasks and messages", "why_tests_cant": "A test runs one division and one schedule; which cells are requested, when they arrive and in which order pairs are treated depends on timing, and every process sees another part of the tree.", "anchors": ["mpisph/bodies_system.h:gravitation_fmm", "include/tree_topology/tree_topology.h:traversal_fmm", "include/tree_topology/tree_topology.h:recv_requests_", "include/physics/fmm.h"]}
{"id": "C77", "title": "One iteration, from positions to neighbour lists and gravity", "statement": "Given only particles with positions, smoothing lengths, masses and ids, divided in any way among the processes, one update of the iteration (bounding box, keys, sort, tree, sharing of the top of the tree) followed by a traversal works as a whole: no particle is lost, doubled or changed; the keys are the interleaved coordinates of the cell of the box the particle is in; each process keeps its number of particles and the keys increase from process to process; each particle then gets its call with all particles not further away than the mean smoothing length, and self-gravity gives each particle a field that is near Newton's law and does not depend on the division or on timing.", "quantifier": "all particles in different cells of the finest grid, all divisions among processes, ids, stale keys, implementations of std::sort, orders of tasks and messages", "why_tests_cant": "Each of the phases hands its result to the next; a test can only look at some particle sets, process counts and schedules, and a mismatch between two phases shows only for special positions (on cell borders, at the border of the box) or divisions.", "anchors": ["mpisph/bodies_system.h:update_iteration", "mpisph/bodies_system.h:mpi_compute_range", "include/tree_topology/tree_topology.h:compute_keys", "include/tree_topology/tree_topology.h:build_tree", "include/tree_topology/tree_topology.h:traversal_sph", "include/tree_topology/tree_topology.h:traversal_fmm", "mpisph/psort.h:psort"]}
{"id": "C78", "title": "Runs with self-gravity", "statement": "A run of the newtonian driver with the multipole method gives the same particles on every number of processes: either all runs from the same particles finish with the same clock and the same data (but the signal speeds), or all stop in the same way. Every iteration is a step of the leapfrog scheme in which the gas exerts no net force and gravity is Newton's law at the new positions up to the error of the multipole method; particles, masses, momentum and angular momentum are kept up to that error, and exactly when the opening angle is zero. With the thermokinetic formulation the energy of the gas starts from that of the initial data and each later iteration adds the work gravity does, by the trapezoid rule; that work is what the energy of gravity loses.", "quantifier": "all particles with positive masses and smoothing lengths and different ids, all parameters with constant viscosity and a fixed time step, all numbers of iterations and of processes, all divisions, orders of visits, neighbour lists, messages and implementations of std::sort", "why_tests_cant": "Gravity and hydrodynamics share one tree, its copies and its messages; a stale copy, a wrong order of the calls or a dependence on the division shows only for some numbers of processes and some timings, and the error adds up over iterations.", "anchors": ["app/drivers/newtonian/main_driver.cc:mpi_init_task", "mpisph/bodies_system.h:gravitation_fmm", "include/physics/fmm.h", "include/physics/integration.h", "include/physics/default_physics.h:compute_acceleration"]}
{"id": "C79", "title": "Both drivers, from positions to results, with the trees", "statement": "A run of the hydro or the newtonian driver, in which every iteration makes new keys, sorts and exchanges the particles, builds the trees, searches them with messages for every pass and traverses them for gravity, can always be carried out, and how it ends does not depend on the number of processes: two runs from the same particles finish with the same clock and the same data (but the signal speeds), or fail alike, or stop at the same iteration because two particles share a cell of the finest grid of the keys. Every such run is a run of the single-tree description, so that particles and masses are kept, momentum and angular momentum are kept (up to the error of the multipole method with gravity) and every particle ends with the data of the sequential computation.", "quantifier": "all particles (at least two) with positive masses and smoothing lengths and different ids, all parameters with constant viscosity and a fixed time step, all numbers of iterations and of processes (powers of two), all first divisions, all messages and their orders, all orders of visits, all implementations of std::sort", "why_tests_cant": "The pieces are tested one by one on one process; that the keys made by one step, the division made by the next, the copies left by one search and the trees rebuilt in between fit together for every iteration and every timing of messages is a statement about all histories.", "anchors": ["app/drivers/hydro/main_driver.cc:mpi_init_task", "app/drivers/newtonian/main_driver.cc:mpi_init_task", "mpisph/bodies_system.h:update_iteration", "mpisph/bodies_system.h:apply_in_smoothinglength", "mpisph/bodies_system.h:reset_ghosts", "mpisph/bodies_system.h:gravitation_fmm", "include/tree_topology/tree_topology.h:build_tree"]}
{"id": "C80", "title": "Neighbour search in floating-point arithmetic", "statement": "With every operation on coordinates, masses and smoothing lengths rounded as in `double`, building the trees and searching them still never fails, and every particle is given to the user's function exactly once, with a list without repetition that holds every particle of any process closer than the mean of the two smoothing lengths less 100 D u X (D the depth of the tree, u the unit roundoff, X a bound of coordinates and smoothing lengths), and none further away than the larger smoothing length divided by (1-u)^4. With one smoothing length the lists are right for all pairs but those whose distance differs from it by at most 100 D u X. The key of a point of the box is always defined and names its cell of the finest grid or a cell next to it.", "quantifier": "all roundings with relative error at most u per operation (68 D u <= 1), all particles with positive masses and bounded coordinates, one to three dimensions, all divisions over a power of two of processes and all orders of messages", "why_tests_cant": "Rounding errors hit only pairs near the edge of a box or sphere and grow with the depth of the tree; no sample of positions shows that a tree test never drops a pair that the pair test would keep.", "anchors": ["include/tree_topology/tree_geometry.h:within_distance2", "include/tree_topology/tree_geometry.h:intersects_sphere_box", "include/space_vector.h:distance", "include/physics/default_physics.h:compute_cofm", "include/tree_topology/tree_topology.h:traversal_sph", "include/tree_topology/filling_curve.h:morton_curve_u"]}
{"id": "C81", "title": "Initial data fit periodic boundaries", "statement": "With periodic boundaries the generators of shock tubes and of the two layers of Rayleigh-Taylor data change the extents of the domain so that the lattices of all blocks hold a whole number of periods, up to lattice_mismatch_tolerance times the coarser period, and shorten no extent by more than two periods and the tolerance. A new extent is found whenever the ratio of the periods is a fraction with a small enough denominator.", "quantifier": "all extents, separations and tolerances", "why_tests_cant": "Whether the search over multiples ends with a match depends on all four real numbers; a test sees one combination.", "anchors": ["app/id_generators/sodtube/main.cc:main", "app/id_generators/RT/main.cc:main", "app/id_generators/lattice.h:b_tol", "include/params.h:lattice_mismatch_tolerance"]}
{"id": "C82", "title": "Density in floating-point arithmetic", "statement": "With every operation rounded as in `double`, the density of every particle is computed on any power of two of processes without a failed assertion, is positive, and differs from the exact sum of m_b W(|x_a-x_b|,(h_a+h_b)/2) over all particles of all processes by at most (2n + c + 2500 D X/h0) u times the density the particles nearby would give in one place (n neighbours, D depth of the tree, X bound of the coordinates, h0 least smoothing length, c = 632 for the Wendland kernels), whatever the order of neighbours and messages; so two runs on different numbers of processes agree up to twice that.", "quantifier": "all roundings with relative error at most u per operation, all particles with positive masses and smoothing lengths and bounded coordinates, both splines and the three Wendland kernels, one to three dimensions, all divisions over a power of two of processes and all orders of messages and neighbours", "why_tests_cant": "Sums of many rounded terms come out differently on each number of processes; a test cannot tell a permitted difference from a lost neighbour, nor bound it for all particles.", "anchors": ["include/physics/default_physics.h:compute_density", "include/physics/kernels.h:kernel", "include/space_vector.h:magnitude", "include/tree_topology/tree_topology.h:traversal_sph"]}
{"id": "C83", "title": "Written totals and centres of mass in floating-point arithmetic", "statement": "With every operation rounded, each total in scalar_reductions.dat (mass, energies, momentum, angular momentum) is the exact total of all particles up to (2K u + 3p) times the sum of the absolute values of its terms, K = 2n + processes + 8 for n particles and p the error of printing, however the particles are divided among the processes and in whatever order MPI adds; so lines written on different numbers of processes agree up to both errors. Mass and centre of mass of every cell of the tree, in particular of the root, are right up to 32 D u and 136 D u, whatever the number of particles.", "quantifier": "all roundings with relative error at most u per operation, all particles, all divisions over processes, all orders and bracketings of the reduction; for the cells all keys and positive masses on a power of two of processes", "why_tests_cant": "The order of additions in an MPI reduction is free and differs between machines and numbers of processes; a test sees one order.", "anchors": ["include/physics/analysis.h:scalar_output", "include/physics/analysis.h:compute_total_energy", "mpisph/utils.h:reduce_sum", "include/physics/default_physics.h:compute_cofm"]}
{"id": "C84", "title": "Momentum and energy balance in floating-point arithmetic", "statement": "With every operation rounded by a rounding which treats both signs alike (as round to nearest, ties to even), two particles of equal mass push each other with forces opposite to the last bit and exchange exactly opposite amounts of energy, for all kernels and viscosities; with different masses up to 5u; and particles beyond the mean of their smoothing lengths, up to eleven roundings, exchange exactly nothing. So the rates of change of momentum, angular momentum, total energy, and of kinetic plus internal energy, are those due to external forces and gravity up to a small multiple of (number of neighbours) u times the sum of the absolute values of all contributions, plus what pairs with one-sided neighbour lists exchange, whatever the order of the particles; along a run the momentum drifts by at most this amount per kick.", "quantifier": "all roundings with relative error at most u per operation that are odd functions, all particles, parameters, kernels and viscosities, all neighbour lists without repetitions, all visiting orders, all runs of kicks and other steps", "why_tests_cant": "Conservation to roundoff is observed in tests on a few configurations; that nothing but roundoff and one-sided lists can break it needs all configurations and all roundings.", "anchors": ["include/physics/default_physics.h:compute_acceleration", "include/physics/default_physics.h:compute_dudt", "include/physics/default_physics.h:compute_dedt", "include/physics/kernels.h", "include/physics/viscosity.h", "include/physics/integration.h:leapfrog_kick_v"]}
{"id": "C85", "title": "Accuracy of the hydrodynamic forces in floating-point arithmetic", "statement": "With every operation rounded, the accelerations and the derivatives of the total and of the internal energy computed from given densities, pressures and sound speeds are those of exact arithmetic up to an explicit multiple, 2 (number of neighbours + 521) u, of the sum of the sizes of the contributions, for the polynomial kernels and both viscosities, whatever the order of the particles and of their neighbours, also where rounding changes the sign which switches the viscosity on. If the neighbour lists miss particles within a distance delta of the edge, the additional error is at most 10 delta over the mean smoothing length of the sizes of the missed contributions, and so is the violation of momentum conservation by pairs of which only one has the other in its list; with the lists of the search this is a multiple of u.", "quantifier": "all roundings with relative error at most u per operation, all particles with positive smoothing lengths and densities, all parameters, the five polynomial kernels, both viscosities, all neighbour lists and visiting orders", "why_tests_cant": "A test compares the forces of a few particles with a tolerance; which tolerance is right for all configurations, kernels and orders of summation needs a proof.", "anchors": ["include/physics/default_physics.h:compute_acceleration", "include/physics/default_physics.h:compute_dudt", "include/physics/default_physics.h:compute_dedt", "include/physics/kernels.h", "include/physics/viscosity.h"]}
{"id": "C86", "title": "Log messages appear on the rank asked for", "statement": "A message written with log_one or log_rank appears exactly once, on the console of the rank asked for, in the order of the calls and with its severity, time, place and rank, if its severity is not stripped and the tag of the innermost open guard was asked for; no other rank prints anything for it. Containers are logged with all their entries.", "quantifier": "all sequences of messages, texts, ranks, strip levels, sets of registered and requested tags, all nestings of guards, all containers", "why_tests_cant": "Which rank prints what depends on the whole history of registered tags, open guards and earlier messages on every rank; tests look at one rank and one message.", "anchors": ["include/log.h:log_one", "include/log.h:log_rank", "include/log.h:log_message_t", "include/log.h:log_t", "include/log.h:log_container", "include/log.h:log_container_one"]}
{"id": "C87", "title": "Every output of the log receives the texts, plain ones without colour codes", "statement": "Every output added to the log holds exactly the texts written while it was switched on, with the colour codes if it was added with colours and without them otherwise, whatever the order of adding, switching and writing.", "quantifier": "all histories of adding and switching outputs and writing, all texts including those with stray escape characters", "why_tests_cant": "The colour codes are recognised by an automaton one character at a time; that it is right for every text and every history needs an induction over the texts.", "anchors": ["include/log.h:tee_buffer_t", "include/log.h:tee_stream_t", "include/log.h:log_add_buffer"]}
{"id": "C88", "title": "Gathered messages are printed once, in the order of time", "statement": "Messages gathered from all ranks are printed by the printing thread exactly once, earlier ones before later ones, whatever the interleaving of the threads, and the program ends.", "quantifier": "all interleavings of the thread that gathers and the thread that prints, all messages, all clock times, every order std::sort may return", "why_tests_cant": "Losing or reordering messages depends on the schedule of two threads and on the bytes of the clock; a test sees one schedule at one time.", "anchors": ["include/log.h:packet_t", "include/log.h:flush_packets", "include/log.h:mpi_state_t", "include/log.h:send_to_one"]}
{"id": "C89", "title": "The search benchmark checks and reports the neighbours", "statement": "The program tree makes 5000 iterations; its check that every particle is among its own neighbours never fails, and in every iteration every process prints the average number of neighbours of the particles it holds, rounded down.", "quantifier": "all particles with different identifiers and positive smoothing lengths, all divisions over 2^m processes, all orders of messages and calls, all sizes of the groups of the search", "why_tests_cant": "The program is itself a test, run on one set of particles and one schedule; that its assertion cannot fail concerns all of them.", "anchors": ["app/drivers/tree/main_driver.cc:mpi_init_task", "mpisph/bodies_system.h:update_iteration", "mpisph/bodies_system.h:apply_in_smoothinglength", "include/tree_topology/tree_topology.h:traversal_sph"]}
{"id": "C90", "title": "Accuracy of equations of state and of forces from positions, in floating-point arithmetic", "statement": "In floating-point arithmetic the pass over densities, pressures and sound speeds ends with numbers, positive densities, and pressures and sound speeds which are right up to a stated multiple of the roundoff for every equation of state; accelerations and derivatives of energies computed from them are right up to a stated multiple of the roundoff of the sizes of the contributions. Restored pressures, internal energies, signal speeds and velocity divergences are right up to stated multiples of the roundoff, too.", "quantifier": "all particles with positive masses and smoothing lengths, all lists of neighbours and orders of particles, all densities, exponents and equations of state, all roundings with relative error u, in particular double with round to nearest, ties to even", "why_tests_cant": "The accumulated error of the chain density, equation of state, force depends on all the inputs and on the order of evaluation; a sound speed which is not a number shows up only at densities a test does not use.", "anchors": ["include/physics/default_physics.h:compute_density_pressure_soundspeed", "include/physics/default_physics.h:recover_internal_energy", "include/physics/default_physics.h:compute_signalspeed", "include/physics/default_physics.h:compute_divv", "include/physics/eos.h:compute_pressure", "include/physics/eos.h:compute_soundspeed", "include/physics/eos.h:soundspeed_given_rhoYe", "include/physics/eos.h:pressure_given_rhoYe"]}
{"id": "C91", "title": "Accelerations of the relaxation by weighted Voronoi tessellation", "statement": "The acceleration of a particle is the sum over its neighbours of a weight, which is positive inside the mean smoothing length and zero outside, times the direction away from the neighbour; near a reflective edge the mirror images of the neighbours and of the particle itself push as well, and near a frozen edge only the tangential part is kept. It does not depend on the order of neighbours or of particles, is bounded by the smoothing length times the number of neighbours, turns with the particles, and equal particles push each other equally.", "quantifier": "all positions, smoothing lengths and neighbour lists, all orders, both methods, all kinds of edges, one to three dimensions, all rotations", "why_tests_cant": "The claim is about every configuration; the images near the edge depend on the place of both particles.", "anchors": ["include/physics/wvt.h:wvt_acceleration_arth", "include/physics/wvt.h:wvt_acceleration_diehl", "include/physics/wvt.h:remove_radial_acc"]}
{"id": "C92", "title": "Whole relaxation runs", "statement": "A relaxation run ends. At every iteration all particles are in the sphere and have kept their numbers and masses. Outputs on the way carry the density summed over the neighbours and the acceleration that belongs to the positions in the output; the final output carries the density of the profile and the smoothing length that belongs to it. Between two outputs a particle whose step stays in the sphere moves by the step size times its acceleration. The run stops at the first relaxation step at which few enough particles move; particles in equilibrium stay where they are and the run stops at once.", "quantifier": "all initial particles in the sphere, all profiles with a positive density, all parameters for which forces cannot throw particles across the sphere, all neighbour searches which find the particle itself, all orders of particles, all numbers of iterations", "why_tests_cant": "Runs of any length from any initial state.", "anchors": ["app/drivers/wvt/main_driver.cc", "include/physics/wvt.h:compute_density", "include/physics/wvt.h:wvt_displacement", "include/physics/wvt.h:wvt_set_density", "include/physics/wvt.h:compute_smoothinglength_wvt", "include/physics/wvt.h:check_convergence_wvt"]}
{"id": "C93", "title": "Kelvin-Helmholtz layers fill the periodic box", "statement": "The generator of Kelvin-Helmholtz data writes a middle layer and two outer layers. All particles are inside the box, rows are equally spaced over the periodic length, the layers do not overlap, are mirror images of each other and continue across the periodic boundaries; every particle has the velocity, density, pressure and energy of its layer and as mass its density times the area of its cell, so that the box holds the mass of the layers; the velocity perturbation acts on the interfaces, with opposite signs.", "quantifier": "all extents, resolutions, density ratios, lattices, states, amplitudes and wavelengths (two dimensions)", "why_tests_cant": "The extents of the blocks come from floors of real quotients and from stretching factors; a test sees one combination.", "anchors": ["app/id_generators/KH/main.cc:set_derived_params", "app/id_generators/KH/main.cc:main", "include/lattice.h:generator_lattice_2d", "include/lattice.h:in_domain_2d"]}
{"id": "C94", "title": "Self-gravity in floating-point arithmetic stays near Newton's law", "statement": "In floating-point arithmetic the tree code for gravity still computes, for every particle of every process, a potential and an acceleration: no division by zero occurs for particles at different places, every particle acts on every other exactly once, and the result differs from Newton's law by the error of the acceptance angle plus a multiple of the unit roundoff that grows at most linearly with the number of particles and the depth of the keys. The total momentum changes by at most the same fraction of the sum of the forces.", "quantifier": "all particles at different places with positive masses, all acceptance angles and gravitational constants, all roundings with relative error u (times the number of particles at most one), all divisions among 2^m processes and all orders of messages (one to three dimensions)", "why_tests_cant": "Rounding errors depend on every coordinate and on the order of the additions, which depends on the messages; a test sees one order and one set of particles.", "anchors": ["include/physics/fmm.h:gravitation_p2p", "include/physics/fmm.h:gravitation_fc", "include/physics/fmm.h:interaction_c2p", "include/tree_topology/tree_geometry.h:mac", "include/tree_topology/tree_topology.h:traversal_fmm", "include/tree_topology/tree_topology.h:cofm_update_"]}
{"id": "C95", "title": "One iteration in floating-point arithmetic, from positions to lists, densities and gravity", "statement": "Starting an iteration in floating-point arithmetic works whatever the positions: the range found by all processes is the same box and holds every particle, every particle gets a valid key near its place, the distributed sort neither loses nor changes particles, the trees are built, and the traversals afterwards give every particle the neighbours, the density and the gravitational acceleration of the exact computation up to errors proportional to the unit roundoff.", "quantifier": "all particles with positive masses whose smoothing length exceeds the rounding of their coordinates and whose keys differ, all roundings with small relative error u, all divisions among the processes (any number for range, keys and sort; 2^m for the trees) and all orders of messages", "why_tests_cant": "Whether a rounded range still contains a particle at its edge, or a rounded key is still valid, is decided by single bits of the coordinates; a test tries a few positions.", "anchors": ["mpisph/bodies_system.h:update_iteration", "mpisph/bodies_system.h:mpi_compute_range", "include/tree_topology/tree_topology.h:compute_keys", "include/tree_topology/filling_curve.h:morton_curve_u", "mpisph/psort.h:psort", "include/tree_topology/tree_topology.h:build_tree"]}
{"id": "C96", "title": "The clock in floating-point arithmetic", "statement": "In floating-point arithmetic, too, the clock of a run moves forward in every iteration and a run with a final time ends. With a fixed step the time after k iterations is that of k steps up to k roundings and the number of iterations is that of exact arithmetic up to this error. With an adaptive step the step handed to the integrators is the way the clock goes up to one rounding and obeys the limits of the particles up to the rounding of the time. With one timed output the clock never goes back, never passes a time of output without being equal to it at an iteration, and the output is written exactly then.", "quantifier": "all roundings with small relative error u (for the outputs: those that keep the order and the numbers of the format, like double), all initial times, steps and final times, all histories of limits of the particles on any number of processes", "why_tests_cant": "A step is lost, or an output time missed by one bit, only for particular times after many iterations.", "anchors": ["include/physics/default_physics.h:set_adaptive_timestep", "include/physics/default_physics.h:advance_time", "include/physics/default_physics.h:termination_criteria", "include/physics/analysis.h:set_initial_time_iteration", "app/drivers/hydro/main_driver.cc:mpi_init_task"]}
{"id": "C97", "title": "Adaptive time steps on several processes", "statement": "In a run with an adaptive time step on several processes every process takes the same step, and that step does not depend on how the particles are divided among the processes. Without timed outputs it is positive and within the limits that velocity, acceleration and signal speed of every particle on every process set, and the time is the sum of the steps. Particles, masses, momentum, angular momentum and, in the thermokinetic formulation, the total energy are conserved whatever the steps are. Two runs from the same particles take the same steps and give the same result, whatever the number of processes.", "quantifier": "all particles, divisions among any number of processes at every iteration, messages, orders of visits, neighbour lists the search may deliver, numbers of iterations and parameters with constant viscosity", "why_tests_cant": "The step is a minimum over all particles of all processes, and it enters every later number; a test sees one division and one order of visits.", "anchors": ["app/drivers/hydro/main_driver.cc:mpi_init_task", "include/physics/default_physics.h:set_adaptive_timestep", "include/physics/default_physics.h:compute_dt", "include/physics/default_physics.h:compute_signalspeed"]}
{"id": "C98", "title": "The hydro driver with adaptive time steps and its trees, end to end", "statement": "Started on several processes from any division of the particles, the hydro driver with an adaptive time step sorts and exchanges the particles, builds its trees, finds neighbours through messages and takes steps that are the smallest over the particles each process stores. Such a run can always be carried out; it ends, stops on an assertion, or stops because two particles came into one cell of the keys. A run which ends conserves particles, masses, momentum, angular momentum and, in the thermokinetic formulation, the total energy; without timed outputs every step is positive and the last one is within the limits of every particle. A polytropic gas never stops on an assertion. Two runs which set the same clocks end with the same particles, whatever the number of processes.", "quantifier": "all particles with distinct ids and positive masses and smoothing lengths, first divisions, numbers of processes that are powers of two, sorts, messages and their orders, tree traversals, numbers of iterations and parameters with constant viscosity", "why_tests_cant": "The whole program is a composition of sorting, tree construction, asynchronous requests and a global minimum; a test sees one schedule of messages and one division.", "anchors": ["app/drivers/hydro/main_driver.cc:mpi_init_task", "include/bodies_system.h:update_iteration", "include/bodies_system.h:apply_in_smoothinglength", "include/physics/default_physics.h:set_adaptive_timestep"]}
{"id": "C99", "title": "The data of a one-dimensional shock tube stands for its initial states", "statement": "For every length, number of particles and test, the generator of shock tubes in one dimension ends, writes only inside of its arrays and numbers the particles. With equal masses and periodic boundaries every point of the box it tells the user to use belongs to the interval of exactly one particle, whose velocity, density and pressure are those of the tube at this point; so the mass is that of the profile. With open ends or equal separations every particle has the state of the tube at its position. The time step it suggests crosses at most half of the smallest separation at the speed of sound of any particle.", "quantifier": "all lengths, numbers of particles with 1 to 999999 in the middle, tests 1 to 6, adiabatic indices, kernels widths, with and without equal masses and periodic boundaries", "why_tests_cant": "Numbers of particles per block come from truncated quotients and loops with tolerances; a test sees one length and one resolution, and whether a particle is lost or doubled at an interface depends on both.", "anchors": ["app/id_generators/sodtube/main.cc:set_derived_params", "app/id_generators/sodtube/main.cc:main", "include/lattice.h:generator_lattice_1d", "include/lattice.h:in_domain_1d"]}
{"id": "C100", "title": "Random distributions of particles", "statement": "Whatever numbers are drawn, the random generator gives the same number of particles when it counts and when it generates, so that the arrays allocated between the two calls are filled exactly; the particles are the accepted draws in their order, inside of the domain and below the density profile, and nothing else in the arrays is touched. It ends if and only if enough draws are accepted. Draws that are accepted in a region have the mass of the profile in the region as their measure, so the particles follow the profile.", "quantifier": "all sequences of random numbers in the ranges of their distributions, boxes, separations, domain types, profiles and regions", "why_tests_cant": "The seed is the time of day: no run can be repeated, and whether the distribution follows the profile is a statement about all draws.", "anchors": ["include/lattice.h:generator_random_lattice", "include/lattice.h:in_domain_3d", "include/physics/density_profiles.h:spherical_density_profile"]}
{"id": "C101", "title": "Self-gravity with an adaptive time step", "statement": "With self-gravity and the adaptive time step every iteration of the newtonian driver, on any number of processes, is a step of the leapfrog scheme with Newton's attraction at the new positions, up to the error of the multipole method, and with the time step set at the end of the iteration before. Momentum, angular momentum and energy change no more than that error allows for the steps taken; steps are positive, add up to the time and respect the limits of every particle, the acceleration of gravity included; runs which set the same clocks agree whatever the number of processes; runs of a polytropic gas do not stop on an assertion.", "quantifier": "all numbers of particles, processes (powers of two) and iterations, initial data, divisions, message orders, visit orders, neighbour lists and opening angles", "why_tests_cant": "A test runs a few processes and steps from one set of data; that steps, limits and conservation fit together must hold for every history of steps.", "anchors": ["app/drivers/newtonian/main_driver.cc:mpi_init_task", "include/physics/default_physics.h:compute_dt", "include/physics/default_physics.h:set_adaptive_timestep", "include/bodies_system.h:gravitation_fmm"]}
{"id": "C102", "title": "The program with self-gravity and an adaptive time step, trees and messages", "statement": "The main loop of the newtonian driver with self-gravity and the adaptive time step, with the trees of all processes, the distribution of particles, ghost messages and the multipole method as they are carried out, does what the idealised run of C101 does: each iteration is a leapfrog step with Newton's attraction up to the error of the multipole method, momentum, angular momentum and energy keep to the bounds, steps are positive and within every particle's limits, a polytropic gas never stops on an assertion, and runs that set the same clocks agree whatever the number of processes. A run can always be carried out, unless two particles fall into one cell of the keys.", "quantifier": "all numbers of particles (at least two), processes (powers of two) and iterations, initial data, first divisions, sorts, message orders, visit orders and opening angles", "why_tests_cant": "A test sees one schedule of messages for one set of data; that the trees built and the messages sent give the same forces and time steps must hold for every schedule and history.", "anchors": ["app/drivers/newtonian/main_driver.cc:mpi_init_task", "include/bodies_system.h:update_iteration", "include/bodies_system.h:gravitation_fmm", "include/physics/default_physics.h:set_adaptive_timestep"]}
{"id": "C103", "title": "Output times of whole runs with an adaptive time step", "statement": "In a run with the adaptive time step and outputs asked for at multiples of one time interval, as long as no step used is longer than 9/20 of that interval: every step is positive, the steps add up to the time, no output time is passed over (each one reached is exactly the time of an iteration), output is written in exactly the iterations at these times, and the step set is within the limit of every particle of every process, up to a tenth of the interval where screen output is timed. This holds for the hydro and the newtonian driver, with their trees and messages.", "quantifier": "all numbers of particles, processes (powers of two with trees) and iterations, initial data and times, divisions, message orders, visit orders, sets of timed outputs with one interval", "why_tests_cant": "Whether an output time is hit depends on the whole history of steps, saved steps and limits; a test sees one history.", "anchors": ["include/physics/default_physics.h:set_adaptive_timestep", "include/physics/default_physics.h:advance_time", "include/physics/analysis.h:screen_output", "app/drivers/hydro/main_driver.cc:mpi_init_task", "app/drivers/newtonian/main_driver.cc:mpi_init_task"]}
{"id": "C104", "title": "Rayleigh-Taylor initial data as a whole in two dimensions", "statement": "The generator of Rayleigh-Taylor data ends and writes two layers on either side of the height 0: the rows of the bottom layer end one row distance below 0, those of the top layer begin at 0; each row has all lattice sites up to the right face; every particle is in the box and none coincide; every particle has the density of its layer, the mass of its lattice cell, the smoothing length of its cell and the pressure of the fluid column above it. With periodic boundaries, if the search finds a length, all rows of a layer close over the periodic length up to the tolerance. The velocity perturbation is confined to the stripe, bounded by twice the amplitude, never upwards, and periodic with the length of the box for an integral mode.", "quantifier": "all box sizes, resolutions, lattices, density ratios, tolerances and perturbations in the stated ranges", "why_tests_cant": "A row more or less, or a particle on the wrong side of the interface, depends on the sizes of the box relative to two incommensurable lattices; a test sees one box.", "anchors": ["app/id_generators/RT/main.cc:set_derived_params", "app/id_generators/RT/main.cc:main", "include/lattice.h:generator_lattice_2d", "include/lattice.h:in_domain_1d", "data/RT_2d.par"]}
{"id": "C105", "title": "Conservation laws with the time-dependent viscosity on several processes", "statement": "With either artificial viscosity, also the time-dependent one for which the result of a run depends on how the particles are divided among the processes, every run of the hydro driver that ends has the particles it began with and their masses; without external force it conserves total momentum and total angular momentum; in the thermokinetic formulation it conserves the total energy, starting from that of the initial data. This holds with a fixed and with an adaptive time step, on one or several processes, with the trees and messages of the program, and a run can always be carried out.", "quantifier": "all initial data with positive masses and smoothing lengths, parameters, numbers of particles, processes and iterations, divisions of the particles, neighbour lists which hold all neighbours, orders of visits, message orders, time steps", "why_tests_cant": "A process may read values of its neighbours which are out of date; that the forces of each pair are nevertheless opposite must hold for each of the unboundedly many orders of messages and visits.", "anchors": ["include/physics/default_physics.h:compute_acceleration", "include/physics/default_physics.h:compute_dedt", "include/physics/viscosity.h:compute_alpha", "include/bodies_system.h:reset_ghosts", "app/drivers/hydro/main_driver.cc:mpi_init_task"]}
{"id": "C106", "title": "Tools for files of snapshots", "statement": "Cutting a step out of an output file gives a file from which a run starts with the particles of that step (positions, velocities, masses, densities, smoothing lengths, pressures, energies, identifiers, types); the last step is found on request and a step that was not written is refused. Merging the files of separate iterations gives one file with all their steps in order. The printed trajectory of a particle has one line for each output, with the values of the particle with that identifier, wherever it is stored. A slice lists exactly the particles within the given distance of the line or plane, in the order of the arrays.", "quantifier": "all numbers of outputs and particles, all data, all orders of the particles in the arrays, all identifiers, both output modes", "why_tests_cant": "Files of any number of steps with any data and order of particles; a test covers a few files", "anchors": ["tools/extract_h5part_iteration.py", "tools/combine_H5part_iterations.py", "tools/extract_particle.py", "tools/h5part_ascii_slicer.py", "mpisph/io.h: outputDataHDF5, inputDataHDF5, H5P_setStep"]}
{"id": "C107", "title": "Initial data of binary systems", "statement": "From the files of two stars, or of one star and a point mass or a second identical star, the tool makes the initial data of a binary: all particles of both stars with their masses, densities, pressures and smoothing lengths, with identifiers 0, 1, 2, … and the star of each in `state`; the centre of mass of the whole is at the origin and has no momentum, the centres of the stars are at the given separation on the x axis, and all particles turn with the angular velocity of the circular orbit; distances within each star are those of its file, and the energies are the specific energies which the code reads.", "quantifier": "all stars (numbers of particles, positions, velocities, masses), all separations, both orientations of the second star", "why_tests_cant": "Files with any number of particles and any data; a test covers a few files", "anchors": ["tools/starID_tools/make_binary_system.py: main"]}
{"id": "C108", "title": "Initial data of neutron star binaries", "statement": "From the files of two stars and a separation, the tool makes the initial data of a binary on an orbit with post-newtonian corrections: all particles of both stars with their masses, energies and smoothing lengths in cgs units and one velocity each; the centre of mass at the origin, the centres of the stars at the given separation on the x axis, wherever the stars are in their files; distances within each star kept; all particles turn with one positive angular velocity and fall inwards with speeds that balance in momentum and follow the quadrupole formula.", "quantifier": "all stars (numbers of particles, positions, masses), all separations, all positive constants", "why_tests_cant": "Files with any number of particles and any masses; a test covers a few files, in practice with equal masses and numbers, for which the faults do not show", "anchors": ["tools/starID_tools/nsID_tov/binary.py: get_initial_data, center_star, get_offsets, separate, get_velocities, get_pn_velocity_angular, get_pn_rdot"]}
{"id": "C109", "title": "Initial data of a sphere of gas", "statement": "The generator of the sphere for tests of the conservation of momentum writes particles that are uniform in the volume of the unit sphere, which move along their radii with the given speed, with the total mass 1, the energies of the polytrope at the density of the sphere, and smoothing lengths for 200 neighbours.", "quantifier": "all numbers of particles, all random numbers within their ranges, all speeds", "why_tests_cant": "The particles are random: the claims hold for every outcome of the random numbers, and every point of the sphere must be possible", "anchors": ["tools/gen_uniform_sphere.py"]}
{"id": "C110", "title": "Initial data of neutron stars", "statement": "The equation of state of the generator of neutron stars and its inverse are inverse to each other and increasing, through the density at which the two polytropes meet. For every central density and radial step the profile of the star has positive pressures and densities that fall outwards, and a mass that grows outwards. The file gives each particle the radius that holds 50 particles as its smoothing length, and the energy for which its pressure is that of the profile.", "quantifier": "all positive constants, central densities and radial steps, all lengths of the grid, all places of the particles", "why_tests_cant": "The profile comes out of an integration with any number of steps that may run into negative pressures on the way; a test covers one star", "anchors": ["tools/starID_tools/nsID_tov/tov_solver_h5part.py: eos, inv_eos, tov, rk4, sol_tov, solve_for_h"]}
{"id": "C111", "title": "Profiles of white dwarfs", "statement": "In the solver of the structure of white dwarfs the pressure grows with the density, and pressure and energy obey the first law of thermodynamics. The search finds the density of every given pressure within twice its tolerance. The derivatives of pressure and mass are those of hydrostatic equilibrium, newtonian or after Tolman, Oppenheimer and Volkoff. The integration starts from the mass of the innermost shell at the central density. The printed slopes are those of the profile.", "quantifier": "all positive constants, densities, pressures, masses and radii", "why_tests_cant": "The search runs in each stage of each shell from the density of the one before; a test covers one star", "anchors": ["tools/starID_tools/wdID/WDtov_solver.py: eos, eos_e, bisection, tov, sol_tov, get_dfdr"]}
