# Formal model of FleCSPH: design

Source: `/repo` (C++), read as text. Model and proofs: `/verif/lean/Verif`.

## Layout

* `Verif/Model/*.lean`: definitions transcribing the C++ functions. Each cites file and lines.
* `Verif/Spec/*.lean`: small specifications written without the model's helpers.
* `Verif/Lemmas/*.lean`: helper lemmas.
* `Verif/Props/*.lean`: the property theorems (`C01_...`), each with an `example` meeting its hypotheses.
  `*_partial` marks a theorem that proves only part of the English statement.
  `*_violated` marks a proof that the code does NOT have the stated property (a concrete witness).

## Modelling conventions

* Machine integers: `Nat` with explicit `% 2^bits` where the C++ type can wrap.
* `double`: exact arithmetic (`ℚ`/`ℝ`/any linearly ordered field). Rounding is modelled only for the neighbour search,
  the Morton keys, the density, the equations of state, the hydrodynamic forces, self-gravity, the clock and the written totals (`Rounded`, C80, C82, C83, C84, C85, C90, C94, C95, C96; `std::pow`, `cbrt`, `asinh` are taken to be accurate to one rounding): every operation has a relative error of at most `u`. Overflow, underflow, NaN and infinities are not modelled.
  Division by zero, casting an out-of-range double to an integer, out-of-range reads and non-terminating
  loops are explicit outcomes (`Option`/`Except`), not totalised values, wherever the property depends on them.
* MPI: a collective is a function from the per-rank inputs to the per-rank outputs (its standard's semantics).
  Point-to-point exchange is modelled as a transition system where the property is about schedules.
* Hash tables of the standard library are finite maps.
* Threads: OpenMP loops in the code distribute independent iterations; modelled sequentially.

## Trusted base

* Lean 4.33 kernel. Axioms: `propext`, `Classical.choice`, `Quot.sound` only; `AXIOMS.md` lists the axioms of every theorem named in
  `MANIFEST.json` (the output of `#print axioms`). No axioms of our own, no `sorry`, no `native_decide`/`bv_decide`.
* Mathlib, as a library of proved theorems, for the definitions the statements use (reals, integrals, derivatives, finite sums and sets, lists).
* The correspondence between the C++ text and the definitions in `Verif/Model`, checked by reading only. Each definition cites file and lines.
* The statements in `Verif/Props` and the specifications in `Verif/Spec`.

## What is modelled

| source | model | left out |
|--------|-------|----------|
| `include/tree_topology/filling_curve.h` | `Key`, `Morton`, `Hilbert`: keys, both curves, decoding, ranges; words of any width | rounding of `double` coordinates but for Morton keys (`Rounded`); exact field with floor otherwise |
| `include/tree_topology/hashtable.h` | `HashTable` | iteration, memory layout |
| `include/tree_topology/tree_types.h` | `HCell` (bits of the type word), `Ghosts.Cell` and `ShareTable.Cell` (the same cell seen by the protocols) | entity data beyond what the tree reads |
| `include/tree_topology/tree_geometry.h` | `Geometry`, rounded in `Rounded` | rounding of the tests of gravity |
| `include/tree_topology/tree_topology.h` | `BuildTree` (`build_tree`), `Cofm` (`compute_cofm` with default_physics.h), `Traversal` (`find_in_radius`, `traversal_sph` on one process), `Fmm` (`traversal_fmm` on one process), `Share` and `ShareTable` (`share_nodes_`), `Startup` (build + share on all processes), `Ghosts` (requests, replies and both traversals on any number of processes), `SphRun` (the cells `traversal_sph` selects on each process, their groups of particles, the calls of the user's function) | OpenMP (tasks are run in some order); graph output; `exchange_boundaries_` is a function on all processes |
| `mpisph/psort.h`, `tree_colorer.h`, `utils.h`, `bodies_system.h` | `Psort`, `Qsort` (sample sort), `Exchange`, `Distribute`, `Update`, `RoundedUpdate` | dead code (`mpi_branches_exchange*`), timing output |
| `include/physics/boundary.h` | `Boundary` | |
| `include/physics/kernels.h` | `Kernels` | function pointer selection |
| `include/physics/default_physics.h`, `viscosity.h`, `integration.h`, `eos.h` | `Sph`, `Cullen`, `Integration`, `Eos`, `Timestep`, `RoundedClock` | NaN tests (`check_nans`) |
| `include/physics/eforce.h`, `density_profiles.h` | `EForce`, `DensityProfiles` | the airfoil's picture of units |
| `include/physics/fmm.h`, `node.h` | `Fmm`, `Cofm`, `DistGravity` (on several processes), `RoundedGravity` (with rounding), `Sequence` (several traversals of one tree) | |
| `include/tensor.h` | `Tensor`, `TensorTables` | expression printing |
| `include/lattice.h` | `Lattice` (1D-3D), `Icosahedral`, `RandomLattice` | the engine of the random numbers |
| `include/params.h` | `Params`, `ParamTables` (the parameter table is extracted from the file) | text to number conversion |
| `mpisph/io.h` | `Io`, `Restart` | the HDF5 library: a file is what was written to it |
| `include/physics/analysis.h` | `Conservation`, `Reductions`, parts of `Timestep` | formatting of numbers |
| `include/diagnostic.h` | `Reductions` | formatting; `min_dist`, `average_dist_in_h`, `N_ghosts` (never computed) |
| `include/physics/wvt.h`, `app/drivers/wvt` | `Wvt` (boundary operations, displacement, convergence, schedule), `WvtForces` (accelerations, displacement, smoothing lengths), `WvtRun` (whole runs) | `calculate_standard_deviation` (only printed), distribution over processes within a run |
| `app/drivers/hydro/main_driver.cc` | `Driver` (one process), `DistRun` (any number of processes, fixed time step), `AdaptRun` (the same with adaptive steps), `Program` (with the trees, 2^m processes), `AdaptProgram` (adaptive steps and trees) | |
| `app/drivers/newtonian/main_driver.cc` | `Newtonian` (2^m processes, fixed time step, `enable_fmm`), `Program` (with the trees), `AdaptNewton` (adaptive time step), `NewtonProgram` (adaptive steps and trees) | periodic boundaries; in `Newtonian` the processes of the particles in the SPH passes and the division used for gravity are chosen independently (more runs than the program has), `Program` ties them |
| `app/id_generators` | `IdGen` (fields of the particles), `KhGen` (Kelvin-Helmholtz data in two dimensions as a whole), `RtGen` (Rayleigh-Taylor data in two dimensions as a whole), `SodGen` (shock tubes in one dimension as a whole), `Lattice` | other velocity perturbations, file names and HDF5 calls |
| `include/log.h` | `Log` (streams, tags, messages, containers, packets, printing thread) | `log_timestamp` (its text is a parameter), `log_fatal`, `MPI_Gather` itself, messages written inside the text of a message, the unsynchronised access of both threads to the stream |
| `app/drivers/tree/main_driver.cc` | `TreeDriver` (2^m processes) | times printed, periodic boundaries |
| `tools` | `combine_H5part_iterations.py`, `extract_h5part_iteration.py`, `extract_particle.py`, `h5part_ascii_slicer.py` in `SnapshotTools`; `make_binary_system.py` in `BinaryTool`; `binary.py` in `PnBinary`; `gen_uniform_sphere.py` in `UniformSphere`; parts of `tov_solver_h5part.py` in `TovStar` and of `WDtov_solver.py` in `WdStar` | `nsID_gen.cpp` holds unresolved merge markers and does not compile; the others are not modelled |

## Plan per property

| id | model | proof |
|----|-------|-------|
| C01 | keys as `Nat` words, operations as in `filling_curve` | refinement to lists of digits |
| C02 | Morton encode/decode loops over a field with floor | digit interleaving is a bijection; cell arithmetic |
| C03 | same constructor with `depth` | counterexample for depth < max (`violated`), partial at max depth |
| C04 | `range()` loop | induction over the path |
| C05 | 2D Hilbert loops on grid coordinates | induction over the depth; decode is inverse; adjacency |
| C06 | 3D Hilbert loops | encode injective by induction; decode counterexample |
| C07 | 1D branch | counterexample (last bit dropped), partial: injective on cell pairs |
| C08 | cell word with bit fields | bit-level lemmas for every dimension, induction over update histories |
| C09 | vector of buckets | refinement to finite map, induction over histories |
| C10 | `build_tree` loops over a cell map, UB for equal keys | loop invariant to canonical cell set |
| C11 | `compute_cofm` folded over trees | structural induction |
| C12 | stack traversal with pruning | structural induction using C11 bounds |
| C13 | `traversal_sph` (cell selection, candidate traversal, final filter), on one process and on 2^m processes, and after other traversals of the same tree (`Sequence`) | soundness/completeness, composed with C17 and C18; counterexample for variable h |
| C14 | `traversal_fmm` stack of pairs | exact coverage by induction on a measure |
| C15 | `fmm.h` formulas over ℝ | algebra and derivatives |
| C16 | per-rank `build_tree` with bounds | same invariant with bounds; compare with C10 |
| C17 | hypercube exchange per stage | induction over dimensions for 2^k ranks; counterexample for 3 |
| C18 | request/reply transition system | invariants over all schedules |
| C19 | `Split::split` + local sort + alltoall | selection invariant; sortedness and permutation |
| C20 | bucket loop | partition lemma; counterexample for the maximal key |
| C21 | list-of-lists exchange with offsets | list lemmas |
| C22 | comparators | order axioms; counterexample for `<=` |
| C23 | predicates over a linear ordered field | equivalence with set-theoretic statement |
| C24-C26 | list model of boundary handling, all ranks | list lemmas; counterexamples for far particles and thin boxes |
| C27 | id generation | counterexample for N not divisible; partial when divisible |
| C28 | block offsets | prefix sums |
| C29 | character list parser with UB on negative index | parse/print round trip; UB witness |
| C30 | directory scan loop | counterexample; partial when present |
| C31-C33 | kernels over ℝ | calculus in Mathlib |
| C34-C37, C51 | sums over finite particle sets | antisymmetry, positivity; counterexample for divergence |
| C38 | EOS over ℝ with real powers | algebra |
| C39 | integrator over vector space | algebra |
| C40-C41 | time step state machine | invariants; counterexample |
| C42-C43 | potentials/profiles over ℝ | derivatives |
| C44 | binary search + Lagrange formula | loop invariant, field algebra |
| C45-C46 | tensor index functions; aliasing store | arithmetic; counterexample |
| C47-C48 | lattice loops | list lemmas, counterexample for fcc |
| C49 | line parser | string lemmas; counterexample for '#' in quotes |
| C50 | input stream with fail state | theorem that the check is vacuous |
| C52 | min/max folds and reductions | list lemmas |
| C53 | formulas over ℝ | algebra; counterexample (factor 2) |
| C54 | `max_depth()` after `build_tree` | counterexample for every tree on rank 0; partial |
| C55-C56 | a pass over the particles in some order | commutation of updates; antisymmetry |
| C57-C58 | relaxation terms, Cullen-Dehnen viscosity (C58run: whole runs of both drivers) | algebra, induction over histories and over the iterations of the runs |
| C59 | EOS over ℝ | derivatives |
| C60-C61 | hydro main loop, snapshot record | induction over iterations; bisimulation after a restart; counterexample |
| C62 | blocking sends and receives as a small-step system | progress invariant |
| C63-C64 | WVT rescaling, driver loop | volume of balls; induction over iterations |
| C65 | directory as a list of names | list lemmas; counterexample for prefixes with a directory |
| C66 | kernels over ℝ | case analysis against the published formulas |
| C67-C68 | main loop, smoothing lengths | induction over iterations; real powers |
| C69 | momentum under self-gravity | the calls for (A,B) mirror those for (B,A); sum over the field of C56; counterexample with equal radii |
| C70 | main loop on several processes: homes, stale copies, replies under way (`DistRun`) | the reads of each pass are of fields no pass since the last rebuild writes; simulation of two runs; counterexample for the adaptive viscosity |
| C71 | the sums of `analysis.h` on each process, the reductions, the line and its header (`Reductions`; spec `Totals`) | sums over a permutation; columns by cases of dimension and setting; constancy from C34/C35 on processes |
| C72 | statistics of `diagnostic.h` with its static variables over a run (`Reductions`) | folds of min/max over concatenations; induction over outputs; counterexamples |
| C73 | per-particle loops and total masses of the generators (`IdGen`; spec `InitialData`: Lebesgue measure of boxes and balls) | sums over lists; profiles by C43; counterexamples |
| C74 | blocks, classification, masses, stretching, pressures (`IdGen`; spec: determinants of lattice cells) | invariant of the lattice loops; determinants; derivatives |
| C75 | main loop with ghosts on several processes (`PeriodicRun`); spec `Torus`: the calls of the loop for particles acting through all images, no ghosts, no processes | radius up to which each field of the ghosts is right shrinks by one smoothing length per pass; sums over images are rearranged; the spec is deterministic up to periods; counterexamples |
| C76 | `gravitation_fmm` on 2^m processes: the machine of C18 with the data of the cells on each process, calls, coefficients, evaluation (`DistGravity`); spec `GravityAll` | the run with data simulates the run on the global tree; the pair of cells acting between two leaves is unique; field as a sum over leaves; the same lemmas give `C76_error_bound_partial` and `C69_distributed_partial` |
| C77 | `update_iteration` without periodic boundaries: range, assertion, keys, `psort`, `startup` (`Update`), then the traversals of C70/C76; spec `Iteration` | composition: the cell of a position decides its key, the range contains every particle, sorted and divided keys meet the hypotheses of `startup`; `C77_separate` gives a distance for which no two particles share a cell |
| C78 | main loop of the newtonian driver on several processes (`Newtonian`): calls before gravity, gravity by the tree of `Update` and the traversal of `DistGravity`, calls after gravity; spec `Newtonian` | gravity is a function of positions, masses and smoothing lengths (C77); simulation of two runs as for C70; leapfrog step from the calls, Newton's third law and the error bound summed over the iterations; energy: power of the pair terms cancels, derivative of the potential energy |
| C79 | the two drivers with the trees (`Program`): state = trees of all processes with the tables and the fetched data, and the particles; `update_iteration` of `Update`, `build_tree` of `Startup`, searches of `SphRun` and gravity of `DistGravity` on the tables as the last traversal left them | invariant `Good` (trees belong to the present positions, copies are right) kept by every call; simulation by the runs of C70 and C78; existence by C13, C77 and induction over the calls |
| C80 | the functions of `Geometry`, `Cofm`, `SphRun` and `Morton` again with every operation rounded (`Rounded`), the rest of C13 unchanged | multiplicative error bounds, an invariant of the summaries by induction over the tree with a loss per level, slack against it in each test; composed with C17 and C18 as in C13 |
| C81 | the changes of the extents for periodic boundaries (`IdGen.tubeLength`, `tubeWidth`, `layerLength`, `layerHeight`; spec: `FitsPeriod`) | floor inequalities; success of the search for rational ratios |
| C82 | kernels and `compute_density` with every operation rounded (`RoundedDensity`; spec `Density`: the exact sum) on the lists of C80 | relative errors counted as factors `1 - u`; kernels Lipschitz by their derivatives; neighbours missed near the edge of the support contribute little |
| C83 | the reductions of `analysis.h` with every operation rounded and `MPI_Allreduce` as addition in any order and with any brackets (`RoundedTotals`; spec `Sizes`: the sums of absolute values), `compute_cofm` rounded on the tree of C80 | errors as powers of `1 + u` relative to a size, closed under the operations; induction over the bracketing and over the tree |
| C84 | `compute_acceleration`, `compute_dudt`, `compute_dedt`, the gradients of all kernels, `mu` and both viscosities and the kicks with every operation rounded (`RoundedForces`); passes over all particles in any order as in C05; a run as an inductive sequence of passes and kicks | the computed gradient is odd and the pair factor symmetric if the rounding is odd, so pairs cancel exactly or up to the rounding of the product with the mass; the rest is the error of the sums (calculus of C83); induction over the run; round to nearest, ties to even is shown to be such a rounding |
| C85 | the rounded functions of C84 against the exact ones of `Sph`, polynomial kernels; sizes of the terms in `Spec/ForceSizes` | the calculus of C83 along every formula; the derivative of a profile is Lipschitz and its computed argument right up to 11 roundings, so the branches of the splines and the cut-off do no harm; `mu` is the minimum of a fraction and zero; contributions vanish linearly at the edge, which bounds missed and one-sided pairs |
| C86 | `Model/Log`: the state of a process, severities, forms of a message with both destructors, tags, containers | one statement computed on any state, induction over the statements; stack of guards against the stored tags; loops over containers |
| C87 | `Model/Log`: the stream with several outputs as an automaton over characters | automaton run over one code, induction over the pieces of a text and over the history of operations; for any text an invariant on what is withheld |
| C88 | `Model/Log`: packets, and a transition system for the gathering and the printing thread | induction over runs: printed messages are those of a beginning of the calls; bytes of the time by induction; the sort is any sorted permutation |
| C89 | `Model/TreeDriver`: the loop of the driver `tree` with its counters, on the trees and searches of `Model/Program` | induction over the iterations: lists of each search from the positions (C77), division unique, sums of lengths between the two counts |
| C90 | the functions of `Eos` and `Sph` up to the forces with every operation rounded (`RoundedEos`); the root of a negative number is `none`; the two passes (rounded and exact) on the same positions in any orders | the calculus of C82 and C85 with errors of the inputs: powers multiply the number of roundings by the exponent, sums of terms of one sign keep it; the piecewise polytrope is monotone and scales at most like its larger exponent, also across the threshold; exact sums `1 + y`, `y - 3` absorb small `y` in `double` |
| C91 | `wvt_acceleration_arth`, `wvt_acceleration_diehl`, `wvt_displacement`, `wvt_set_density` (`WvtForces`), specification `Spec.Relaxation` | the loop over neighbours is a sum of terms; a fallible pass equals simultaneous evaluation because forces read positions and smoothing lengths only; rotations commute with lengths, directions and images |
| C92 | the driver loop with the particles (`WvtRun`), neighbour searches left open, specification `Spec.RelaxRun` | invariant of an iteration: particles in the sphere, smoothing lengths bounded, hence accelerations bounded, hence displacements end in the sphere (C53); induction over the iterations, with the fuel bounded by the step size only |
| C93 | the generator KH in two dimensions, with the lattice loops of `Lattice` (`KhGen`), specification `Spec.KhLayers` | all candidates of the loops are inside of their blocks, so that a block is a table of sites; stretching maps tables to tables; the rest is read off the three tables |
| C94 | `gravitation_fmm` with every operation rounded (`RoundedGravity`), on the tree with rounded summaries (`Rounded.summarise`) and the machine of C18 | pairs: relative errors of the distance and its cube; sums: errors add up to the number of additions, at most one per other particle; the rounded criterion implies the exact one for a slightly larger angle since the rounded radius covers the particles up to a factor; then as C76 |
| C95 | `update_iteration` with every operation rounded (`RoundedUpdate`): range, assertion, keys, `psort`, trees with rounded summaries; then the searches of C80, the densities of C82 and the gravity of C94; spec `RoundedIteration` | the faces of the box of a particle stay on their side of its centre if the smoothing length exceeds one rounding; hence every particle is inside the range, and the keys exist (C80); sorted and divided keys meet the hypotheses of C80, C82, C94; leaves and particles correspond |
| C96 | `set_adaptive_timestep`, `advance_time`, `set_initial_time_iteration` with every operation rounded (`RoundedClock`); spec `RoundedClock`: formats, times of output | error bound per step and induction; the least step is kept up to a factor that the growth by two makes up for; with one timed output monotonicity of the rounding replaces error bounds; `double` keeps the order (proved from the definition of rounding to nearest, ties to even) |
| C97 | the main loop of the hydro driver on several processes with `adaptive_timestep` on (`AdaptRun`), over the calls and copies of `DistRun` and the clock of `Timestep` | `compute_dt` is split off each part of an iteration; the parts agree with the calls on one process up to signal speed and particle step, so the conservation theorems of C34, C35 apply with another step in each half; the least limit does not depend on the division; two visiting orders of the density pass give different steps (`C97_violated`) |
| C98 | the main loop of C97 with the trees of C79 (`AdaptProgram`): the calls of `AdaptRun` run by `Program.PExec`, the step taken over the particles as each process stores them | every iteration with trees is one of C97 (`C98_refines`, by the simulation of C79), so the laws of C97 hold; existence by the executions of C79 |
| C99 | the generator of shock tubes in one dimension (`SodGen`), with its allocation, specification `Spec.TubeCells` | each block takes the number of particles that its loop and its tolerance admit (`fill_eq`), so the file is three arithmetic progressions; the interval of a point is found by a floor |
| C100 | `generator_random_lattice` with an arbitrary sequence of draws (`RandomLattice`) | the k-th particle is the k-th accepted draw (`Nat.nth`), by induction on the particles; the measure of the accepted draws of a region is an iterated integral |
| C101 | the main loop of the newtonian driver with `enable_fmm` and `adaptive_timestep` (`AdaptNewton`) | an iteration is compared with one on one process, as for C97, around the call of gravity, as for C78; the results per iteration are summed over the steps that were set; the calls after gravity keep a sign invariant |
| C102 | the same driver with the trees of all processes, key sort, ghost messages and the calls of the multipole method (`NewtonProgram`) | every run that does not end in a clash of keys is one of C101: each list of calls is simulated as for C98, gravity as for C79; existence by induction over the iterations |
| C103 | the clocks of the runs of C97, C98, C101 and C102 with timed outputs (`Timestep`, `AdaptRun`, `AdaptProgram`, `AdaptNewton`, `NewtonProgram`) | an invariant of the clock (pending output, saved step) is kept by each call with positive limits; that the limits of the particles are positive in every iteration is an invariant of the run |
| C104 | `RtGen` (RT/main.cc in two dimensions, with the lattices of `Lattice` and the search of `IdGen.layerLength`) | what a block writes in general, with sites close to the upper faces left out; the number of rows of the bottom block; the classification by height gives every particle the layer it was generated in; rows of a fitting box by comparing with the tolerance |
| C105 | the calls of `DistRun`, `AdaptRun`, `Program`, `AdaptProgram`, with no assumption on the viscosity | what each call keeps, directly on several processes: before the passes of accelerations and energies the copies agree with the particles in all they read, so the forces of a pair are opposite; induction over calls and iterations; the trees by the simulation of C79, whose conditions do not depend on the viscosity |
| C106 | files as numbered groups of named arrays; the tools `combine_H5part_iterations.py`, `extract_h5part_iteration.py`, `extract_particle.py`, `h5part_ascii_slicer.py` and the reader of io.h on them | list lemmas, induction over the steps and files; counterexamples for every run (names of the data sets, lost attributes) |
| C107 | `BinaryTool` (tools/starID_tools/make_binary_system.py, all three branches) | the radius and angle of a particle give a rigid rotation (`Complex.arg` for `arctan2`); sums of affine functions over lists; the reading of unbound variables is an exception |
| C108 | `PnBinary` (nsID_tov/binary.py, with the rules of numpy for arrays of different lengths) | what is written for stars of the same number of particles in closed form; sums over lists; the sign of the corrected angular velocity by a discriminant |
| C109 | `UniformSphere` (gen_uniform_sphere.py, the random numbers as arguments) | trigonometric and power identities; every point of the ball is reached by giving the random numbers for it |
| C110 | `TovStar` (nsID_tov/tov_solver_h5part.py: equation of state, Runge–Kutta steps, loop and cut, `solve_for_h`) | inverse of powers by cases; signs of the four stages of a step; induction over the loop; properties of a sorted list |
| C111 | `WdStar` (wdID/WDtov_solver.py: pressure, energy, `bisection`, derivatives, first shell, `get_dfdr`) | derivatives of the two functions of the relativity parameter; induction over the rounds of the search, with the density sought between its ends |

Theorems about several processes are stated from the particle keys on (`startup`): `build_tree` on each process, `share_nodes_`, and then every schedule of
the traversals (`C17_tables_partial`, `C18_built_partial`, `C14_built_partial`, `C11_shared_partial`, `C13_distributed_partial`,
`C76_error_bound_partial`, `C69_distributed_partial`, `C76_independent_partial`). The theorems of C77 begin earlier, with positions and ids on each process.

## Where the code departs from its property

Each entry is proved (`*_violated`, or the hypotheses of a `*_partial` theorem are shown to be needed).

* C03 Morton keys asked for at a depth below the maximum still have the depth of the maximum.
* C06 decoding a 3D Hilbert key does not give back the cell (`unrotation3d` exists but is never called); consecutive cells need not touch.
* C07 1D Hilbert keys drop the lowest bit of the cell.
* C09 `size()` of a hash table is indeterminate until the first `clear()`.
* C10 two particles with the same key make `build_tree` run into undefined behaviour.
* C13 the neighbour test uses the mean of the smoothing lengths, the property the larger one.
* C14 an entity of positive radius facing a node of radius 0 would be split and the pair lost (`C14_sizes_needed`); entities have radius 0.
* C17 on a number of processes which is no power of two the last process of the lower half misses everything of the upper half; on three processes
  process 1 gets the bounds of process 2 without its nodes.
* C18 correctness needs that the node reply of a request is received before its entity reply (`C18_order_needed`); MPI gives that. With `_DEBUG_TREE_`
  the assertion in `recv_node_replies_` that a received cell is new fails for the requested cell itself.
* C19 `psort` needs `dist` equal to the local sizes and no empty process before a non-empty one; otherwise it reads past the end or aborts.
* C20 a particle with the largest key makes the bucket loop read past the splitters; all keys smallest fails an assertion.
* C21 byte counts are `int`: blocks of 2^32 bytes are lost. (A second overload of the point-to-point exchange waits on an uninitialised request.)
* C22 `entity::operator<` is `<=`. C23 tolerances, lower faces and negative radii differ from the set meaning.
* C24 wrapping adds the box length only once; in 1D/2D setting up the box writes outside of the corner points. C25 boxes shorter than two halos miss
  images. C26 a process with only ghosts stops the run. C27 ids are right only if the number of processes divides the number of particles; the ghost
  generation accepts only ids from 0.
* C29 steps from 100000 on are rejected when read, prefixes containing the extension accept foreign names, short names are read out of bounds.
  C30 a missing iteration silently yields the snapshot listed last; a single file is searched up to step 1000000 only. C65 removal acts on the working
  directory.
* C31 the Gaussian is positive at r = h, the super-Gaussian is negative, sinc jumps. C32 no derivative of the Gaussian at r = h, wrong series coefficient in the
  gradient of sinc. C33 the quintic spline in 3D integrates to 360/359. C36 with the super-Gaussian the density can be negative.
* C37 viscous heating uses velocities of another time than the viscosity: cooling is possible. C57 drag acts on the internal energy in the `dudt` form.
* C38/C59 the white dwarf EOS is 0/0 at density 0 and its sound speed is not the derivative of its pressure.
* C40/C41 with growing limits and timed screen output the time step becomes negative; outputs of the initial time are lost; fixed-step runs write in every
  iteration; output times can be jumped over. With screen output every 6.1 and scalar output every 1 a run whose particles always allow steps of 1/2 makes a step of 1.1, jumps over an output time and then
  goes back in time (`C41_several_violated`, `C40_several_violated`): the screen block replaces the end of the step without regard to the other outputs. C61 restarts continue the run only without viscosity and with fixed lengths and steps.
* C42 the airfoil potential jumps at the trailing edge; the support force of the parabolic profile is zero near the centre. C43 the mesa profile is cut before its mass ends.
  C44 below its range the table interpolation reads out of bounds, above it extrapolates.
* C45 named components of generic non-cubic tensors are out of bounds. C46 `a += a` does nothing.
* C47 the fifth layer of an fcc lattice lies right above the fourth; hcp can leave the box through the lower faces; the circle of the domain test is shifted. C48 shell counts
  overflow `int` from 600 shells on.
* C49 `#` in quotes, strings of 511 characters, CRLF; two parameters cannot be set. C50 the header makes the check always succeed, momentum tests compare
  addresses.
* C69 cells of equal radius which are too close are split one-sidedly (`traversal_fmm` splits the second one for both orders), so the forces between them do
  not cancel; on lattices equal radii are common.
* C70 with the adaptive viscosity the result depends on the number of processes: `compute_alpha` runs right after the density pass without `reset_ghosts`
  and reads old sound speeds and divergences of particles of other processes.
* C71 in one and two dimensions, with self-gravity and without evolution of the internal energy, the column `internal_energy` holds the gravitational energy.
* C72 the greatest number of neighbours is never reset, so it is the greatest of all outputs so far; speeds are not reduced over processes and are never
  reported as 0; a process without particles reads the first element of an empty vector. (Neighbour numbers are set only by the WVT relaxation; in other runs
  uninitialised memory is reported.)
* C73 the blast energy is lost without notice if no particle lies inside of the blast radius, and with modified data is divided by the mass of other particles; in
  1D the domain `[-R, R]` gets the mass of the box; circles with a profile get the mass of a constant density; perturbed Noh particles have another speed; the
  implosion energy is right only for radius 1; the wind tunnel writes another number of particles than it has generated (reading out of bounds) and has the
  density as total mass.
* C74 shock tubes without `equal_mass` have the density as mass of each block, whatever its volume.
* C81 a domain narrower than two periods is not adjusted at all, although the program reports that it was (`C81_narrow_violated`); the new height of the two layers (RT, three dimensions, periodic z) is computed from the length: a box of length 10 and height 1 gets a height of at least 7 (`C81_height_violated`).
* C104 the time step suggested by the Rayleigh-Taylor generator uses pressures which are never set: with the default flow velocity 0, also of data/RT_2d.par, it is a division by zero, otherwise it ignores the speed of sound (`C104_timestep_violated`); with periodic boundaries and equal densities the box fits already and gets one separation shorter nevertheless, since the search begins one separation too early (`C104_length_violated`). The assertion that the domain is a box (RT/main.cc:242) comes before the parameters are read (249) and tests the default only (not modelled).
* C90 in `double` the sound speed of a white dwarf is NaN wherever density times electron fraction is below `1e-20`, although it is positive: `numer` cancels to a negative number (`C90_wd_violated`). The sound speed of the piecewise polytrope jumps at the threshold: however small the error of the density, it can change the sound speed by a factor of two (`C90_ppt_violated`).
* C91 a particle is in its own neighbour list, so that near a reflective edge its own image pushes twice (`C91_twice_violated`); on the line images are always on the right, so that a particle near the left end is not pushed back (`C91_line_violated`); with the method of Diehl et al. particles of different smoothing lengths do not push each other equally (`C91_balance_violated`); a frozen particle at the centre gets NaN (`C91_frozen_violated`), and other frozen particles twice the tangential part.
* C92 `wvt_set_density` divides by the density of the profile without the test for zero which `wvt_displacement` has: a particle on the edge of a parabolic sphere gets an infinite smoothing length in the final output (`C92_edge_violated`). It ignores `wvt_h_ngb`: the final smoothing lengths do not hold the wanted number of neighbours (`C92_neighbours_violated`).
* C93 the outer layers have one row more than fits: with equal densities the box carries the mass of one row too much (`C93_mass_violated`). The perturbed strips are fixed at heights of 0.225 to 0.25: with the default width of 1 they miss the interface (`C93_interface_violated`), below 0.45 there is no perturbation (`C93_narrow_violated`).
* C99 without periodic boundaries the outer parts get one particle too many: the tube of `data/sodtube_t1_n100.par` has the outer mass 10/33 instead of 1/4 (`C99_open_violated`). With periodic boundaries and fewer particles in the middle than the ratio of the densities (for test 1: `lattice_nx` up to 24) the outer parts are lost and the tube is only its middle (`C99_lost_violated`). With equal separations the masses do not depend on the length, so in a box of length `3 * sph_eta * kernel_width` or more no particle has a neighbour (`C99_support_violated`).
* C100 the random positions are drawn around the origin and only as far as the box reaches in `x`: for a box away from the origin the generator never ends (`C100_offset_violated`), in a box longer in `y` or `z` the ends stay empty (`C100_tall_violated`).
* C75 the halo of 2.5 smoothing lengths is enough for two passes after the ghosts are made. The energy equation of every iteration but the first is a third one: the
  work done on particles near the boundary is computed with wrong velocities of ghosts. Uniform smoothing lengths are means over particles and ghosts.
* C86 warnings for one rank also write a colour code on all others; errors for one rank are printed by all and leave the error stream in colour; without
  `log_init`, which no program calls, the printed rank is always 0 and `logm` prints nothing; guards with unregistered tags are printed; `log_container` omits
  the entries unless they are separated by new lines. C87 a stray escape character makes the next code stay in plain outputs; switching an unknown output
  dereferences a null pointer. C88 `strncpy` cuts the time at its first zero byte, so messages of every 256th second overtake others; messages of 1024
  characters overflow the packet; the last messages can be lost.
* C97: the adaptive step depends on the order in which the density pass visits the particles, as the signal speed reads sound speeds which the same pass writes: two runs of one iteration from the same particles end
  with steps that differ by a factor of three (`C97_violated`).
* C96: a fixed step below half of the last digit of the time is lost and a run with a final time never ends (`C96_stuck_violated`). In an adaptive run without timed outputs one lost step sets the step to zero, and as
  it only ever grows by doubling it stays zero whatever the limits of the particles are later: the clock stands still for ever (`C96_frozen`, `C96_frozen_violated`).
* C95: particles so far from the origin that their smoothing length is lost in the rounding, all with the same coordinate along an axis (say, a sheet): the range has no width there and the keys divide by zero
  (`C95_unresolved_violated`).
* C106: the tool that merges the files of separate iterations asks for `density` and `mass`, the code writes `rho` and `m`, and it looks for `Step#0` in every file, which only the first has: no output of the code can be
  merged (`C106_merge_violated`). A step cut out of a file has no attributes, a run cannot be continued from it (`C106_restart_violated`). See also `C106_separate_violated`, `C106_first_violated`, `C106_cut_violated`.
* C107: two identical stars from one file, the example of the help text of make_binary_system.py, always end in an exception, as the script reads arrays of a second file (`C107_identical_violated`); so do two files of which the first
  has no types (`C107_type_violated`). The energies written are multiplied by the masses (`C107_energy_violated`), and `state` has the wrong length with a point mass (`C107_state_violated`).
* C108: binary.py places the stars by the masses of single particles instead of those of the stars: stars of different numbers of particles end in an exception (`C108_count_violated`), stars with particles of different masses are torn
  (`C108_masses_violated`). The data set `vz` has two values, whatever the number of particles (`C108_vz_violated`).
* C109: gen_uniform_sphere.py writes the x coordinate for all three, and the same for velocities: the sphere is a line (`C109_line_violated`, `C109_momentum_violated`). Its volume is 1 instead of its radius (`C109_size_violated`).
* C110: tov_solver_h5part.py writes smoothing lengths divided by the radii of the particles (`C110_smoothing_violated`) and energies that are all zero (`C110_energy_violated`).
* C111: WDtov_solver.py leaves the central density out of the mass of the first shell (`C111_centre_violated`), has the wrong sign in the last factor of the equation of Tolman, Oppenheimer and Volkoff (`C111_tov_violated`), does not find
  densities below a tenth of that of the shell before (`C111_drop_violated`), ends in an exception for small densities (`C111_small_violated`), and gives twice the slope in the first shell (`C111_slope_violated`).
* C51, C55 (signal speed depends on the visiting order), C52 (a process without particles), C53 (sign in 1D, 0/0 at the origin, factor 2), C54, C58 (0/0 for
  an isolated particle).

Tests against wrong programs: `seeded/LOG.jsonl` (edited definition, edit, claim, theorems which failed, theorems tightened after a survivor).

