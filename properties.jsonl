{"id": "C01", "title": "Lattice coordinates and site numbers are in bijection", "statement": "Numbering the sites of the global lattice loses nothing and invents nothing: every coordinate (x,y,z,t) inside the lattice gets a site number in [0,V), different coordinates get different numbers, every number in [0,V) is used, and the coordinate queries return the coordinate the number was made from.", "quantifier": "all lattice extents glob_x, glob_y, glob_z, glob_t >= 1 and all sites", "why_tests_cant": "Tests fix a handful of lattice sizes; a wrong stride is invisible on hyper-cubic lattices and only collides for particular unequal extents.", "anchors": ["source/MPILattice/LocalLayout.h: getGlobalCoordinate, globalIndexX/Y/Z/T, initialize", "source/MPILattice/MPILayout.h: getGlobalCoordinate, globalIndexX/Y/Z/T"]}
{"id": "C02", "title": "Neighbour tables are the translations of a torus", "statement": "Stepping up and then down in any direction returns to the starting site, stepping in different directions commutes, each step is a permutation of the sites that changes exactly one coordinate by one modulo the extent of that direction.", "quantifier": "all lattice extents >= 1, all sites, all pairs of directions", "why_tests_cant": "Wrap-around defects appear only at boundary sites and only for some extents (1, 2, unequal); tests compare few lattices.", "anchors": ["source/MPILattice/LocalLayout.h: sup, down, modulus, initialize", "source/MPILattice/MPILayout.h: sup, down, modulus"]}
{"id": "C03", "title": "The processor grid partitions the lattice evenly or the run stops", "statement": "If start-up succeeds then every site belongs to exactly one rank of the communicator, every rank owns the same number of sites, the sites owned by a rank form one rectangular block; if the grid does not divide the lattice or does not match the number of processes, start-up terminates and no layout is used.", "quantifier": "all lattice extents, all processor grids, all communicator sizes", "why_tests_cant": "The number of (lattice, grid) pairs is unbounded and a real run needs that many MPI processes.", "anchors": ["source/MPILattice/MPILayout.h: initialize, rankTable"]}
{"id": "C04", "title": "On every rank, storage slots and visible sites correspond one to one", "statement": "For each rank the map from visible sites to storage slots is injective and covers exactly [0,completesize); the first localsize slots are exactly the owned sites, and of these the first sharedsize are exactly those some other rank reads; all other slots are halo copies of sites owned elsewhere.", "quantifier": "all lattices, all processor grids, all stencils, all ranks", "why_tests_cant": "Slot assignments depend on the whole set of ranks; collisions happen for particular grid shapes (e.g. extent two or one rank in a direction) no test run enumerates.", "anchors": ["source/MPILattice/MPILayout.h: initialize, localIndex, latticeChunks, localsize, sharedsize, completesize"]}
{"id": "C05", "title": "A halo update makes every rank agree with the owner", "statement": "After updateHalo every slot of every rank that holds a copy of a site owned elsewhere contains the owner's value, owned values are unchanged, a second update changes nothing, and the result does not depend on the order in which messages arrive.", "quantifier": "all lattices, grids, stencils, field contents (including arbitrary stale halo contents) and message delivery orders", "why_tests_cant": "Message order and stale contents are nondeterministic; tests see one schedule.", "anchors": ["source/MPILattice/Lattice.h: updateHalo, communicateHalo, waitHalo", "source/MPILattice/MPILayout.h: latticeChunks, tags"]}
{"id": "C06", "title": "A distributed nearest-neighbour computation equals the serial one", "statement": "For any site-local rule that reads a site and the neighbours covered by the stencil of its fields, running the rule on every rank over its owned sites, each followed by a halo update, any number of times, leaves on every rank exactly the values the single-process program computes for those sites.", "quantifier": "all lattices, processor grids, stencils, rules within the stencil, numbers of iterations, initial fields", "why_tests_cant": "It quantifies over programs, grids and iteration counts; test runs sample one grid and compare a few printed numbers.", "anchors": ["source/MPILattice/Lattice.h", "source/MPILattice/MPILayout.h", "source/MPILattice/StandardStencil.h", "source/MPILattice/ExtendedStencil.h", "source/MPILattice/ReducedStencil.h"]}
{"id": "C07", "title": "Every neighbour a field's stencil promises is really available", "statement": "For an owned site, every single step up or down leads to a slot held by the rank (never to the 'absent' marker), and every two-step path an action or operator follows on fields of that stencil leads to a held slot.", "quantifier": "all lattices, grids, owned sites, all stencils and all step pairs used by the code", "why_tests_cant": "An absent slot is -1, and reading it is silent memory corruption that shows only for thin local blocks.", "anchors": ["source/MPILattice/*Stencil.h", "source/MPILattice/MPILayout.h: sup, down", "source/actions/ImprovedGaugeAction.cpp: staple"]}
{"id": "C08", "title": "Sums over the lattice do not depend on threads or ranks", "statement": "The global sums used for energies, norms and observables give (in exact arithmetic) the sum over all lattice sites, each exactly once, whatever the number of ranks, the number of threads and the assignment of sites to threads.", "quantifier": "all lattices, grids, thread counts, thread-to-site assignments and summands", "why_tests_cant": "Schedules and thread counts are unbounded; double counting of halo sites appears only for some grids.", "anchors": ["source/utils/MultiThreadSummator.h", "source/MPILattice/MPILayout.h", "source/algebra_utils/AlgebraUtils.h: squaredNorm, dot", "source/MPILattice/ReduceAllSum (reduceAllSum)"]}
{"id": "C09", "title": "A sweep runs exactly when and as often as it was asked to", "statement": "A sweep declared with (name, period, times) is executed exactly 'times' times at each call whose sweep number is a multiple of the period and not otherwise, so after n calls starting at zero it has run times*ceil(n/period) times; sweeps of a list run in list order, and warm-up sweeps all precede measurement sweeps.", "quantifier": "all lists of sweeps, periods >= 1, repetitions, numbers of warm-up and measurement iterations", "why_tests_cant": "Run lengths and schedules are unbounded; off-by-one errors show at one iteration in a long run.", "anchors": ["source/LatticeSweep.cpp: call, getInstance", "source/Simulation.cpp: warmUp, measurement"]}
{"id": "C10", "title": "The sweep list syntax is read back faithfully or rejected", "statement": "A declaration '{name,period,times}' is read as exactly that name, period and repetition; a declaration with another number of fields terminates the program.", "quantifier": "all names without separators, all numbers, all malformed strings", "why_tests_cant": "Strings are unbounded.", "anchors": ["source/LatticeSweep.cpp: getInstance", "source/Simulation.cpp", "source/program_options/Option.h"]}
{"id": "C11", "title": "Configuration lines are read as written or rejected", "statement": "A configuration line 'name = value' over the allowed characters yields exactly the option name and value given; comments and blank lines yield nothing; a line with more than two words terminates the program; reading does not depend on how many blanks separate the words.", "quantifier": "all strings", "why_tests_cant": "Strings are unbounded; corner cases (indented comments, trailing comments, empty values) are where readers go wrong.", "anchors": ["source/main.cpp: parse_parameter, clean_line"]}
{"id": "C12", "title": "List-valued options are read back exactly", "statement": "A list written with braces and commas, including lists of bracketed pairs, is read as exactly the list of its elements in order, for every length.", "quantifier": "all lists of numbers or pairs, all lengths", "why_tests_cant": "The scanner is a hand-written state machine over characters; tests use two or three literals.", "anchors": ["source/program_options/Option.h", "source/utils/FromString.h", "source/utils/ToString.h"]}
{"id": "C13", "title": "Measurement output is always well formed", "statement": "For any sequence of open, write and close calls that is properly nested, the text printed for an observable is a balanced nested list whose structure and entries are the ones written, in order; closing something never opened terminates the program; every updater that records history opens and closes equally often on every path.", "quantifier": "all nestings, all numbers of entries and iterations", "why_tests_cant": "Histories are unbounded; one unbalanced path corrupts every later record.", "anchors": ["source/io/GlobalOutput.h: push, pop, write, print", "source/hmc_updaters/MultiStepNFlavorUpdater.cpp: execute", "source/hmc_updaters/PureGaugeHMCUpdater.cpp"]}
{"id": "C14", "title": "A crash never loses measurements already printed", "statement": "Whatever instant the program is stopped at while printing, the measurement files contain every record of every earlier completed print.", "quantifier": "all histories of prints, all crash points between file operations, both output formats", "why_tests_cant": "Crash points cannot be enumerated by unit tests.", "anchors": ["source/io/GlobalOutput.h: print"]}
{"id": "C15", "title": "Saved configurations are read back identically on any processor grid", "statement": "A configuration written by any number of ranks is read by any other number of ranks (same lattice) as exactly the same link for every site and direction, every link being restored exactly once.", "quantifier": "all lattices, all pairs of processor grids, all link values", "why_tests_cant": "Pairs of grids are unbounded and need that many processes.", "anchors": ["source/io/OutputSweep.cpp: leonard_format", "source/starters/ReadStartGaugeConfiguration.cpp: leonard_format"]}
{"id": "C16", "title": "A damaged or missing configuration file is never accepted silently", "statement": "If a configuration file is truncated, missing or belongs to another lattice, the reader reports failure on every rank and the run does not continue with unread links.", "quantifier": "all files, all truncation points, all ranks", "why_tests_cant": "All truncation points and all ranks cannot be sampled.", "anchors": ["source/starters/ReadStartGaugeConfiguration.cpp: readConfiguration, execute"]}
{"id": "C17", "title": "Configuration sequences are read in order without skipping readable ones", "statement": "Reading a numbered sequence starts at the given number, advances by the given step, returns each readable configuration exactly once in increasing order, skips only unreadable ones and stops after a fixed number of consecutive failures.", "quantifier": "all patterns of readable and unreadable files, all start numbers and steps", "why_tests_cant": "Failure patterns are unbounded.", "anchors": ["source/io/ReadGaugeConfiguration.cpp: execute"]}
{"id": "C18", "title": "Compact SU(2)/SU(3) storage restores the matrix", "statement": "The compact file format stores part of each link; what the reader reconstructs equals the stored link for every SU(2) link, and for every SU(3) link.", "quantifier": "all SU(2) and SU(3) matrices (exact arithmetic)", "why_tests_cant": "The group is continuous.", "anchors": ["source/io/OutputSweep.cpp: muenster_format", "source/starters/ReadStartGaugeConfiguration.cpp: muenster_format"]}
{"id": "C19", "title": "Observables and actions do not depend on the gauge", "statement": "The plaquette, the Wilson and improved gauge energies, Wilson loops and Polyakov loops have the same value on a configuration and on any gauge transform of it.", "quantifier": "all lattices, all numbers of colours, all configurations, all gauge transformations, all loop sizes", "why_tests_cant": "Random gauge transformations test a measure-zero sample in floating point.", "anchors": ["source/wilson_loops/Plaquette.cpp", "source/wilson_loops/WilsonLoop.cpp", "source/polyakov_loops/PolyakovLoop.cpp", "source/actions/WilsonGaugeAction.cpp: energy", "source/actions/ImprovedGaugeAction.cpp: energy", "source/utils/RandomGaugeTransformation.cpp"]}
{"id": "C20", "title": "The local action difference is the change of the total energy", "statement": "Replacing one link changes the total gauge energy by exactly the amount the local formula (through the staple of that link) reports.", "quantifier": "all lattices with extents >= 2 (Wilson) or >= 3 (improved), all colours, all configurations, all links and replacement values, all couplings", "why_tests_cant": "Continuous matrices and all sites incl. the periodic boundary.", "anchors": ["source/actions/WilsonGaugeAction.cpp: staple, deltaAction, energy", "source/actions/ImprovedGaugeAction.cpp: staple, deltaAction, energy"]}
{"id": "C21", "title": "The gauge force is the derivative of the gauge energy", "statement": "The force returned for a link is anti-Hermitian and traceless, and along every Lie-algebra direction it equals the derivative of the gauge energy under moving that link in that direction, with the normalisation the momenta's kinetic energy requires.", "quantifier": "all lattices, colours, configurations, links, directions, couplings", "why_tests_cant": "Numerical derivatives check finitely many directions to finite precision.", "anchors": ["source/actions/WilsonGaugeAction.cpp: force", "source/actions/ImprovedGaugeAction.cpp: force", "source/hmc_updaters/HMCUpdater.cpp: momentaEnergy"]}
{"id": "C22", "title": "Parallel link updates of one colour are independent", "statement": "Updating all links of one colour class in parallel gives the same configuration as updating them one after another in any order, because no updated link enters the staple of another link of its class.", "quantifier": "all lattices, all update rules that read only the link and its staple, all orders", "why_tests_cant": "Thread schedules are unbounded; races show only on particular extents.", "anchors": ["source/pure_gauge/Checkerboard.cpp", "source/pure_gauge/PureGaugeUpdater.cpp", "source/pure_gauge/PureGaugeOverrelaxation.cpp"]}
{"id": "C23", "title": "Link updates stay in the gauge group", "statement": "Heat-bath, overrelaxation, starting configurations and molecular-dynamics steps map special unitary links to special unitary links.", "quantifier": "all numbers of colours, all group elements, all random numbers (outside exact zero-norm events)", "why_tests_cant": "Drift out of the group shows after long runs; the group is continuous.", "anchors": ["source/pure_gauge/PureGaugeUpdater.cpp", "source/pure_gauge/PureGaugeOverrelaxation.cpp", "source/starters/StartGaugeConfiguration.cpp", "source/hmc_integrators/Integrate.cpp"]}
{"id": "C24", "title": "Overrelaxation changes no energy", "statement": "An overrelaxation step leaves the total gauge energy exactly unchanged and applying it twice to the same SU(2) subgroup restores the link.", "quantifier": "all configurations, links, subgroups", "why_tests_cant": "Continuous; needs exact arithmetic.", "anchors": ["source/pure_gauge/PureGaugeOverrelaxation.cpp: updateLink"]}
{"id": "C25", "title": "Reunitarisation returns the nearest-by-construction group element and fixes group elements", "statement": "Reunitarisation leaves special unitary links unchanged and returns a special unitary matrix for every non-degenerate input.", "quantifier": "all numbers of colours, all invertible matrices", "why_tests_cant": "Continuous domain; inputs in tests are already almost unitary, which hides normalisation defects.", "anchors": ["source/utils/ReUnit.cpp"]}
{"id": "C26", "title": "The matrix exponential used for link updates is the exponential", "statement": "The closed formulas used to exponentiate Lie-algebra elements give the true matrix exponential (hence a group element), including at and near zero.", "quantifier": "all anti-Hermitian traceless matrices", "why_tests_cant": "Continuous domain with a removable singularity at zero.", "anchors": ["source/utils/ExpMap.h: exp"]}
{"id": "C27", "title": "Stout smearing is gauge covariant and stays in the group", "statement": "Smearing a gauge transformed configuration equals gauge transforming the smeared one, and smeared links are special unitary, for any number of levels and weight. Smearing in space leaves the time links as they are, and the smeared space links of a time slice depend only on the space links of that slice.", "quantifier": "all lattices, colours, configurations, gauge transformations, levels, weights", "why_tests_cant": "Continuous; all levels.", "anchors": ["source/utils/StoutSmearing.cpp: smearing, spatialSmearing, smearLink"]}
{"id": "C28", "title": "The Wilson flow is gauge covariant, stays in the group and is third order", "statement": "Integrating the flow commutes with gauge transformations, keeps links special unitary for every number of steps, and the result with n steps differs from the exact solution of the flow equation by at most C/n^3. The action never increases along the exact flow.", "quantifier": "all lattices, configurations, gauge transformations, step sizes and numbers of steps", "why_tests_cant": "Continuous; order is a limit statement.", "anchors": ["source/wilson_flow/WilsonFlow.cpp: integrate, execute"]}
{"id": "C29", "title": "Conversion to the adjoint representation is a real orthogonal representation", "statement": "The adjoint link of a product is the product of adjoint links, of the inverse is the transpose, the matrix is real orthogonal and the special-case formulas for two and three colours agree with the general one.", "quantifier": "all special unitary matrices for every number of colours", "why_tests_cant": "Continuous group, all N.", "anchors": ["source/utils/ConvertLattice.h: toAdjoint"]}
{"id": "C30", "title": "Lie algebra generators form an orthonormal basis for every number of colours", "statement": "The generator list has N^2-1 Hermitian traceless matrices with tr(T_a T_b)=delta_ab/2, and every traceless Hermitian matrix is a combination of them.", "quantifier": "all N >= 2, all pairs of generators", "why_tests_cant": "N is a compile-time parameter; tests build one N.", "anchors": ["source/utils/LieGenerators.h"]}
{"id": "C31", "title": "Fermion boundary conditions touch exactly the intended links", "statement": "Antiperiodic boundary conditions negate exactly the time links of the last time slice (or the space links of the last space slice, or all four), applying them twice restores the field, open boundary conditions zero exactly the links leaving the last slice, and rebuilding the fermion links from the gauge links is idempotent.", "quantifier": "all lattices, sites, directions, fields", "why_tests_cant": "All boundary sites on all lattice shapes and grids.", "anchors": ["source/LatticeBoundaryConditions.h", "source/Environment.cpp: synchronize, setFermionBc"]}
{"id": "C32", "title": "The Dirac matrix tables satisfy the Clifford algebra", "statement": "The tabulated gamma matrices anticommute to twice the metric, are Hermitian, gamma5 is their product up to sign and all derived tables (gamma5(1+-gamma), sigma, the sixteen-element basis) equal what the definitions give and the basis is linearly independent.", "quantifier": "all pairs of indices and all table entries", "why_tests_cant": "Tables are finite but their consistency with the unrolled kernels is an identity over all spinors.", "anchors": ["source/utils/Gamma.cpp"]}
{"id": "C33", "title": "The unrolled Wilson-Dirac kernels compute the Wilson-Dirac operator", "statement": "For every spinor field the optimised kernel, the basic kernel and the textbook formula with the tabulated gamma matrices agree; the multiply-and-add form equals the multiplication plus the scaled second vector for every operator class.", "quantifier": "all lattices, all colour dimensions, gauge fields, spinors, hopping parameters, both gamma5 settings", "why_tests_cant": "Hand-unrolled complex arithmetic: tests compare random vectors in one build configuration.", "anchors": ["source/dirac_operators/DiracWilsonOperator.cpp", "source/dirac_operators/BasicDiracWilsonOperator.cpp", "source/dirac_operators/SquareTwistedDiracOperator.cpp", "source/dirac_operators/TwistedDiracOperator.cpp"]}
{"id": "C34", "title": "The gamma5-version of the Dirac operator is Hermitian and gauge covariant", "statement": "With gamma5 included the operator is Hermitian for the lattice inner product on unitary gauge fields, without it gamma5 D gamma5 is the adjoint of D, and transforming links and spinor transforms the result.", "quantifier": "all lattices, gauge fields, spinors, kappa, boundary conditions of the supported kinds", "why_tests_cant": "Continuous, all lattices incl. extents 1 and 2.", "anchors": ["source/dirac_operators/DiracWilsonOperator.cpp", "source/dirac_operators/SquareDiracWilsonOperator.cpp"]}
{"id": "C35", "title": "Even-odd preconditioning solves the original system", "statement": "The even-odd reduced operator is the Schur complement of the full operator and a solution of the reduced system reconstructed on even sites solves the full system; the even/odd decomposition is consistent with the periodic lattice.", "quantifier": "all lattices, gauge fields, sources", "why_tests_cant": "Depends on parity of the extents and on in-place updates.", "anchors": ["source/dirac_operators/EvenOddImprovedDiracWilsonOperator.cpp", "source/inverters/PreconditionedBiCGStab.cpp"]}
{"id": "C36", "title": "A solver that reports success returns a solution to the requested precision", "statement": "Whenever a linear solver returns true, the true residual of the returned vector is below the requested precision; and a solver started at the exact solution succeeds.", "quantifier": "all linear operators, sources, initial guesses, precisions, step limits, all solver classes", "why_tests_cant": "Every operator and every break-down path (zero denominators, early exact convergence) is out of reach of sampling.", "anchors": ["source/inverters/ConjugateGradient.cpp", "source/inverters/BiConjugateGradient.cpp", "source/inverters/GMRESR.cpp", "source/multigrid/MultiGridConjugateGradient.cpp", "source/multigrid/MultiGridBiConjugateGradient.cpp", "source/multigrid/MultiGridSolver.cpp"]}
{"id": "C37", "title": "A multi-shift solve solves every shifted system", "statement": "On success each returned vector solves its own shifted system to the requested precision, for every number and order of shifts.", "quantifier": "all Hermitian positive operators, sources, shift lists, step limits", "why_tests_cant": "Shift lists are unbounded and the residuals of the non-base shifts are never computed by the code.", "anchors": ["source/inverters/MMMRMultishiftSolver.cpp", "source/inverters/MEMultishiftSolver.cpp"]}
{"id": "C38", "title": "Solver settings take effect on the next solve and do not change by solving", "statement": "Setting precision, step limit or subspace dimension affects the next solve, and solving does not alter the settings for later solves.", "quantifier": "all sequences of settings and solves", "why_tests_cant": "Histories are unbounded; tests call once on a fresh object.", "anchors": ["source/inverters/PreconditionedBiCGStab.cpp: solve", "source/multigrid/MultiGridSolver.cpp: solve", "source/inverters/GMRESR.cpp: setConjugateSpaceDimension", "source/multigrid/BlockBasis.cpp: setBasisDimension"]}
{"id": "C39", "title": "Chebyshev acceleration evaluates the Chebyshev polynomial", "statement": "The recursion applied to a number or to an operator evaluates the Chebyshev polynomial of the rescaled argument: bounded by one inside the interval, and the operator version is the same polynomial of the operator.", "quantifier": "all orders, intervals, arguments, operators, vectors", "why_tests_cant": "All orders and operators.", "anchors": ["source/dirac_functions/ChebyshevRecursion.cpp"]}
{"id": "C40", "title": "Polynomial and rational operator functions equal their scalar counterparts", "statement": "Applying the polynomial given by roots (or the partial fraction) to an operator acts on every eigenvector as multiplication by the scalar function of the eigenvalue, for every degree.", "quantifier": "all root lists, scalings, partial fractions, operators", "why_tests_cant": "Unbounded degrees, ping-pong buffers differ for even and odd degree.", "anchors": ["source/dirac_functions/Polynomial.cpp", "source/dirac_functions/RationalApproximation.cpp"]}
{"id": "C41", "title": "Molecular dynamics is reversible", "statement": "Integrating, flipping the momenta and integrating again with the same parameters returns to the starting configuration and (flipped) momenta, for each integrator, any nesting of time scales and any step numbers.", "quantifier": "all integrators, force lists, step counts, trajectory lengths, initial states, arbitrary force functions", "why_tests_cant": "Unbounded nesting and step counts; floating-point tests see tolerance only.", "anchors": ["source/hmc_integrators/LeapFrog.cpp", "source/hmc_integrators/OmelyanLeapFrog.cpp", "source/hmc_integrators/FourthOmelyanLeapFrog.cpp", "source/hmc_integrators/FourthOrderLeapFrog.cpp", "source/hmc_integrators/SixthOrderLeapFrog.cpp"]}
{"id": "C42", "title": "Molecular dynamics preserves phase-space volume", "statement": "Each integrator's map on links and momenta preserves the product of the invariant link measure and the flat momentum measure.", "quantifier": "all integrators, nestings, step counts, measurable forces", "why_tests_cant": "A statement about measures of all sets.", "anchors": ["source/hmc_integrators/*.cpp"]}
{"id": "C43", "title": "Every integrator advances links and momenta by exactly the trajectory length", "statement": "For every integrator, number of steps and nesting, the link-update step sizes and each force's momentum step sizes sum to the requested trajectory length.", "quantifier": "all integrators, step counts, nestings, lengths", "why_tests_cant": "Coefficient tables combine in unboundedly many ways.", "anchors": ["source/hmc_integrators/*.cpp"]}
{"id": "C44", "title": "The accept/reject step realises the Metropolis rule and satisfies detailed balance", "statement": "The proposal is accepted exactly with probability min(1,exp(-dH)), all ranks take the same decision, on rejection the configuration is unchanged and on acceptance it is the proposal; together with reversibility and volume preservation the target distribution is stationary.", "quantifier": "all energies, all uniform random numbers, all configurations, all ranks", "why_tests_cant": "Probabilistic statement over all states.", "anchors": ["source/hmc_updaters/HMCUpdater.cpp: metropolis", "source/hmc_updaters/PureGaugeHMCUpdater.cpp: execute", "source/hmc_updaters/TwoFlavorHMCUpdater.cpp: execute"]}
{"id": "C45", "title": "Random momenta live in the Lie algebra with the right kinetic energy", "statement": "Generated momenta are anti-Hermitian and traceless, and their kinetic energy is half the sum of squares of the independent Gaussian numbers used, for every number of colours.", "quantifier": "all N, all values of the Gaussian draws", "why_tests_cant": "N is compile time; the identity is over all draws.", "anchors": ["source/hmc_updaters/HMCUpdater.cpp: randomMomenta, momentaEnergy"]}
{"id": "C46", "title": "Multigrid restriction and prolongation form an orthogonal projection", "statement": "After block orthonormalisation, prolongation followed by restriction is the identity on coarse vectors, restriction followed by prolongation is an orthogonal projection containing every basis vector in its range, and the coarse operator is restriction * operator * prolongation.", "quantifier": "all lattices, block sizes, basis dimensions, linearly independent basis vectors, thread counts", "why_tests_cant": "Unbounded dimension and thread schedules.", "anchors": ["source/multigrid/BlockBasis.cpp: orthogonalize", "source/multigrid/MultiGridProjector.cpp", "source/multigrid/MultiGridOperator.cpp", "source/multigrid/MultiGridVectorLayout.cpp: initialize"]}
{"id": "C47", "title": "Gauge fixing never leaves the gauge orbit and never makes the functional worse", "statement": "The gauge-fixed configuration is a gauge transform of the input, and its gauge-fixing functional is at least that of the input, for any random numbers and step counts.", "quantifier": "all configurations, random sequences, step counts", "why_tests_cant": "Random search histories are unbounded.", "anchors": ["source/gauge_fixing/LandauGaugeFixing.cpp: gaugeFixing, functional", "source/gauge_fixing/GaugeFixing.cpp: transform, metropolis"]}
{"id": "C48", "title": "Unknown names stop the program; known names select the matching component", "statement": "Every component factory returns the component registered for the given name and terminates the program on any other name, and every default configuration value is an accepted name.", "quantifier": "all strings", "why_tests_cant": "All strings.", "anchors": ["source/LatticeSweep.cpp: getInstance", "source/actions/GaugeAction.cpp: getInstance", "source/hmc_integrators/Integrate.cpp: getInstance", "source/inverters/MultishiftSolver.cpp: getInstance", "source/dirac_operators/DiracOperator.cpp: getInstance"]}
{"id": "C49", "title": "Loop observables are normalised", "statement": "On unitary links every plaquette, Wilson loop and Polyakov loop that is written is at most one in absolute value, and it is exactly one on the trivial configuration.", "quantifier": "All lattices, numbers of colours, unitary configurations, loop sizes and directions.", "why_tests_cant": "A test sees one lattice; a wrong volume factor is invisible on hypercubic lattices.", "anchors": ["source/wilson_loops/Plaquette.cpp: execute", "source/wilson_loops/WilsonLoop.cpp: execute", "source/polyakov_loops/PolyakovLoop.cpp: execute"]}
{"id": "C50", "title": "A pure gauge sweep updates every link exactly once", "statement": "With several threads the links are split in classes of one colour; the sweep goes through all classes, every link belongs to exactly one class the sweep visits, and no array is indexed outside its range when the classes are built.", "quantifier": "All lattices.", "why_tests_cant": "The colouring depends on the extents; a test sees a few of them, and an unvisited link or an out of range write changes no obvious output.", "anchors": ["source/pure_gauge/Checkerboard.cpp", "source/pure_gauge/PureGaugeUpdater.cpp: execute", "source/pure_gauge/PureGaugeOverrelaxation.cpp: execute"]}
{"id": "C51", "title": "The two-flavour update samples the gauge action times the squared fermion determinant", "statement": "One two-flavour hybrid Monte Carlo sweep (Gaussian momenta, Gaussian pseudofermions through the Dirac operator, integration, accept/reject) leaves the distribution with density exp(-S_gauge) |det D|^2 with respect to the Haar measure of the links unchanged; a finite tolerance of the linear solver changes expectation values by an amount bounded by the tolerance.", "quantifier": "all gauge actions, invertible Dirac operators, integrators, time scales, step numbers and lengths", "why_tests_cant": "A statement about expectation values over all configurations, momenta, pseudofermions and random numbers.", "anchors": ["source/hmc_updaters/TwoFlavorHMCUpdater.cpp: execute", "source/hmc_updaters/FermionHMCUpdater.cpp: generateGaussianDiracVector", "source/actions/TwoFlavorFermionAction.cpp: energy"]}
{"id": "C53", "title": "Every option a sweep reads exists", "statement": "Whatever the configuration file contains, every sweep that can be named finds each option it asks for; no sweep ends the program because an option it needs was never registered, and every option that is read can be set from the file.", "quantifier": "All configuration files, all sweeps.", "why_tests_cant": "A test runs a few sweeps with one file; a read of an unregistered name ends the program only when that sweep is used.", "anchors": ["source/main.cpp: main", "source/LatticeSweep.cpp: addParameters", "source/program_options/StorageParameters.h: get", "source/gauge_fixing/MaximalAbelianGaugeFixing.cpp: registerParameters", "source/fermion_measurements/XSpaceCorrelators.cpp: execute"]}
{"id": "C52", "title": "The order of an integrator", "statement": "With fixed numbers of steps, the change of the total energy along a trajectory of length t, and the deviation of the links and momenta from the exact solution of the equations of motion, are of the order t^(p+1), where p is the order in the name of the integrator: 2 for second_order and omelyan, 4 for fourth_order and fourth_omelyan, 6 for sixth_order. Among the integrators with two force evaluations per step omelyan has the smallest leading error.", "quantifier": "all lattices, colours, starting fields, energies with smooth forces, time scales and numbers of steps", "why_tests_cant": "An asymptotic statement about all fields; a test sees one field and a few step sizes, and an error of one coefficient in a symmetric scheme only lowers the order.", "anchors": ["source/hmc_integrators/LeapFrog.cpp: integrate", "source/hmc_integrators/FourthOrderLeapFrog.cpp: integrate", "source/hmc_integrators/SixthOrderLeapFrog.cpp: integrate", "source/hmc_integrators/OmelyanLeapFrog.cpp: integrate", "source/hmc_integrators/FourthOmelyanLeapFrog.cpp: integrate"]}
{"id": "C54", "title": "More steps conserve the energy better, and enough steps are always accepted", "statement": "At a fixed length of the trajectory the change of the total energy is at most a constant divided by the square of the number of steps, for every integrator; so for every random number below one there is a number of steps from which on the hybrid Monte Carlo update accepts the new configuration.", "quantifier": "all lattices, colours, links in the group, momenta, lengths, integrators, time scales", "why_tests_cant": "A limit in the number of steps with a constant that exists by compactness of the group; no finite number of trajectories shows it.", "anchors": ["source/hmc_integrators/LeapFrog.cpp: integrate", "source/hmc_integrators/OmelyanLeapFrog.cpp: integrate", "source/hmc_updaters/PureGaugeHMCUpdater.cpp: execute", "source/hmc_updaters/HMCUpdater.cpp: metropolis"]}
{"id": "C55", "title": "The force of the fermions is the gradient of their energy", "statement": "The force that the fermion actions hand to the integrator is minus the change of the energy of the pseudofermions with the links: along the motion it generates the energy of the momenta plus that of the pseudofermions does not change to first order, and a trajectory with gauge and fermion forces conserves the total energy to the order of the integrator. This holds for every boundary condition of the fermions, for fundamental and adjoint fermions, for two flavours and for rational approximations of any number of flavours, on the time scales selected by the list of numbers of steps.", "quantifier": "all lattices, colours, hopping parameters, boundary conditions, links, momenta, pseudofermion fields, rational approximations with positive shifts, integrators, numbers of steps", "why_tests_cant": "The force is a sum of outer products with signs, gamma matrices and boundary factors; a wrong sign on a few links lowers the acceptance but leaves every ensemble average correct, and a numerical derivative on one link does not see it.", "anchors": ["source/hmc_forces/FermionForce.cpp: force, derivative, tensor", "source/hmc_forces/DiracWilsonFermionForce.cpp: derivative", "source/actions/TwoFlavorFermionAction.cpp: updateForce, energy", "source/actions/NFlavorFermionAction.cpp: updateForce, energy", "source/hmc_updaters/MultiStepNFlavorUpdater.cpp: execute"]}
{"id": "C56", "title": "The action of the scalar fields is gauge invariant, bounded below and consistent with its site energies and forces", "statement": "The energy of adjoint and fundamental scalar fields does not change under gauge transformations of links and fields. The change of the energy that the local updater computes at one site is the change of the energy of the whole lattice. The force on the links is minus the change of the energy with the links, and the two functions that compute it agree. With quartic couplings that are not negative the energy is bounded below for every mass m*m of the options, and every coupling of the options has the effect its name says.", "quantifier": "all lattices, colours, numbers of fields, couplings, fields, links", "why_tests_cant": "The adjoint representation, the kinetic couplings of both directions and the quartic terms appear in four separate functions; an inconsistent sign or factor only shifts the distribution, which no run can tell from a different mass.", "anchors": ["source/actions/ScalarAction.cpp: energy, getKineticCoupling, updateForce, force", "source/scalar_updaters/MetropolisScalarUpdater.cpp: registerParameters"]}
{"id": "C57", "title": "The Metropolis sweep of the scalar fields keeps their distribution", "statement": "A sweep of the Metropolis updater leaves the distribution exp(-energy) of the scalar fields invariant, whatever the number of hits, the width of the proposals, the couplings and the gauge links. The result does not depend on the order in which threads visit the sites. The numbers of fields of the options must be those of the environment, otherwise the program ends.", "quantifier": "all lattices without self-neighbours, couplings, links, numbers of fields and hits, widths, orders of the sites", "why_tests_cant": "Detailed balance of every hit with a coupling computed once per site is a statement about distributions; runs only show averages with errors.", "anchors": ["source/scalar_updaters/MetropolisScalarUpdater.cpp: execute", "source/actions/ScalarAction.cpp: energy, getKineticCoupling"]}
{"id": "C58", "title": "Hybrid Monte Carlo with scalar fields samples gauge and scalar action together", "statement": "A sweep of the hybrid Monte Carlo updater with scalar fields leaves the distribution exp(-(gauge energy + scalar energy)) of the links invariant for every configuration of the scalar fields, and a trajectory conserves the total energy to the order of its integrator. The numbers of steps of the options are used for the two forces as documented, with one where a number is missing; wrong numbers of fields end the program.", "quantifier": "all lattices, colours, couplings, fields, gauge actions, integrators, numbers of steps, lengths", "why_tests_cant": "Stationarity and order of convergence are limits over distributions and step sizes.", "anchors": ["source/hmc_updaters/HiggsGaugeHMCUpdater.cpp: execute, initializeScalarAction"]}
{"id": "C59", "title": "Energy and topological charge along the gradient flow", "statement": "For every flow time the program writes t squared times the energy density of the flowed configuration and its topological charge. The energy density is the average of the square of the field strength: it is not negative and vanishes only without field. The charge is the integral of the field strength with its dual over 32 pi squared: it does not change under rotations and translations and changes sign under reflections, and the energy is at least 8 pi squared times the charge. Nothing of the output changes under gauge transformations; the rows are those of the times 0, step, 2 step, ... below the flow time; their error is of third order in the integration step. The correlators over time slices are the slice averages of the same two densities.", "quantifier": "all lattices, numbers of colours, configurations, flow types, steps, flow times, numbers of integration steps, gauge transformations, symmetries of the lattice", "why_tests_cant": "Inequalities, symmetries and an order of convergence over all configurations; a test compares single numbers on single configurations.", "anchors": ["source/wilson_flow/WilsonFlow.cpp: execute, measureEnergy, measureEnergyAndTopologicalCharge"]}
{"id": "C60", "title": "Glueball operators, Polyakov loop correlators and adjoint Polyakov loops", "statement": "The scalar glueball operator of a time slice is the average over the slice of the sum of the spatial plaquettes and does not change under gauge transformations, spatial translations, spatial reflections and spatial rotations by 90 degrees; the tensor operator is the difference of two planes and changes sign when the corresponding axes are exchanged. The correlator of Polyakov loops at distance d is the average of tr P(x)* tr P(x + d) with the normalisation of the Polyakov loop. The adjoint Polyakov loop is the average of |tr P|^2 - 1 over N^2 - 1, is at most one, and does not see the centre of the group.", "quantifier": "all lattices, numbers of colours, configurations, time slices, distances, gauge transformations, symmetries of the lattice", "why_tests_cant": "Invariances and bounds over all configurations.", "anchors": ["source/correlators/Glueball.cpp: execute", "source/polyakov_loops/PolyakovLoopCorrelator.cpp: execute", "source/polyakov_loops/AdjointPolyakovLoop.cpp: execute"]}
{"id": "C61", "title": "Meson correlators are contractions of the quark propagator of the configuration", "statement": "What the meson correlator sweep writes for the time slice t is the contraction of the quark propagator from the source to the slice t after it with the Dirac structure its name says (pion, scalar, axial-pseudoscalar), times 4 kappa squared; the PCAC mass is the symmetric time difference of the axial correlator over the pion correlator. The source time moves the source and nothing else. The pion correlator is never negative, somewhere positive, and bounds the others; nothing changes under gauge transformations.", "quantifier": "all lattices, colours, links, hopping parameters, clover coefficients, source times, exact inverters, gauge transformations", "why_tests_cant": "The contractions are hand written sums over spin components with signs; on one configuration a wrong spin structure gives a plausible decaying correlator.", "anchors": ["source/correlators/MesonCorrelator.cpp: execute", "source/dirac_operators/Propagator.cpp: constructPropagator"]}
{"id": "C62", "title": "Stochastic estimates are unbiased and their error falls with the number of passes", "statement": "Over the random signs, the condensate, its pseudoscalar partner, the norm of the pion and the connected susceptibility have as mean value the trace per site of the inverse Dirac operator, of gamma5 times it, of its square with its adjoint and of its square, for every number of passes; the variance is a fixed sum over off-diagonal elements divided by the number of passes. The disconnected parts of the meson sweep have as mean value the trace of the propagator over each time slice, for all time slices.", "quantifier": "all lattices, colours, links, hopping parameters, clover coefficients, numbers of passes, exact inverters", "why_tests_cant": "Mean and variance over all noise vectors cannot be observed; a run sees a few vectors.", "anchors": ["source/fermion_measurements/ChiralCondensate.cpp: execute", "source/fermion_measurements/StochasticEstimator.h: generateRandomNoise, mean", "source/correlators/MesonCorrelator.cpp: execute"]}
{"id": "C63", "title": "For small hopping parameter the Wilson operators are bounded, invertible and have positive real part", "statement": "On unitary links the Wilson operators change the norm of a field at most by the factors 1 - 8 |kappa| and 1 + 8 |kappa|, the clover operator by 1 -/+ |kappa| (8 + 6 |c_sw|), with and without gamma5; below the critical value 1/8 (or its clover analogue) every equation has exactly one solution and the real part of the operator is positive. On constant fields and unit links the factor 1 - 8 kappa is reached.", "quantifier": "all lattices, colours, unitary links, hopping parameters, clover coefficients, fields", "why_tests_cant": "A bound over all link configurations and fields; random configurations stay far from the extreme ones.", "anchors": ["source/dirac_operators/DiracWilsonOperator.cpp: multiply", "source/dirac_operators/BasicDiracWilsonOperator.cpp: multiply", "source/dirac_operators/ImprovedDiracWilsonOperator.cpp: multiply"]}
{"id": "C64", "title": "The heat bath samples the Boltzmann distribution of the gauge action", "statement": "Running the heat bath updater for the pure gauge theory (Wilson or improved action, any number of colours, any lattice, any coupling beta > 0) on configurations distributed as exp(-S(U)) dU, with dU the Haar measure, gives configurations with the same distribution; for two colours each new link is an exact sample of its distribution given all the other links. The rejection loop ends and no division by zero happens, with probability one from almost every configuration.", "quantifier": "all numbers of colours N >= 2, lattices with extents >= 2 (>= 3 for the improved action), couplings beta > 0, tadpole factors with 10 u0^2 > 1, orders of the links", "why_tests_cant": "A distribution on a product of SU(N) groups; a test sees finitely many samples and has to compare with a distribution that is not known in closed form.", "anchors": ["source/pure_gauge/PureGaugeUpdater.cpp: execute, updateLink, generate_radius, generate_vector"]}
{"id": "C65", "title": "Overrelaxation keeps the Boltzmann distribution of the gauge action", "statement": "Running the overrelaxation updater (Wilson or improved action, any lattice, any coupling) on configurations distributed as exp(-S(U)) dU gives configurations with the same distribution. For two colours the sweep is a change of configurations that keeps both the Haar measure and the energy; for more colours a proposal is accepted or rejected so that the distribution is kept whatever unitary factor the linear algebra library returns for the staple.", "quantifier": "all numbers of colours, lattices with extents >= 2 (>= 3 for the improved action), couplings, tadpole factors, orders of the links, unitary factors", "why_tests_cant": "A distribution on a product of SU(N) groups; the energy of single runs moves in the same way when the acceptance or the reflection is slightly wrong.", "anchors": ["source/pure_gauge/PureGaugeOverrelaxation.cpp: execute, updateLink"]}
{"id": "C66", "title": "The random start of two colours draws independent uniformly distributed links", "statement": "With independent uniform random numbers the links set by the random start are independent and each is distributed with the Haar probability measure of SU(2), and the reunitarisation at the end does not change them.", "quantifier": "all lattices, all measurable sets of configurations", "why_tests_cant": "A distribution cannot be observed from finitely many starts; a wrong power of the uniform number still gives matrices in SU(2).", "anchors": ["source/starters/HotStartGaugeConfiguration.cpp: execute", "source/utils/ReUnit.cpp: execute"]}
{"id": "C67", "title": "The multilevel measurement of Polyakov loop correlators is unbiased", "statement": "When the configurations are distributed with exp(-S), the averages over repeated updates of the inside of the slices which are written for the distances 2 to max_r have the mean value of the correlator Re tr P(x) conj(tr P(x+R))/N^2 of Polyakov loops averaged over the lattice, for every number of slices and subsweeps, and the configuration left behind is again distributed with exp(-S). The Wilson loops written first are the averages of Re tr/N of the rectangles at even sites.", "quantifier": "all numbers of colours, couplings, lattices whose extent in direction 1 is a multiple of the slice size, slice sizes, numbers of subsweeps, both gauge actions", "why_tests_cant": "The improvement over a plain average is a statement about means over infinitely many random numbers; a biased combination of the slices is hidden by statistical noise.", "anchors": ["source/pure_gauge/PureGaugeWilsonLoops.cpp: execute, updateSlices, TwoLinkOperator", "source/pure_gauge/PureGaugeWilsonLoops.h: SpatialWilsonLoop::measure"]}
{"id": "C68", "title": "The force of clover improved fermions is the gradient of their energy", "statement": "The matrix that the force of the clover improved Dirac operator computes for a link is the change of the operator with that link, including all eight leaves of the clover term that contain it. The force handed to the integrator is minus the change of the energy of the pseudofermions, so a trajectory with clover improved fermions conserves the total energy to the order of the integrator.", "quantifier": "all lattices (extents of one and two sites included), colours, hopping parameters, clover coefficients, boundary conditions, links, momenta, pseudofermion fields, rational approximations with positive shifts, integrators", "why_tests_cant": "Eight products of three links with signs, sites and spin matrices enter per plane; a wrong sign in one of them only lowers the acceptance, and a test on a large lattice does not see what happens when leaves coincide.", "anchors": ["source/hmc_forces/ImprovedFermionForce.cpp: derivative, setLattice", "source/dirac_operators/ImprovedDiracWilsonOperator.cpp: multiply, updateFieldStrength", "source/hmc_forces/FermionForce.cpp: force, tensor", "source/actions/NFlavorFermionAction.cpp: updateForce", "source/actions/TwoFlavorFermionAction.cpp: updateForce"]}
{"id": "C69", "title": "The force of fermions on stout smeared links is the gradient of their energy", "statement": "With one level of stout smearing the force handed to the integrator is minus the change of the energy of the pseudofermions, computed on the smeared links, with the unsmeared links: every smeared link that contains the link enters once. The derivative is computed numerically; the rate at which the total energy changes along the motion is of the second order in the step of the numerical derivative, and with an exact derivative a trajectory conserves the energy to the order of the integrator.", "quantifier": "all lattices with at least three sites in each direction, colours, representations, hopping parameters, clover coefficients, boundary conditions, coefficients of smearing, links, momenta, pseudofermion fields, steps of the numerical derivative", "why_tests_cant": "A link enters twenty-five smeared links through its staples; one of them forgotten or taken twice only lowers the acceptance, and the numerical derivative hides small errors.", "anchors": ["source/hmc_forces/SmearingForce.cpp: force, ridder, derivative", "source/actions/NFlavorFermionAction.cpp: updateForce", "source/actions/TwoFlavorFermionAction.cpp: updateForce", "source/utils/StoutSmearing.cpp: smearing", "source/Environment.cpp: synchronize"]}
{"id": "C70", "title": "Overlap fermions: chiral symmetry and force", "statement": "The overlap operator is the mass times the field plus one minus the mass times the massless operator, it is Hermitian with gamma5, and on an eigenvector of the Wilson kernel it takes the eigenvalue times the polynomial of its square for the sign. The massless operator obeys the Ginsparg-Wilson relation to the accuracy to which the polynomial approximates the inverse square root on the spectrum of the kernel; with eigenvectors treated exactly only the rest of the spectrum matters. The matrix that its force computes for a link is the change of the operator with that link, so a trajectory with overlap fermions conserves the total energy to the order of the integrator.", "quantifier": "all lattices, colours, representations, hopping parameters, masses, polynomials given by their roots, links, fields, sets of orthonormal eigenvectors, boundary conditions, momenta, rational approximations with positive shifts, integrators", "why_tests_cant": "Chiral symmetry of the operator is a statement about the whole spectrum; the derivative of a polynomial of an operator is a sum of products in a fixed order with conjugated roots, and a wrong order or a wrong power of the scaling only lowers the acceptance.", "anchors": ["source/dirac_operators/OverlapOperator.cpp: multiply", "source/dirac_operators/ExactOverlapOperator.cpp: multiply", "source/hmc_forces/OverlapFermionForce.cpp: derivative", "source/dirac_functions/Polynomial.cpp: evaluate", "source/actions/NFlavorFermionAction.cpp: updateForce", "source/actions/TwoFlavorFermionAction.cpp: updateForce"]}
{"id": "C71", "title": "Landau gauge gluon propagator and three gluon vertex", "statement": "The measured momenta are exactly those below the given bounds and within the cut around the diagonal, each once and the zero momentum first. The number written for a momentum is the Fourier transform of the correlation of the gluon field summed over directions and colours and divided by the number of polarisations; it is not negative, and it does not depend on a constant gauge rotation or on where the lattice begins. In the Landau gauge the field is transverse, otherwise by no more than the deviation that the program prints. Over all momenta the propagators add up to the volume times the square of the field. The three point function is purely imaginary. The record names the momentum.", "quantifier": "all lattices, colours, links, momentum ranges, cuts, constant gauge rotations, translations", "why_tests_cant": "Orthonormality of the generators and the half-site shift of the phases enter as identities between sums over the whole lattice; a test would need an independent implementation, and a wrong factor or a wrong label only shifts published curves.", "anchors": ["source/gauge_fixing/LandauGluonPropagator.cpp: execute"]}
{"id": "C72", "title": "Landau gauge ghost propagator", "statement": "The operator that is inverted is the Faddeev-Popov operator: it is Hermitian, minus one half of its quadratic form is the second derivative of the gauge fixing functional along the gauge orbit, it is positive semidefinite at a maximum of the functional, and it annihilates constant fields exactly in the Landau gauge. Without gluons plane waves are eigenvectors with the squared momentum. When the solver reports success, the propagator that is written comes from a field with residual below the precision and so is the exact one to that accuracy.", "quantifier": "all lattices, colours, links, complex adjoint fields, momenta, precisions, numbers of steps", "why_tests_cant": "The factors, orders and sites of three matrices per link define the operator; the second derivative and positivity are statements for all fields, and a solver that drops its result in one branch still reports success.", "anchors": ["source/gauge_fixing/LandauGhostPropagator.cpp: ghostMatrix", "source/gauge_fixing/LandauGhostPropagator.cpp: ghostPropagatorBiCGStab", "source/gauge_fixing/LandauGhostPropagator.cpp: execute"]}
{"id": "C73", "title": "Overlap propagator and chiral rotations", "statement": "From the solution of the overlap equation the program makes the propagator without the contact term: the solution minus the source, divided by one minus the mass. At mass zero this propagator anticommutes with gamma5 as far as the operator obeys the Ginsparg-Wilson relation. The stepwise chiral rotations of fermions and antifermions approach the exponentials of the generators with an error that falls like one over the number of steps, and the massless action is invariant under them to that accuracy and to that of the Ginsparg-Wilson relation. The rotated condensate is the condensate with both fields rotated by a quarter turn.", "quantifier": "all lattices, colours, links, hopping parameters, masses, polynomials given by their roots, eigenvectors, sources, angles, numbers of steps", "why_tests_cant": "Invariance of the action is a statement about all fields and about a limit in the number of steps; a rotation by the wrong angle gives a plausible number.", "anchors": ["source/fermion_measurements/OverlapChiralRotation.cpp: chiral_rotation_psi, chiral_rotation_psibar, execute", "source/dirac_operators/Propagator.cpp: constructPropagator", "source/dirac_operators/OverlapOperator.cpp: multiply", "source/dirac_operators/ExactOverlapOperator.cpp: multiply"]}
{"id": "C74", "title": "Eigenvalue solver", "statement": "The restarted Arnoldi process returns as many pairs as asked for; each vector has norm one, each value is the expectation value of the operator, and the deviation that decides about convergence bounds every residual; a converged result does not depend on how many restarts were allowed. For Hermitian operators the vectors are orthonormal and the values real, in order and within the deviation of exact eigenvalues; they never overshoot the true ones; restarts keep what was found before and move the first value only towards the end of the spectrum. The smallest eigenvalues come from the same process with the inverse operator and are never underestimated.", "quantifier": "all lattices, colours, linear operators, start vectors, numbers of values, of extra vectors and of restarts, precisions", "why_tests_cant": "The shifts, the decomposition and the update of the residual in a restart are right only if an invariant between vectors, residual and Hessenberg matrix survives any number of restarts; wrong selections still give plausible eigenvalues.", "anchors": ["source/fermion_measurements/DiracEigenSolver.cpp: extendArnoldi, startArnoldi, finishArnoldi, restartArnoldi", "source/fermion_measurements/DiracEigenSolver.cpp: maximumEigenvalues", "source/fermion_measurements/DiracEigenSolver.cpp: minimumEigenvalues, minimumNonHermitianEigenvalues"]}
{"id": "C75", "title": "Momentum-space propagator and vertex functions", "statement": "The quark propagator and the vertex functions that the non-perturbative renormalisation measurement writes are the Green function between plane waves, and the same with one of the sixteen products of gamma matrices inserted at zero momentum, in continuum normalisation. The propagator has gamma5-hermiticity. For links that do not depend on the site and momenta of the lattice the amputated vertex functions are the gamma matrices themselves. A constant rotation of the colours rotates both. The scalar vertex function is minus the derivative of the propagator with respect to the bare mass (Ward identity), for every configuration.", "quantifier": "all lattices, colours, links, operators of Wilson type with and without clover term, momenta, products of gamma matrices", "why_tests_cant": "The identities relate solutions for different sources, masses and gauges for all configurations; a wrong order of colour and spin or a conjugation on the wrong leg changes numbers that have no independently known value.", "anchors": ["source/fermion_measurements/NPRVertex.cpp: execute", "source/dirac_operators/Propagator.cpp: constructPropagator"]}
{"id": "C76", "title": "Traces of singlet operators with hopping expansion", "statement": "The mean over the noise of the traces written for the sixteen products of gamma matrices is the trace with the inverse after the given number of hoppings, or the term of the given order of the hopping expansion; the variances are those of random signs. Together they reproduce the full trace: known term, plus the lower orders with alternating signs, plus the remainder. Odd orders without clover term vanish on even lattices, and for small hopping parameter every single estimate after h hoppings is bounded by the power h of a number smaller than one.", "quantifier": "all lattices, colours, links, operators of Wilson type, hopping orders, products of gamma matrices, noise vectors", "why_tests_cant": "Unbiasedness is a statement about the mean over all noise vectors; a wrong sign in the expansion cannot be seen in one stochastic number.", "anchors": ["source/fermion_measurements/SingletOperators.cpp: execute", "source/dirac_operators/HoppingOperator.cpp: apply", "source/dirac_operators/GammaOperators.cpp"]}
{"id": "C77", "title": "Correlators in position space", "statement": "The position space measurement writes, for a list of points that treats the axes alike, the exact connected correlator of the sixteen bilinears and the unbiased disconnected one; both are gauge invariant.", "quantifier": "all lattices, colours, links, operators of Wilson type, points, products of gamma matrices, numbers of noise vectors", "why_tests_cant": "Gauge invariance and the mean over the noise quantify over all transformations and noise vectors; on trivial links the wrong index order gives the same numbers.", "anchors": ["source/fermion_measurements/XSpaceCorrelators.cpp: execute", "source/utils/Translate.h"]}
{"id": "C78", "title": "Gluino-glue correlator", "statement": "For adjoint fermions the gluino-glue measurement writes minus a quarter of the real part of the trace of sigma F, the gluino propagator smeared at both ends, and sigma F, summed over the two time slices; it is gauge invariant, also with smearing of the source and of the links; the requested number of source times is used and the loop over them ends.", "quantifier": "all lattices, numbers of colours, links, gauge transformations, boundary conditions, smearing levels and weights, source times and distances", "why_tests_cant": "Gauge invariance quantifies over all transformations and mixes the fundamental links of the glue with the adjoint links of the gluino; whether the loop over the sources ends depends on input the tests do not contain.", "anchors": ["source/correlators/GluinoGlue.cpp: execute, cloverPlaquette", "source/fermion_measurements/StochasticEstimator.cpp: smearSource"]}
{"id": "C79", "title": "Random seeds", "statement": "Every process of a parallel run starts its random generators from states of its own, and runs started at different times start from different states; no two of them draw the same random numbers.", "quantifier": "all ranks, call counters, clock times and random offsets in their ranges", "why_tests_cant": "The seed mixes two tables, the rank, a counter, the clock and a shared random number; whether two processes collide is a statement about all pairs of ranks and calls, and a test never has hundreds of processes.", "anchors": ["source/utils/RandomSeed.cpp: randomSeed", "source/utils/RandomSeed.h: seed, mpiseed"]}
{"id": "C80", "title": "Histogram of the Polyakov loop eigenvalues", "statement": "The measurement of the eigenvalues of the Polyakov loop counts the eigenvalues of the loops of a time slice by phase in bins of width 1/50 from -pi to pi; every eigenvalue is counted once, the histogram is gauge invariant and does not depend on the time slice, and does not depend on the number of threads.", "quantifier": "all lattices, numbers of colours, links and distributions of the sites over threads", "why_tests_cant": "The bins have to cover every phase including pi, and the threaded code path writes to an array whose size is fixed before the threads exist.", "anchors": ["source/polyakov_loops/PolyakovLoopEigenvalues.cpp: execute"]}
{"id": "C81", "title": "Mean values of the scalar fields", "statement": "The measurement of the scalar fields writes the mean over flavours, components and all sites of the lattice of the field, its square and its modulus, however the lattice is distributed over processes; the mean squares are gauge invariant.", "quantifier": "all lattices, fields, numbers of flavours and distributions over processes", "why_tests_cant": "The value written must not depend on the number of processes, which a serial test cannot vary.", "anchors": ["source/scalar_measurements/MeanScalarField.cpp: execute"]}
{"id": "C82", "title": "Multigrid multishift solver", "statement": "The multishift solver of the rational hybrid Monte Carlo algorithm with multigrid returns, for every shift s, the solution of (D^+ D + s) x = b to the precision asked for, and reports failure otherwise.", "quantifier": "all lattices, links, hopping parameters, clover coefficients, sources, lists of shifts, multigrid cycles and step limits", "why_tests_cant": "The result rests on the factorisation of the shifted square into two twisted operators for every shift, and the step limit of the inner solver is changed by each of the preceding solves, so that correctness depends on the whole history.", "anchors": ["source/inverters/MultiGridMEMultishiftSolver.cpp: solve", "source/multigrid/MultiGridSolver.cpp: solve"]}
{"id": "C83", "title": "Clover operator on blocks", "statement": "The clover operator restricted to blocks, which the Schwarz preconditioner inverts, is on fields that vanish outside the blocks the restriction of the full operator to the sites of the blocks (plus the twist); different blocks do not talk to each other; with gamma5 its adjoint is the operator with the opposite twist; multiply-and-add agrees with multiply.", "quantifier": "all lattices, blocks, colours, links, hopping parameters, clover coefficients, twists and fields", "why_tests_cant": "The claim relates two different operators on all fields supported in the blocks; whether multiply-and-add respects the boundary of the blocks is invisible when a test does not put sources at the boundary.", "anchors": ["source/dirac_operators/BlockImprovedDiracWilsonOperator.cpp: multiply, multiplyAdd", "source/dirac_operators/BlockDiracOperator.cpp: getInstance"]}
{"id": "C84", "title": "Numerical test of the forces", "statement": "The numerical derivative that the test of the forces prints converges for epsilon to zero to the force that it prints beside it, exactly when the force is the derivative of the energy: for two colours for every entry of the matrix, for more colours for the entry that is printed.", "quantifier": "all energies of the links, links, sites, directions and numbers of colours", "why_tests_cant": "The test itself is a finite difference at a few values of epsilon; that its normalisation and generators are right for every number of colours and every energy is a statement about limits.", "anchors": ["source/hmc_forces/TestForce.cpp: testForce, genericTestForce"]}
{"id": "C85", "title": "Rational hybrid Monte Carlo", "statement": "The updater for any number of flavours samples the links with the weight exp(-gauge energy) times the rational functions of the eigenvalues of the square of the Dirac operator, that is a power of the determinant up to the error of the approximations; the deviation per sweep is bounded by the mismatch of the functions of the heat bath and of the accept/reject step, whatever force is used. The number of flavours printed and the warnings describe the functions given in the options.", "quantifier": "all lattices, colours, matrices, numbers of pseudofermions, rational functions, integrators, step numbers, observables and numbers of sweeps", "why_tests_cant": "The stationary distribution is a statement about integrals over all random numbers; a wrong rational function or a force of another operator changes acceptance or weights by amounts no short run resolves.", "anchors": ["source/hmc_updaters/MultiStepNFlavorUpdater.cpp: execute, initializeApproximations, checkTheory", "source/dirac_functions/RationalApproximation.cpp: evaluate"]}
{"id": "C86", "title": "Hybrid Monte Carlo with fermions and scalars", "statement": "The updater with fermions and scalar fields samples the links with the weight exp(-gauge energy - scalar energy) times the rational functions of the fermion matrix up to the mismatch of these functions; every integrator conserves the energy to its order; all lists of step numbers for which the program does not stop with an error are handled.", "quantifier": "all lattices, colours, scalar fields, couplings, numbers of pseudofermions, rational functions, integrators, step numbers and numbers of sweeps", "why_tests_cant": "The distribution is an integral over all random numbers; which lists of step numbers lead to reading past the end of a vector is not visible in a run that happens to survive.", "anchors": ["source/hmc_updaters/ScalarFermionHMCUpdater.cpp: execute"]}
{"id": "C87", "title": "Force of the operator restricted to blocks", "statement": "The force of the fermions with the Wilson operator restricted to blocks is the derivative of Re <X, gamma5 D Y> with respect to every link: links inside a block get the Wilson force, all others none.", "quantifier": "all lattices, block sizes, colours, gauge fields, pairs of vectors, hopping parameters and links", "why_tests_cant": "A derivative for all fields; a test of the force on a single link misses the links at the faces of the blocks.", "anchors": ["source/hmc_forces/BlockDiracWilsonFermionForce.cpp: derivative", "source/dirac_operators/BlockDiracWilsonOperator.cpp"]}
{"id": "C88", "title": "Split of a stochastic trace with the multigrid basis", "statement": "The estimate of a trace in the coarse space plus the estimate with the residual vectors is unbiased for the trace of any operator times the inverse of the Dirac operator, whatever the basis; the residual part does not see the coarse space.", "quantifier": "all lattices, distributions over processes and threads, blocks, bases, Dirac operators and observables", "why_tests_cant": "A mean over all random signs of two different noises, for arbitrary bases.", "anchors": ["source/multigrid/MultiGridStochasticEstimator.cpp: getMultigridVectors, getResidualVectors"]}
{"id": "C89", "title": "Eigenvalues with Chebyshev acceleration", "statement": "With Chebyshev acceleration the eigenvalue solver still returns pairs of the operator itself with orthonormal vectors and a residual bounded by the printed deviation; if the order is odd and no eigenvalue lies above the interval, a converged run returns the smallest eigenvalues in order; an even order removes them first.", "quantifier": "all Hermitian operators, intervals, orders, numbers of eigenvalues, extra vectors, restarts and start vectors", "why_tests_cant": "Which end of the spectrum a filter keeps depends on the parity of the order and on the spectrum; a run on one configuration looks plausible in all cases.", "anchors": ["source/fermion_measurements/DiracEigenSolver.cpp: startArnoldi, extendArnoldi, maximumEigenvalues", "source/fermion_measurements/Eigenvalues.cpp: execute", "source/dirac_functions/ChebyshevRecursion.cpp: evaluate"]}
{"id": "C90", "title": "The communication self-test", "statement": "The sweep that tests the communication prints zero for every difference and reports no coordinate whenever neighbour tables and halos are right, for every configuration and random vector; the energies it compares are the gauge actions of the program. It reports every step to a site with a wrong coordinate, and its test of the norms fails for some vector whenever steps do not permute the sites.", "quantifier": "all lattices, configurations, vectors and neighbour tables", "why_tests_cant": "A self-test is judged by all the faults it could meet; running it shows only that one build passes.", "anchors": ["source/tests/TestCommunication.cpp: execute"]}
{"id": "C91", "title": "Random start of the scalar fields", "statement": "The random start leaves as many adjoint and fundamental fields as the options ask for, nothing of the old fields remains, the components are independent normal numbers of variance one half (real and imaginary parts separately for fundamental fields), and the distribution of the fields is invariant under gauge transformations.", "quantifier": "all numbers of fields before and after, lattices, colours, gauge transformations", "why_tests_cant": "A statement about distributions on a continuous space for all gauge transformations.", "anchors": ["source/scalar_updaters/RandomScalarUpdater.cpp: execute, generateGaussianAdjointScalar, generateGaussianFundamentalScalar"]}
{"id": "C92", "title": "Parallel tempering of the gauge fixing", "statement": "The gauge fixing runs copies of the configuration at different inverse temperatures. A random trial of a copy leaves the weight exp(beta F) of the functional F unchanged, and an exchange of two copies leaves their joint weight exp(beta F + beta' F') unchanged, so that the copy at the largest inverse temperature holds the best configurations.", "quantifier": "all lattices, colours, functionals, widths, inverse temperatures and random numbers", "why_tests_cant": "The wrong sign of an exponent only makes the search less efficient: every run still ends with a valid gauge transform that is no worse than the start.", "anchors": ["source/gauge_fixing/LandauGaugeFixing.cpp: gaugeFixing", "source/gauge_fixing/MaximalAbelianGaugeFixing.cpp: execute", "source/gauge_fixing/GaugeFixing.cpp: metropolis, generateRandomGaugeTransformation, transform"]}
{"id": "C93", "title": "Preconditioner of the multigrid solver", "statement": "The preconditioner of the multigrid solver (Schwarz alternating procedure) solves the system in the red blocks, then in the black blocks, and repeats this on the residual. After every cycle the residual on the black sites is that of the solver of the blocks, so at most the precision set (lowered to a thousandth of the source when the source is small). With exact solutions in the blocks and a small hopping parameter the result converges to the solution of the full system, for blocks of any size, at a geometric rate. The solver used in the blocks reaches its precision for every source if enough steps are allowed. The blocks have the size set by the option sap_block_size.", "quantifier": "for all lattices, block sizes, unitary links, sources, numbers of steps and solvers of the blocks", "why_tests_cant": "A test runs one configuration at one precision; the rate holds for all gauge fields, and that an option is overwritten later shows only in the running time.", "anchors": ["source/dirac_operators/SAPPreconditioner.cpp", "source/dirac_operators/ComplementBlockDiracOperator.cpp", "source/dirac_operators/BlockDiracOperator.cpp", "source/multigrid/MultiGridSolver.cpp", "source/fermion_measurements/NPRVertex.cpp"]}
{"id": "C94", "title": "Eigenvectors kept by the exact overlap operator", "statement": "The exact overlap operator computes low eigenvectors of the Wilson operator once and keeps them. However the lattice and the hopping parameter are set in between, it multiplies with the lattice and hopping parameter set last and with pairs that belong to them: fresh from the eigenvalue solver, or tested against the present operator to the tolerance of the solver. The eigenvalue of the Wilson operator is found from that of its square; the pair is right if and only if the vector does not mix the two signs of the square root. In particular every eigenvector of the square gives a right pair.", "quantifier": "for all sequences of calls, lattices, hopping parameters, eigenvalue solvers and tolerances", "why_tests_cant": "A stale pair gives a result that is slightly wrong and depends on the history of calls; the mixing of signs shows up only for degenerate eigenvalues.", "anchors": ["source/dirac_operators/ExactOverlapOperator.cpp", "source/dirac_operators/ExactOverlapOperator.h", "source/dirac_operators/DiracOperator.cpp"]}
{"id": "C95", "title": "Convergence of the multigrid solver", "statement": "For unitary links and a small hopping parameter the multigrid solver reaches any positive precision for every source and start vector other than the exact solution, whatever the block basis as long as it is orthonormal in the blocks: every step reduces the squared residual at least by a fixed factor, which depends on the hopping parameter, the clover coefficient, the number of steps of the smoother and the accuracy of the coarse solver only. The coarse system always has a solution.", "quantifier": "for all lattices, processes, blocks, orthonormal block bases, unitary links, sources, start vectors, coarse solvers with bounded residual, contents of the work arrays", "why_tests_cant": "A test inverts on a few configurations; it cannot show that no basis and no gauge field makes the combination of coarse correction, smoother and truncated orthogonalisation stall.", "anchors": ["source/multigrid/MultiGridSolver.cpp: solve", "source/multigrid/MultiGridProjector.cpp", "source/multigrid/MultiGridOperator.cpp", "source/dirac_operators/SAPPreconditioner.cpp"]}
{"id": "C96", "title": "Connected correlators in position space from noise", "statement": "For every point other than the starting point, every product of gamma matrices and every noise vector, the number which the position space measurement writes under meson_correlator has as its mean over the noise the connected correlator of the pairs of sites at this distance, tr(Gamma G(x,y) gamma4 Gamma^dagger gamma4 G(y,x)) summed over the sites.", "quantifier": "all lattices, colours, links, operators of Wilson type, points, products of gamma matrices, numbers of noise vectors", "why_tests_cant": "A mean over all noise vectors of the lattice cannot be computed by running the program, and the excess of one sample over the connected correlator looks like noise.", "anchors": ["source/fermion_measurements/XSpaceCorrelators.cpp: execute (connected part)"]}
{"id": "C97", "title": "Self test of the linear algebra", "statement": "The sweep TestLinearAlgebra prints zeros for every configuration and every choice of its random vectors; conversely, with probability one it prints a number different from zero for a linear operator that is not Hermitian, for two linear operators that differ, for a wrong multiply-and-add, and for overlap operators with a polynomial that is not real; an option that does not describe a polynomial is reported.", "quantifier": "all lattices, colours, links, blocks, linear operators and almost all random vectors", "why_tests_cant": "The absence of false alarms quantifies over all links and vectors, and what the test finds is a statement about all wrong operators.", "anchors": ["source/tests/TestLinearAlgebra.cpp: execute", "source/algebra_utils/AlgebraUtils.h: generateRandomVector, differenceNorm", "source/dirac_operators/SquareComplementBlockDiracWilsonOperator.cpp: multiply"]}
{"id": "C98", "title": "Construction of the multigrid basis", "statement": "For all random vectors, operators and preconditioners the construction (and the update) of the multigrid basis stays inside the arrays of its solver and gives the number of vectors asked for, orthonormal in every block, so that the multigrid solver converges with it for small hopping parameters; none of the two solutions for a basis vector makes it worse.", "quantifier": "all lattices, colours, links, operators, preconditioners, precisions, numbers of steps, random vectors, previous bases", "why_tests_cant": "The basis comes from random vectors; a test sees one of them, and a division by zero leaves a basis of NaNs that only shows as a solver which does not converge.", "anchors": ["source/multigrid/MultiGridSolver.cpp: initializeBasis, updateBasis", "source/multigrid/BlockBasis.cpp: orthogonalize", "source/inverters/GMRESR.cpp: solve"]}
