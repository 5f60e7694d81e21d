# Formal model of LeonardYM: design

The source is read as text from `/repo` (pinned commit). Nothing is compiled or run. The model is
hand-written Lean 4 under `/verif/lean/Verif`; the only tie to the C++ is the reading of it, so each
definition cites file and lines and says where it simplifies.

## Trusted base

* Lean 4.33.0's kernel, and the Mathlib release installed in the sandbox (definitions used in
  statements: `Matrix`, `Complex`, `unitaryGroup`, `specialUnitaryGroup`, `MeasureTheory`,
  `Polynomial.Chebyshev`, `NormedSpace.exp`, `Finset` sums).
* Axioms: only `propext`, `Classical.choice`, `Quot.sound`. No axiom is added; no `sorry`,
  `native_decide`, `bv_decide`, `implemented_by`, `unsafe`.
* Faithfulness of the reading of the C++ (cited per definition).
* Modelling conventions common to all parts:
  * Floating point is idealised: `real_t`/`long_real_t` are ℝ (or a general field), `std::complex` is ℂ.
    Rounding, overflow, subnormals are not modelled. A division by zero (which yields inf/NaN in C++)
    is *not* totalised away: the model returns a distinct outcome (`none`, `nan`) wherever the
    property depends on it.
  * `int`/`unsigned` are ℕ/ℤ unless a property is about wrap-around.
  * OpenMP loops whose bodies write disjoint slots are modelled as "for every site"; where the claim is
    about schedules (C05, C08, C22) the schedule is a parameter of the model.
  * `exit(n)`, uncaught exceptions, out-of-range vector access, use of uninitialised memory are
    distinct outcomes, never silently replaced by a default.
  * Random numbers are inputs (arbitrary values of the generator), so theorems hold for every draw.
* Not modelled at all: MPI and OpenMP runtimes themselves, memory allocation and leaks, performance,
  Eigen/Armadillo/boost/XDR internals (their documented results are parameters), the ARPACK-like
  eigensolver, meson correlator sweeps, `RandomScalarUpdater`, `ScalarFermionHMCUpdater`, the gluon/ghost propagators.

## Per property: what is modelled and how it is proved

| id | model | proof method |
|----|-------|--------------|
| C01 | index arithmetic of `getGlobalCoordinate`, `globalIndex*` on ℕ | mixed-radix bijection, all extents |
| C02 | `modulus`, shift tables built at `initialize` | modular arithmetic; permutations with inverse |
| C03 | start-up checks and rank formula | division arithmetic; counting bijection rank × block ≃ site |
| C04 | chunk construction and `localIndex` numbering | list/filter induction over chunks |
| C05 | per-rank memories, message multiset, arbitrary delivery order | invariant over delivery steps |
| C06 | generic SPMD program (rule + halo update, iterated) | simulation relation to serial program, induction on iterations |
| C07 | stencil offset tables, sharing predicate | reach lemma for every offset used by code; counterexample for pairs not covered |
| C08 | sums over local slots per thread/rank | `Finset` partition sums |
| C09 | `LatticeSweep::call` and the `Simulation` loops as trace generators | induction on number of calls |
| C10, C11, C12 | tokenisers over `List Char` written after the code | round-trip by induction on strings; explicit error outcomes; negations where the code drops data |
| C13 | output streams as strings, `push/pop/write/print` | induction over a nesting tree; counterexample for the unbalanced updater path |
| C14 | file system as byte string with crash points | prefix invariant (txt); counterexample (xml) |
| C15 | file = list of records per writer rank; reader with its own layout | permutation/lookup argument on top of C04 |
| C16 | reader's status logic | case analysis; counterexamples where the code does not look at the status |
| C17 | reader counter automaton over an arbitrary readability predicate | induction on attempts |
| C18 | stored entries and reconstruction formulas | algebra on SU(2), SU(3) |
| C19–C21 | fields on an arbitrary finite lattice with commuting shift permutations, links in `Matrix (Fin N) (Fin N) ℂ` | trace cyclicity, reindexing sums; finite sums regrouping; `HasDerivAt` |
| C22 | colouring relation + update schedule | commutation of disjoint writes; permutation invariance of fold |
| C23–C26 | formulas of the update kernels | group membership algebra; exponential via `NormedSpace.exp` |
| C27, C28 | smearing and flow as maps on gauge fields | equivariance and independence of the time slices by induction on levels/steps; the flow step as a Runge–Kutta–Munthe-Kaas step in the algebra of all link fields: expansion to third order uniform on bounded sets, Lipschitz estimate, discrete Gronwall, Picard–Lindelöf plus compactness of SU(N) for existence |
| C29, C30 | trace formulas with general-N generators | completeness relation of the generators |
| C31 | boundary maps on fields | pointwise case analysis |
| C32–C35 | gamma tables as literal 4×4 matrices; kernels as unrolled componentwise code | entrywise identities for all spinors; adjoint via sum reindexing; Schur complement algebra |
| C36–C38 | solver loops as recursive functions with explicit failure outcomes | residual invariant by induction on steps; counterexamples for break-down paths; settings as state machine |
| C39, C40 | recursions as functions, operators as `Module.End` | identification with `Polynomial.Chebyshev.T`, `Polynomial.aeval` |
| C41–C43 | integrators as programs (lists of kick/drift), recursion over force levels | palindromic-word induction; the exponential of `MatrixToolkit.h` compared with that of C26; step-sum induction; `MeasurePreserving` composition |
| C44 | metropolis decision function, updater step | exact acceptance set; detailed balance via measure-preserving involution |
| C45 | loops filling the momentum matrix for every N | sum identities by induction on N |
| C46 | block sums with thread partial sums, block Gram–Schmidt | induction over basis index |
| C47 | gauge-fixing search as fold over random proposals | invariant |
| C48 | factory tables as functions String → outcome | case analysis, all strings |
| C49–C51 | see the entries of C49 (loops), C50 (colouring of links), C51 (two-flavour stationarity) in MANIFEST.json | bounds, counting, measure preservation |
| C52 | the lists of updates of C43 as products of exponentials in a non-commutative ring of derivations | formal power series with symmetric (time-reversible) structure; Taylor expansion of flows, uniform near a point; words of length three for the leading errors |
| C55 | fermion forces as sums of outer products over the stored links, energies through exact solvers | Fréchet derivative of an inverse of a symmetric operator family; trace identities for the hopping term; boundary factor per link; order of the integrator on the set of valid links |
| C56 | the scalar action as sums over sites, site energies and kinetic couplings separately, the two force functions | unitarity and the adjoint representation (C29); regrouping of neighbour sums; gradient of linear forms of the links (C55) |
| C57 | the loops of the updater as folds with one set of random numbers per hit | involution (shift, sign of the shift) preserves Lebesgue × normal measure; product measures along a list; commuting local updates |
| C58 | updater step on top of C43, C44 | measure-preserving palindromic integrator; order through the gradient property |
| C59 | measurement of one flow time and the loop over flow times on top of C28 | the clover field strength as a sum over signed pairs of directions, symmetries of the lattice as permutations of the signed directions; smoothness of the two measurements for the accuracy |
| C60 | the three sweeps as sums over sites of traces of path products | reversal and rotation of paths; completeness of the generators for the adjoint character |
| C61 | point sources, the contraction loops and the PCAC ratio of the meson sweep; the inverter is any function that solves the equation | spin structures of the loops as gamma tables, γ₅ symmetry of the Green function, translation of the operator; Cauchy–Schwarz per site |
| C62 | noise vectors, passes and means; averages over all sign assignments | second and fourth moments of independent signs, linear algebra on field components |
| C63 | the operators of C33 | norm of the hopping term direction by direction in ℓ², projector algebra, finite dimension for surjectivity |
| C64 | `generate_radius`, `generate_vector`, both `updateLink`, the loop over links of `PureGaugeUpdater` without MPI | change of variables (Box–Muller, polar coordinates, logarithm) for the radius, rejection sampling as a geometric series on an infinite product measure, uniqueness of the Haar measure of SU(2) through the unit ball of ℝ⁴, conditional distributions on a subgroup by invariance of the Haar measure, induction over the steps; null sets by translations |
| C65 | both `updateLink` and the loop over links of `PureGaugeOverrelaxation` without MPI | the reflection `V ↦ A V⁻¹ A` of one link keeps the Haar measure (Fubini over the other links, inversion invariance of a compact group), detailed balance of accept/reject with an involution, induction over the links |
| C66 | the branch for two colours of `HotStartGaugeConfiguration` and `ReUnit` | polar coordinates in two planes of ℝ⁴, scaling, change of variables `ξ = 1 - s²`; product measures |
| C67 | `PureGaugeWilsonLoops::execute`, `updateSlices`, `TwoLinkOperator`, `SpatialWilsonLoop::measure`, without MPI | updates of a slice read only the slice and links that no update changes, so each slice of a run is the slice of a run with any other number of subsweeps elsewhere; the average of products over slices expands into one such run per choice of a subsweep for every slice (multilinearity), each of which keeps the Boltzmann distribution (C64); Fubini |
| C68 | `ImprovedFermionForce::derivative`, `setLattice`, with the operator of C33 and the actions of C55 | the improved operator is affine in the field strengths, these are polynomials in the links; the derivative of a field strength along one link is four leaves per plane with the link in one of four places; translating the sum over sites moves the link to the place of the program's eight terms; then the general theorems of C55 |
| C69 | `SmearingForce::force`, `ridder`, `derivative`, `NFlavorFermionAction::updateForce` with smearing, `StoutSmearing`, `Environment::synchronize` with smearing | the seven families of smeared links of the program are exactly the links whose staples contain the link, each once, when all extents are at least three; chain rule for the smeared energy; the extrapolation of Ridder's method always returns a combination of central differences whose error is bounded by the third derivative; then the general theorems of C54 |
| C70 | `OverlapOperator::multiply`, `ExactOverlapOperator::multiply`, `OverlapFermionForce::derivative` | the polynomial of the squared Wilson operator as a product over its roots (C40); spectral theorem for the kernel, restricted to the complement of the given eigenvectors; the sums over the two arrays of vectors are the product rule for that product, the adjoint of the product being the one with conjugated roots; then the general theorems of C54 |
| C71 | `LandauGluonPropagator::execute` | the traces with the generators are the components in an orthonormal basis (C30), so the sums over colours are traces of the Fourier transformed field; summation by parts gives the divergence, whose size is the printed deviation (C47); orthogonality of the plane waves gives the sum rule |
| C72 | `LandauGhostPropagator` (matrix, solver, records) | the three matrices per link as quadratic form, the second derivative of the functional along `exp(itv)` by the product rule; second derivative test at a maximum; commutators with all generators vanish only for zero; invariant of the solver loop (residual = source - M x) |
| C73 | `OverlapChiralRotation` (both rotations, condensates of a source), `Propagator::constructPropagator` | one step is `1 + t γ5(1-D)` or `1 + t (1-D)γ5`; product formula for the exponential in a Banach algebra with an explicit error; telescoping sum over the steps for the invariance; the mass enters the generator as a factor |
| C74 | `DiracEigenSolver` (start, extension, restart with Eigen's Householder QR, finish, loop; the smallest eigenvalues) | invariant of the factorisation (orthonormal vectors, Hessenberg matrix, residual) through extension and through each shifted QR step; kept block has exactly the wanted Ritz values as characteristic polynomial; Ritz values bounded by eigenvalues of the operator through a dimension argument |
| C75 | `NPRVertex::execute` (propagator and vertex functions of a momentum) | the solutions are the Green function times the plane waves; γ5-hermiticity turns the conjugated leg into the other leg; the Green function as resolvent in `1/(2κ)`, whose derivative is minus its square; translation invariance and γ5-hermiticity for constant links |
| C76 | `SingletOperators::execute`, `HoppingOperator::apply`, gamma operators | all maps have matrices on components; moments of random signs (C62); telescoping identity for the inverse; conjugation with the parity sign; the bound of C63 on the hopping part |
| C77 | `XSpaceCorrelators::execute` (points, exact connected and disconnected parts) | the Green function and the moments of the noise; witnesses on the lattice with one site, in two gauges |
| C78 | `GluinoGlue::execute`, `cloverPlaquette`, `StochasticEstimator::smearSource` | linearity: the sums over the sources give one source per spin; gauge covariance of every step with the adjoint rotation of the transformation (C30); loop over the source times by induction |
| C79 | `randomSeed` and its two tables | the offsets of 534 ranks are pairwise different (checked over the whole table); the rest is integer arithmetic modulo 2^32 |
| C80 | `PolyakovLoopEigenvalues::execute` | eigenvalues as roots of the characteristic polynomial; bins partition the phases; conjugation and cyclic invariance of the polynomial |
| C81 | `MeanScalarField::execute` | exchange of the sums over processes and sites; unitarity of the representations |
| C82 | `MultiGridMEMultishiftSolver::solve` on the model of `MultiGridSolver::solve` | residuals of the two twisted factors; induction over the shifts with the step limit as state |
| C83 | `BlockImprovedDiracWilsonOperator::multiply`, `multiplyAdd` | equality with a block specification built from the full operator; the block hopping uses links that vanish outside |
| C84 | `testForce`, `genericTestForce` | exponentials of the generators in closed form; limit of symmetric difference quotients |
| C85 | `MultiStepNFlavorUpdater` (options, `checkTheory`, `execute`), `RationalApproximation::evaluate` | spectral calculus for Hermitian matrices; Metropolis step with two different energies is off by a bounded factor; Gaussian integrals over the pseudofermions; induction over sweeps |
| C86 | `ScalarFermionHMCUpdater::execute` | the theorem behind C85 with other forces; gradients of the forces for the order |
| C87 | `BlockDiracWilsonFermionForce::derivative` | derivative of the bilinear form along a rotation of one link; the links of the block operator are zero outside the blocks |
| C88 | `MultiGridStochasticEstimator::getMultigridVectors`, `getResidualVectors` | both estimates are quadratic forms in the noise; cyclicity of the trace |
| C89 | `DiracEigenSolver` with `useChebyshev` on the models of C39 and C74 | the filter is Hermitian with the same eigenvectors; monotonicity of Chebyshev polynomials outside the interval; separation of eigenvalues |
| C90 | `TestCommunication::execute` for arbitrary neighbour tables | sums over the sites are reindexed by a step; a vector that lives on one site detects a step that is not onto; the coordinate test is compared with the modulus of integers |
| C91 | `RandomScalarUpdater::execute` on vectors of fields; the law of the fields as image of a product of normal laws | loop over the fields by induction; rotations preserve the law of independent normal numbers (Mathlib's standard Gaussian measure); unitary matrices as rotations of real and imaginary parts |
| C92 | `metropolis`, the trial and the exchange of the parallel tempering; law of the links the invariant measure, normal numbers at the sites | the trial with the numbers reversed is an involution that preserves the measure (the invariant measure of the compact group is invariant from both sides), so accept/reject keeps `exp(beta F)`; an exchange only mixes two states, whose weights are computed |
| C93 | `SAPPreconditioner::multiply`, `ComplementBlockDiracOperator::multiply`, `project`, order of the calls of `setBlockSize`; solver of the blocks = function with bounded residual | the block operator is the restriction of the full operator (C83), so residuals on the black sites agree; with exact solutions the error on a colour is bounded by the error on the other colour (bound of the hopping term, C63), induction over the steps |
| C94 | `ExactOverlapOperator::computeEigenvalues`, `checkEigenvalues`, `setKappa`, `setLattice`, start of `multiply`; eigenvalue solver = function of lattice, kappa and flag | invariant over call sequences; criterion for right pairs from hermiticity; connection to the Ginsparg–Wilson bound of C70; counterexample at `kappa = 0` |
| C95 | the cycle of `MultiGridSolver::solve` in the outer loop of C36, coarse space of C46, smoother of C93; coarse solver = function with a bound on its residual | residual of one cycle, then the best combination of the outer loop shortens the residual by a fixed factor |
| C96 | `XSpaceCorrelators::execute`, connected part from noise | fourth moments of random signs; witness on two sites with explicit Green function |
| C97 | `TestLinearAlgebra::execute`, `generateRandomVector`, `differenceNorm` | hermiticity and agreement of the operators (C33, C34, C70); a proper subspace has measure zero |
| C98 | `MultiGridSolver::initializeBasis`, `updateBasis` | GMRESR of C36 and the orthonormalisation of C46 put together; convergence from C95 |
| C54 | same lists | compactness of SU(N) and of balls of momenta, induction over steps |
| C53 | tables of registered and read option names, the configuration loader of C11 | invariant of the loader (the set of keys never changes), tables compared by the kernel |

Anything that turns out false of the code is stated at full strength, refuted with a concrete witness
(theorem name contains `counterexample`), and accompanied by the strongest `_partial` theorem found.

## Factories and options (C48, C53)

Modelled (`Verif/Factory`): `LatticeSweep::getInstance` and `printSweepsName`, `StartGaugeConfiguration`, `GaugeAction`, `Integrate`,
`MultishiftSolver`, `DiracOperator` (`getInstance`, `getSquare`, `getSquareRoot`, `setLattice`), `BlockDiracOperator::getInstance`, the choice of the
action in `WilsonFlow::execute`, the registration of options in `main.cpp` and in every `registerParameters`, `StorageParameters::get` up to
the conversion of the text.

Not modelled: printing; the settings of the eigenvalue solver of the exact overlap operator; that `getSquare` shares the overlap operator
with its argument; the class `EvenOddImprovedDiracWilsonOperator`, which no factory makes.

How the tables were made. The lists of registered names with defaults and of names read were extracted from the source by a script. A second,
separate search was compared with them: no registration is missing on either side, and the names read agree. The tables themselves are part of the
trusted base: Lean checks statements about them, not that they were copied correctly. The lists of names read contain the names on every path
through a file, so "finds every option it reads" is stronger than needed, and the two claims "always ends the program" do not use these lists
but the first statements of the two functions.

What the code gets wrong (each proved):
- The default of `warm_up_sweeps` contains `TestCommunications`; the sweep is called `TestCommunication`. The program stops with status 1.
- The default of `input_format_name` is `muester_format`; nothing is read and success is reported.
- The default of the overlap polynomial is the empty string; `front()` of an empty vector is undefined.
- `getSquareRoot` assigns the links without `setLattice`: the clover term of the result is never computed. It stops for overlap operators.
- The squared block operator ignores the colour.
- `MaximalAbelianGaugeFixing` registers `epsilon3` three times instead of `epsilon1`, `epsilon2`, `epsilon3`; for two colours it always ends the program.
  For other numbers of colours the preprocessor removes its body and it does nothing.
- `XSpaceCorrelators` reads `number_stochastic_estimators`, which is never registered; it always ends the program.
- `OverlapChiralRotation::t_source_origin` is never registered and cannot be set.
- More than 32 pseudofermions need options that are not registered.

## Order of the integrators (C52, C54)

Modelled (`Verif/Hmc/Model.lean`): the five integrators for any number of forces, as lists of updates. The order theorems use
`Verif/Order`: `Series` (formal part), `Flow` (expansions along flows), `Fields` (the updates are flows), `Smooth` (the gauge energies and forces
are smooth), `Props`, `Words` and `ErrorProps` (leading errors), `Steps` and `StepProps` (number of steps).

Simplified: real arithmetic is exact; the link update is the exponential through orthonormal eigenvectors. The constants are the decimal
numbers of the source. `C52_energy_partial` needs a total energy whose forces belong to it (`Conservative`); for the fermion forces of the code
this is a hypothesis, for the gauge actions it is proved.

What the code gets wrong:
- `OmelyanLeapFrog.cpp:12,75` has `0.19318332275037863`; the best constant is `0.1931833275037836` (one digit 2 too many). The effect on the error is
  below 1e-17 (both proved).
- `FourthOmelyanLeapFrog.cpp:12,88` has twelve digits of the first constant, so a term of third order remains with factors below 1e-12.
- `fourth_order` and `sixth_order` compose whole trajectories of `n` leapfrog steps rather than each step. They have their order in the length of the trajectory
  at fixed `n`; at fixed length only the second power of `1/n` is proved for them (C54). That nothing better holds has not been proved.

## Accuracy of the flow (C28)

Modelled: `WilsonFlow::integrate`, `getForce`, `exponential` (lines 90-173) in real arithmetic, for the Wilson and the Symanzik action of the program.
The specification `FlowEquation` states the differential equation entry by entry.  `C28_third_order` proves that a solution exists for every starting
configuration and time, stays in SU(N) and differs from the result with `n` steps by at most `C/n³`; `C28_smoothing` that the action falls with twice
the square of the force along the solution.  The eigensolver is assumed to return an orthonormal basis; rounding is not modelled.

## Forces of the fermions (C55)

Modelled (`Force/Model.lean`): `FermionForce::tensor`, `force` and `derivative`, `DiracWilsonFermionForce::derivative`,
`TwoFlavorFermionAction::updateForce/force/energy`, `NFlavorFermionAction::updateForce/energy` with the boundary signs, the choice of forces by
`MultiStepNFlavorUpdater::execute`, fundamental and adjoint builds.

Not modelled: stout smearing inside the force, the clover term, the solvers (they are functions that solve the equations exactly), rounding.

What the code gets wrong:

- `FermionForce::force` multiplies by the stored gauge links, while `derivative` uses the links seen by the fermions, which carry the sign of
  the boundary conditions. `NFlavorFermionAction` repairs the sign afterwards; `TwoFlavorFermionAction` does not. With antiperiodic boundary
  conditions its force has the wrong sign on the links that cross the boundary: `C55_two_flavor_counterexample`. The accept/reject step keeps
  the ensemble correct (C51), but the energy is not conserved.
- With three (four) numbers of steps and fewer than two (three) force levels the updater warns and reads past the end of the array of fermion
  actions: `C55_levels`.

## Scalar fields (C56–C58)

Modelled (`Scalar/Model.lean`): `ScalarAction` (kinetic couplings, site energies, energy, both forces), the sweep of `MetropolisScalarUpdater` with
one triple of random numbers per hit, `HiggsGaugeHMCUpdater::execute`.

Simplified: exact arithmetic; one lattice for all processes; the adjoint links are those of the conversion of the gauge links (C29). With open
boundary conditions the program converts them before it cuts the links, which is not modelled. Proposals and uniform numbers are drawn for every hit
even where the program does not draw them; as they are independent this does not change the distribution.

Not modelled: `RandomScalarUpdater`, `ScalarFermionHMCUpdater`, `MultiScalarAction`, the measurement of scalar fields.

What the code gets wrong:

- The neighbour terms have a plus sign and the mass term is `m/2 - 8`: without quartic coupling the energy is bounded below only for `m >= 24`
  on lattices with even extensions (`C56_mass_counterexample`, `C56_bounded_partial`), while the options call the number `m*m` with default 0.
- `lambda_8` multiplies the square of an expectation value that vanishes for every field (`C56_lambda8`).
- With one site in a direction the site energies are not those of the lattice (`C56_local_counterexample`).
- The options of the couplings of the Metropolis updater and the hybrid Monte Carlo updater have different names, so the two can be given different
  actions; the latter keeps the couplings of its first call.

## Measurements on gauge configurations (C59, C60)

Modelled (`Measure/Model.lean`): `WilsonFlow::execute` with its measurements, the two operators of `Glueball`, `PolyakovLoopCorrelator`,
`AdjointPolyakovLoop`. The loop over flow times is run for a given number of passes, so that a loop without end is an outcome.

Simplified: exact arithmetic, hence the accumulated flow time `t += step` has no rounding and the number of rows is exact; sums over threads and
processes are sums over the sites (C08). The smearing before the two loop measurements is that of C27 and is not repeated here: the theorems are
about the configuration which is measured.

Not modelled: the eigenvalues of the Polyakov loop, gauge fixed propagators, the file output of the rows (C13).

`LatticeSymmetry` is a permutation of the sites that moves neighbours to neighbours, with a permutation of the axes and a sign for each;
`boxSymmetry` constructs all reflections and exchanges of axes of equal extent, `translation` the translations.

What the code gets wrong:

- The energy correlator over time slices lacks the minus sign which the energy has (`C59_energy_correlator_counterexample`).
- A flow step of zero or below gives a loop without end (`C59_termination_counterexample`).
- The correlator of Polyakov loops is divided by `N`, not by `N` squared as its normalisation by the Polyakov loop would need, and the row with
  number 0 is the one of distance 1 (`C60_normalisation_counterexample`, `C60_distance_counterexample`).
- The spatial adjoint Polyakov loops are divided by the volume of a time slice instead of that of the slice summed over
  (`C60_adjoint_counterexample`).

## Fermion measurements (C61–C63)

Modelled (`Meson/Model.lean`): the connected and disconnected part of `MesonCorrelator::execute` (sources, rotation of the links for
`t_source_origin`, contraction loops, output), `Propagator::constructPropagator`, `StochasticEstimator::generateRandomNoise` and `mean`, and the loop of
`ChiralCondensate::execute`. The Dirac operators are those of C33.

Simplified: exact arithmetic; the inverter is any function whose result solves the equation (C37 is about the inverters); random bits are
independent and equally probable; sums over processes are sums over the sites.

Not modelled: smearing of sources, the overlap branch of `ChiralCondensate` (its propagator is modelled in `constructPropagator`), console output.

What the code gets wrong:

- What is written as `scalar_exact` is the correlator of γ₄, the time component of the vector current (`C61_scalar_counterexample`).
- The disconnected parts sum over four noise vectors without dividing by four (`C62_disconnected_counterexample`), and are written from `t = 1` on
  (`C62_disconnected`).
- Without passes the mean divides zero by zero (`C62_no_passes`).
- The flag by which a solver reports failure is ignored, so the output after a failed inversion is that of the last iterate.

## Heat bath (C64)

Modelled: `PureGaugeUpdater::generate_radius`, `generate_vector`, `updateLink` for two and for more colours (`Gauge/Updates.lean`) and the loop over
the links (`Heat/Model.lean`), in exact arithmetic. `none` stands for a division by zero and for a rejection loop that has not ended with the given
attempts; the theorems say that for almost all sequences of random numbers the model with `n` attempts gives the same result for all large `n`, which is
the result of the loop of the program.

Idealised: every step has its own infinite sequence of independent uniform real numbers in [0,1). The program takes them one after the other from one
generator, which has the same distribution when the numbers of the generator are independent and uniform. `log 0` cannot happen with positive
probability.

The specification is independent of the algorithm: integrals against the Haar measure of SU(2) (Mathlib's `Measure.haar`) with the density
`exp(β/N Re tr ...)`, and for the sweep the product of the Haar measures of the links with the density `exp(-S(U))`, `S` being the energy of the action.

Not modelled: MPI, where the interior sites are updated once for every process; rounding; the statistical quality of the generator.

## Overrelaxation and random start (C65, C66)

Modelled: `updateLink` of `PureGaugeOverrelaxation` for two and for more colours (`Gauge/Updates.lean`), the loop over the links
(`Heat/OverModel.lean`), the random start for two colours. For more colours the unitary factor computed by Eigen is a parameter: any measurable function
of the staple with unitary values. The specification is the same as for C64: the product of Haar measures with density `exp(-S(U))`.

Not modelled: the counters of accepted proposals (`++acceptance`, `++nsteps`), which all threads increment without synchronisation; MPI. The random start
of more than two colours is modelled only as far as C23 needs it: the distribution of the unitary factor of a Gaussian matrix depends on the sign
convention of the library and is not claimed to be the Haar measure.

## Multilevel measurement (C67)

Modelled: the rectangles of `SpatialWilsonLoop` and their average over even sites; the operators of pairs of lines with their index contractions; the lines
through the slices; which links `updateSlices` touches; the order measure, update, measure, ...; what is written for every distance. Not modelled: MPI, the
output file, warm-up sweeps before the first measurement (any start distribution that is Boltzmann is covered).

Gets wrong:
- The adjoint lines of the slices of the second loop are multiplied in the order of the first loop. For one and two slices the trace does not see it. For
  three and more the number is not gauge invariant and has the wrong mean (`C67_order_counterexample`; `C67_mean` states what is measured).
- `wilsonLineT` has `glob_y` entries where it is indexed by `z`: outside the bounds when the lattice is longer in direction 2 (`C67_bounds_counterexample`).
- `sliceSize` zero or no subsweeps divide by zero; a size that does not divide the extent only prints a warning (hypothesis `ext 1 = size * m`).
- With the improved action and slices of one site the slices interact; the theorem asks for at least two sites.

## Clover force (C68)

Modelled: the eight terms per plane with sign, site and the products of links to the right and the left, the spin matrices, the coefficient, the outer
products of the fields, the sum with the Wilson force. The specification is the clover operator of C33 (`improvedSpec`), whose field strength is defined
independently. The code is right: coefficient, sign, orientation and the cases in which leaves coincide (extents of one and two sites) all agree.
Not modelled: the alternative implementations `BasicImprovedDiracWilsonOperator`, `BlockImprovedDiracWilsonOperator`; smearing.

## Stout smeared fermion force (C69)

Modelled: the table of Ridder's method with the choice of the result with the smallest error estimate and the early exit; the numerical derivative of
`Re tr(D V)` for one smeared link `V`; the seven families of smeared links; the case distinction on the number of levels; the links the fermions see.
Idealised: the exponential of matrices is exact (C27 is about the one of the program). The specification of the smeared links is `stoutLinks`, of the energy
the one of C55 on these links.

Gets wrong:
- With two sites in a direction the smeared link above a link and the one below are the same link; it is counted twice (`C69_extent_counterexample`).
- Two and more levels of smearing are accepted (`Environment::synchronize` only warns), but the force ends the program with code 47
  (`C69_levels_counterexample`).
- The two flavour action computes its force without smearing on the smeared links (`C69_two_flavor_counterexample`).
- The error of the numerical derivative does not fall with the step of the integrator, so the reversibility and the order hold only up to it.

## Overlap fermions (C70)

Modelled: the evaluation of the polynomial (the model of C40) on the square of the Wilson operator, the final combination with the mass, the loop over the
given eigenvectors with the sign of the eigenvalue, the two arrays of vectors of the force and the sum over pairs of them. The specification of the sign is
`rootPoly`, the polynomial with the given roots and scaling. Not modelled: `DiracEigenSolver`, which computes the eigenvectors (they are an argument,
orthonormal and exact), and when they are recomputed.

Gets wrong:
- The operator multiplies by the absolute value of the scaling once per root and once by its sign; the force multiplies by the scaling itself once per root.
  With negative scaling and even degree the force has the opposite sign (`C70_scaling`, `C70_scaling_counterexample`). The best approximations of the inverse
  square root have positive scaling for even degree, so the usual input is not affected.
- The two flavour action calls the derivative with five arguments, which `OverlapFermionForce` inherits from the Wilson force
  (`C70_two_flavor_counterexample`).
- A polynomial without roots reads the first root of an empty vector (`C70_mass`, undefined behaviour).
- The operator with exact eigenvectors has the force of the polynomial alone: the change of the eigenvectors with the links is left out.

## Landau gauge propagators (C71, C72)

Modelled: the list of momenta with the cut, the phases with the half-site shift, the sums over the sites of the field times the generators, the two and
three point functions, the numbers of the records in their order, the matrices `A`, `B`, `C` of the ghost operator and its application, the source, the
whole BiCGStab loop with its exits, the number stored by each. `lieField` is the gluon field of C47. Not modelled: the accumulation over threads and
processes (C08), the text format of the records, `ghostPropagatorCG`, which `execute` does not call.

Gets wrong:
- The record of the gluon propagator ends with the third integer of the momentum twice: two momenta that differ in the fourth direction cannot be told
  apart (`C71_record_counterexample`).
- If the residual after half a step is annihilated by the operator, the ghost solver returns success without storing a result. Without gluons this
  happens for all momenta, so the free ghost propagator is reported as zero (`C72_free_counterexample`); for two colours the branch also writes a fourth
  component of vectors of three (`C72_two_colours_counterexample`).
- If the solver does not converge, the best number so far is written and not marked. Only the first colour is inverted.

## Chiral rotations (C73)

- Modelled: both rotations with their loops over steps, the propagator (C60's model) and the two numbers per source. The operator is either overlap
  operator (C70) with gamma5 switched off.
- Not modelled: the noise, the solver (its solution is an input; its success flag is ignored by the program and the number of steps it prints is always
  zero), smearing and the shift of the origin, processes.
- The rotations are applied with the massive operator. `γ5(1-D) = (1-m)γ5(1-D0)`, so the angle is `(1-m)` times the intended one (`C73_angle`);
  `C73_mass_counterexample` has a zero mode that is multiplied by `exp(iπ/4)` instead of `i` at mass one half. Setting the mass to zero for the rotations, as
  `constructPropagator` does, repairs it.

## Eigenvalue solver (C74)

- Modelled: the restarted Arnoldi process of `DiracEigenSolver` with both Gram-Schmidt passes, the shifts, Householder QR as Eigen computes it, the
  choice and the deviation of the pairs, the loop over restarts; `minimumEigenvalues` with the solver as a function; the operator of
  `minimumNonHermitianEigenvalues`. A vanishing norm (division by zero) is `none`.
- Assumed: the dense solver returns all eigenvalues of the Hessenberg matrix with normalised eigenvectors (`DenseSolver.Correct`, satisfiable by
  `exists_denseSolver`); where order matters, that it orders by modulus (`Ordered`), which is what Eigen's implementation does and its documentation
  does not promise. Exact arithmetic.
- Not modelled: the branch for Armadillo (which returns the eigenvalues of the inverse uninverted), the
  random start vector, output, zero requested eigenvalues (the program computes `steps - extra` and `n - 1` without a check).

Gets wrong:
- The last selection is by modulus of `7 ± D`, the one in the restarts by real part. They differ when `7 ± D` has large negative eigenvalues
  (`C74_order_counterexample`), so `hlow` of the theorems is needed.
- In exact arithmetic each eigenvalue is found once (`C74_orthonormal`, `C74_degenerate_counterexample`).
- After the last restart the result is returned unmarked; without extra vectors restarts change nothing (`C74_unconverged_counterexample`).
- `minimumNonHermitianEigenvalues` works with `γ5 Q⁻¹`, the inverse of the adjoint; the eigenvalues are right for pairs that come with their conjugates, the
  vectors lack a factor gamma5 (`C74_nonhermitian`, `C74_nonhermitian_counterexample`).

## Vertex functions and traces (C75, C76)

- Modelled: for one momentum the sources, solutions, propagator and vertex functions of `NPRVertex`; for one noise vector the numbers of `SingletOperators` with
  the inverse after any number of hoppings and without it. The solver is a function that is exact for the links at hand.
- Not modelled: the choice of momenta and numbers of sources from the configuration, output, the twisted boundary terms, solver errors.
- `HoppingOperator` applies `D - 1`, not `1 - D`: a user who sums the expansion has to alternate the signs (`C76_expansion` says how).

## Position space and gluino-glue (C77, C78)

- Modelled: the list of points, the inversion through the square of the operator with γ5, the exact connected and the disconnected part of `XSpaceCorrelators`;
  all of `GluinoGlue` with Jacobi smearing of the source and stout smearing of the links.
- The stochastic connected part of `XSpaceCorrelators` is C96, at the end. Not modelled: MPI halos in `GluinoGlue`, which are not updated before the smearing.

Gets wrong:
- The exact connected part contracts the rows of the last propagator where the columns belong: the number depends on the gauge
  (`C77_exact_counterexample`, 0 and 4 for the same physics, where 4 is right).
- The disconnected part sums `Γ` over both its indices with the diagonal of the propagator (`C77_disconnected_partial`); for γ3 and free quarks it is not zero
  (`C77_disconnected_counterexample`).
- Its mean has, beside the products of the means, the covariances of one noise vector over the number of vectors, because the same vectors serve for both sites
  (`C77_disconnected_mean_partial`); the points are at the distances named (`C77_shift`).
- Nineteen points, none on the third axis (`C77_points`).
- More sources than time slices: `GluinoGlue` never ends; a number that does not divide the extent gives additional sources (`C78_sources_counterexample`).

## Seeds, histogram, mean fields, multigrid shifts (C79-C82)

- Seeds: the clock, the shared random number, the rank and the call counter are inputs. Not modelled: the state expansion of the Mersenne twister, only
  its seed word. Wrong in the code: ranks 294 and 534 share all generators (`C79_processes_counterexample`); so do 505 and 508 if they read the clock in
  successive seconds (`C79_clock_counterexample`).
- Histogram: exact eigenvalues. Wrong: the array for threads is sized with `omp_get_num_threads()` outside a parallel region, which is one
  (`C80_threads_counterexample`).
- Mean fields: sums over processes are explicit. Wrong: the fundamental fields are not summed over the processes (`C81_fundamental_counterexample`).
- Multigrid shifts: the multigrid cycle is an arbitrary function of twist and step; NaN is `none`. Wrong: success is always reported, the step limit shrinks
  with every inner solve that converges (`C82_limit`), a perfect preconditioner gives a wrong first solution (`C82_flag_counterexample`); from the third further shift on
  the first guess is memory that was never written, which the theorem tolerates.

## Block clover operator, force test, rational hybrid Monte Carlo (C83-C86)

- Block clover operator: real arithmetic, one process; `getForce` returns a null pointer and is not modelled. Wrong: `multiplyAdd` (`C83_add_counterexample`).
- Force test: only the two printed numbers are modelled, as functions of epsilon. Wrong: only one entry is looked at from three colours on (`C84_generic_counterexample`).
- Rational hybrid Monte Carlo: the multishift solver is exact (its precision is the subject of C37 and C82), components of the fields are labelled by a finite type,
  the matrix is any Hermitian matrix that depends measurably on the links. The force is any measurable field with values in the Lie algebra: the code builds the operator of the
  force from the name option of the accept/reject step, which by C85 does not matter for the distribution. Wrong: the test of the theory looks at one number
  (`C85_check_counterexample`, `C85_twist_counterexample`).
- Fermions and scalars: wrong for a single number of steps (`C86_single_counterexample`).

## Block force, split traces, accelerated eigenvalues, tolerance of the solver (C87-C89, C51)

- Block force: the model is the test of the coordinate in front of the derivative of C55. Block sizes are positive (the program divides by them).
  Wrong on the first links of the blocks and on links that are not inside a block (`C87_first_link_counterexample`, `C87_outside_counterexample`).
- Split traces: notation and assumptions of C46; the solvers are exact (`SolvesBoth`).
- Accelerated eigenvalues: `chebOp` of C39 in place of the operator, also on the random vector of the start. The mode has no effect in this case; `Eigenvalues.cpp` uses the
  acceleration only with the mode LR, which then means the smallest eigenvalues. For even orders the wanted eigenvalues are removed first (`C89_order`); nothing checks the order.
- `C51_tolerance`: the energy of the pseudofermion before and after the trajectory is computed with a solver whose squared residual is at most `δ`; the bound on the bias follows from
  the theorem on two energies behind C85. Measurability of the solver is assumed.

## Communication test, random scalar fields (C90, C91)

- Communication test: `up` and `down` are arbitrary functions, so the theorems speak of wrong tables as well. That the right tables and halos are those of the
  torus is C02, C05 and C06. The three coordinate tests (reduced vector, extended vector, copy) are one model function. The test compares only the coordinate in
  the direction of the step, and the energies do not change under any shift that commutes with the tables, so skewed tables pass (`C90_skewed_counterexample`).
- Random scalar fields: vectors as lists, `resize` keeps the first fields. The numbers are independent whatever thread draws them.

## Parallel tempering (C92)

- `C92_exchanges` ties the exchange of the spec to the step of C47. Copies are accepted with `min(1, exp(beta (F_new - F_old)))`, so the weight is `exp(beta F)`. The exchange of
  copies with `beta`, `beta'` is accepted with `min(1, exp((beta - beta')(F - F')))`, where the weight requires `exp((beta - beta')(F' - F))`: whenever the inverse temperatures and
  the functionals differ the weight is not kept (`C92_exchange_counterexample`); a pair in the right order is exchanged with certainty (`C92_direction_counterexample`). The search is
  still a search among gauge transforms (C47), only less efficient.
- Cut at -50: a change with `beta (F_new - F_old) < -50` is never accepted, the reverse always; the theorem on the trials assumes there are none (true for `8 beta N V <= 50`).

## Schwarz alternating procedure (C93)

- Modelled (`Verif/Sap`): the loops of the two `multiply`, the choice of the precision, `project`, the calls of `setBlockSize`. The operator and its blocks are those of C33 and C83, without gamma5
  and twist (the solver switches gamma5 off for the blocks). Not modelled: `updateHalo`. In `Sap/Props.lean` the solver of the blocks is any function of the source, with `SolvesWithin`
  bounding its residual for every source; `Sap/Gmres.lean` (below) puts GMRESR in its place.
- `C93_black` holds for every `kappa` and link field; the residual on the red sites is not controlled by it. `C93_rate` and `C93_convergence` need `|kappa| (8 + 6 |csw|)` below 1 and `1/sqrt 2`;
  `C93_blocks_solvable` shows that then the blocks can be solved. At larger `kappa` the procedure need not converge, which a preconditioner is allowed.
- `Verif/Sap/Gmres.lean` puts in the model of GMRESR (C36) for the solver of the blocks: `C93_block_solver` (from the new `C36_gmres_rate` in `Verif/Solver/Rate.lean`, which covers restarts
  and preconditioners that change from step to step), `C93_run`.
- Finding (`C93_source_counterexample`): a source which vanishes on the red blocks is the exact solution of the red system (Wilson operator), GMRESR starts from it and divides zero by zero;
  the preconditioner returns NaN. In the multigrid solver the source of the preconditioner is a residual after the coarse correction, which hides this for generic bases.
- Finding (`C93_block_size_counterexample`): `sap_block_size` has no effect in `NPRVertex` and `MultiStepNFlavorUpdater`; `MultiGridSolver::initializeBasis` sets the block size of the multigrid on
  the same two operators afterwards.

## Eigenvectors of the exact overlap operator (C94)

- `Verif/Exactov/Model.lean` models the cache: the flag `recomputeEigenvalues`, the test of the kept pairs, the computation of new ones, the setters and the first lines of `multiply`. The eigenvalue
  solver is an arbitrary function of lattice, kappa and gamma5 flag. Copies of the operator, `setNumberOfEigenvalues` after the first use (it does not set the flag, but is called only after
  construction) and the null solver of the constructor with arguments are left out.
- When the kept pairs pass the test the flag stays set, so that the test is repeated at every multiplication: costly, not wrong. This is part of the model, since `C94_current` must hold after it.
- `C94_square` is an equivalence. `C94_degenerate_counterexample` refutes the sentence that every eigenvector of the square gives a right pair: the deviation is printed for new pairs
  (`ExactOverlapOperator.cpp:128-140`) but not compared with anything. By `C94_test` the comparison made for kept pairs would detect it.
- `C94_ginsparg_wilson_partial` assumes exact eigenvectors of the square; the effect of the tolerance of the solver on the operator is not bounded.

## Convergence of the multigrid solver (C95)

- Modelled (`Verif/Mgsolve`): the cycle of `MultiGridSolver::solve` (restriction, coarse solver, prolongation, smoother), put into the model of the outer loop of C36 (`mgSolve`, truncated
  orthogonalisation over 15 vectors) together with the coarse space of C46 and the smoother of C93. The coarse solver is a function with a bound on its residual (`CoarseWithin`),
  possibly another one in every step; the solvers in the blocks of the smoother are exact.
- Proved: `C95_cycle` (any operator near the identity, any smoother with bounded residual), `C95_coarse_solvable` (exact coarse solutions exist), `C95_convergence` (the program's operators).
  The bound holds for every orthonormal block basis, so it cannot use that the basis is good; a good basis only makes it better. It needs `|kappa| (8 + 6 |csw|) < 1`.
- Not covered: NaN from the block solver at an exact start (C93), start at the exact solution (C36), `maxSteps` lowered by the first solution (C36).

## Connected correlators from noise (C96)

- Modelled (`Verif/Xspace/Noisy.lean`): the numbers written under `meson_correlator_v`, one for each noise vector (`XSpaceCorrelators.cpp:148-270`), with the sum over spin and colour indices as
  it stands there. Terms skipped because a matrix element is zero are kept.
- The claim, that their mean is the connected correlator, is false: with one noise vector for both propagators the pairing of the noise at a site with the solution at the same site
  survives, and the mean is the connected plus the disconnected correlator (`C96_mean_partial`). `C96_mean_counterexample`: free quarks on two sites, `N/8` expected, `N/8 + 9N^2/2` found.
- The starting point (distance zero, or a multiple of the extent) is left out of `C96_mean_partial`: there four of the signs can coincide. The program ends before it gets there when
  the option of C53 is missing; the theorems are about the function as written.

## Self test of the linear algebra (C97)

- Modelled (`Verif/Linalg`): the nine numbers printed for the operators of Wilson type and the two for the overlap operators, the random vectors as functions of independent uniform numbers, the squared difference.
  Not modelled: rounding errors, and the eigenvalue solver of the exact overlap operator (its vectors are an argument; see C94).
- `C97_silent` holds for every vector, not only almost every one; `C97_solvable` shows that the inverter it needs exists for unitary links.
- `C97_hermitian`, `C97_difference` speak about any linear operator in place of the program's: the number is zero only for vectors in a set of measure zero. For the hermiticity this is said
  with one vector after the other: for almost every first one, for almost every second one.
- Refuted: wrong multiply-and-add operations are found. The factor in the test is zero (`TestLinearAlgebra.cpp:133-134,143`), so one which forgets the second vector passes
  (`C97_add_counterexample`). The mistake of the block operator (`C33_block_counterexample`) is not seen either: its multiply-and-add is not called.
- `C97_overlap_found`: roots which make the polynomial complex at one eigenvalue are found with probability one. An empty option, or one with the scaling only, is undefined
  behaviour (`C97_overlap_counterexample`; the code catches only a missing option).

## Construction of the multigrid basis (C98)

- Modelled (`Verif/Mgsetup`): the two solutions with GMRESR for every basis vector, the normalisation of the random vector, the orthonormalisation; a vector with NaNs makes the whole basis `none`.
  Not modelled: the printed deficits; the arrays kept by GMRESR between the calls are zero (they have no influence, C38).
- `C98_convergence` is C95 without a hypothesis on the basis.
- Refuted: that the basis can always be constructed. The first solution is that of the homogeneous system. If the preconditioner is exact, as for `κ = 0`, its result is zero; the second
  solution is zero as well and the orthonormalisation divides by zero (`C98_heavy_counterexample`).
