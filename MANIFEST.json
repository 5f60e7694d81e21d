{
 "claims": [
  {
   "property": "C01",
   "status": "proved",
   "theorems": [
    "Leonard.C01_site_number_bijective",
    "Leonard.C01_coordinate_queries",
    "Leonard.C01_mpi_agrees",
    "Leonard.C01_wrap_counterexample",
    "Leonard.C01_index_no_overflow"
   ],
   "note": "Numbering of the single-process layout; the MPI layout agrees with it up to one lattice length outside the lattice. Beyond that the single-process wrap is wrong (counterexample); no caller goes that far through the neighbour tables."
  },
  {
   "property": "C02",
   "status": "proved",
   "theorems": [
    "Leonard.C02_step_changes_one_coordinate",
    "Leonard.C02_steps_invert_and_commute",
    "Leonard.C02_step_is_permutation"
   ],
   "note": ""
  },
  {
   "property": "C03",
   "status": "proved",
   "theorems": [
    "Leonard.C03_start_up_decision",
    "Leonard.C03_partition"
   ],
   "note": "Extents and grid are unsigned options; the extents are assumed positive."
  },
  {
   "property": "C04",
   "status": "proved",
   "theorems": [
    "Leonard.C04_slots"
   ],
   "note": "For every stencil; the two exit(7) consistency checks are shown unreachable."
  },
  {
   "property": "C05",
   "status": "partial",
   "theorems": [
    "Leonard.C05_halo_update_partial",
    "Leonard.C05_tags_counterexample"
   ],
   "note": "Proved for any message tags the ranks agree on and any data movement order. The program's own tag computation reads out of range on some grids (counterexample), so for those runs the tags are undefined."
  },
  {
   "property": "C06",
   "status": "partial",
   "theorems": [
    "Leonard.C06_distributed_equals_serial_partial"
   ],
   "note": "Same restriction as C05: tags agreed by all ranks."
  },
  {
   "property": "C07",
   "status": "partial",
   "theorems": [
    "Leonard.C07_paths",
    "Leonard.C07_single_steps",
    "Leonard.C07_two_steps",
    "Leonard.C07_down_down_partial",
    "Leonard.C07_down_down_counterexample"
   ],
   "note": "The clover path 'down, down' on extended fields needs two local sites in one of the directions; counterexample with one site per process."
  },
  {
   "property": "C08",
   "status": "proved",
   "theorems": [
    "Leonard.C08_sum_independent"
   ],
   "note": "Exact arithmetic (commutative monoid)."
  },
  {
   "property": "C09",
   "status": "proved",
   "theorems": [
    "Leonard.C09_schedule",
    "Leonard.C09_count",
    "Leonard.C09_zero_period_counterexample"
   ],
   "note": "Periods of at least one, as in the statement; a period of zero is accepted by the reader and divides by zero (counterexample)."
  },
  {
   "property": "C10",
   "status": "partial",
   "theorems": [
    "Leonard.C10_round_trip",
    "Leonard.C10_rejection",
    "Leonard.C10_too_few_fields_partial",
    "Leonard.C10_list",
    "Leonard.C10_extra_fields_counterexample",
    "Leonard.C10_default_warm_up_counterexample"
   ],
   "note": "Declarations with too few fields are rejected; declarations with more than three fields are accepted and the rest ignored (counterexample)."
  },
  {
   "property": "C11",
   "status": "partial",
   "theorems": [
    "Leonard.C11_line",
    "Leonard.C11_blanks",
    "Leonard.C11_too_many_words_partial",
    "Leonard.C11_file",
    "Leonard.C11_blank_separated_counterexample",
    "Leonard.C11_indented_comment_counterexample"
   ],
   "note": "Words separated only by blanks are glued together, and only a # in the first column is a comment (counterexamples)."
  },
  {
   "property": "C12",
   "status": "partial",
   "theorems": [
    "Leonard.C12_list",
    "Leonard.C12_unsigned",
    "Leonard.C12_pairs",
    "Leonard.C12_empty_list_counterexample",
    "Leonard.C12_unterminated_counterexample",
    "Leonard.C12_pairs_in_config_counterexample"
   ],
   "note": "Non-empty lists. The empty list is read as one empty element; lists of pairs cannot be written in a configuration file at all (counterexamples). Conversion of decimal text to floating point is the C++ library's."
  },
  {
   "property": "C13",
   "status": "partial",
   "theorems": [
    "Leonard.C13_txt_partial",
    "Leonard.C13_separators_partial",
    "Leonard.C13_counterexample_separator",
    "Leonard.C13_xml",
    "Leonard.C13_close_unopened",
    "Leonard.C13_nested_completes",
    "Leonard.C13_updaters_balanced_partial",
    "Leonard.C13_txt_outer_brace_counterexample",
    "Leonard.C13_surplus_close_counterexample",
    "Leonard.C13_multistep_counterexample",
    "Leonard.C13_rotation_counterexample",
    "Leonard.C13_unsupported_format_counterexample"
   ],
   "note": "XML files are well formed. Text files hold exactly the calls made with commas between consecutive values unless a list directly follows an entry, but the outermost brace is never closed; closing too often is not detected; the N-flavour updater and the overlap chiral rotation leave lists open (counterexamples)."
  },
  {
   "property": "C14",
   "status": "partial",
   "theorems": [
    "Leonard.C14_txt",
    "Leonard.C14_txt_records",
    "Leonard.C14_xml_partial",
    "Leonard.C14_xml_counterexample"
   ],
   "note": "Proved for text files at every crash point. For XML files a crash while an existing file is rewritten loses everything (counterexample)."
  },
  {
   "property": "C15",
   "status": "proved",
   "theorems": [
    "Leonard.C15_any_grid"
   ],
   "note": "For all lattices with extents in the range of int, all pairs of process grids and stencils. The text form of the descriptor's integers is not modelled."
  },
  {
   "property": "C16",
   "status": "partial",
   "theorems": [
    "Leonard.C16_leonard_partial",
    "Leonard.C16_muenster3_partial",
    "Leonard.C16_muenster2_partial",
    "Leonard.C16_truncated_counterexample",
    "Leonard.C16_missing_descriptor_counterexample",
    "Leonard.C16_unknown_format_counterexample",
    "Leonard.C16_muenster_other_ranks_counterexample",
    "Leonard.C16_muenster2_hangs_counterexample"
   ],
   "note": "Another lattice and missing rank files are reported on every rank. Truncation is not noticed by the leonard reader, is seen only by the output process in the three-colour compact format and makes the output process loop for ever in the two-colour one (counterexamples)."
  },
  {
   "property": "C17",
   "status": "proved",
   "theorems": [
    "Leonard.C17_next",
    "Leonard.C17_sequence",
    "Leonard.C17_last_attempt"
   ],
   "note": "The program stops after 99 consecutive unreadable numbers; the hundredth attempt ends the program even if it succeeds (C17_last_attempt)."
  },
  {
   "property": "C18",
   "status": "proved",
   "theorems": [
    "Leonard.C18_su2",
    "Leonard.C18_su3"
   ],
   "note": "Exact arithmetic; rounding to single precision is not modelled."
  },
  {
   "property": "C19",
   "status": "proved",
   "theorems": [
    "Leonard.C19_gauge_invariance"
   ],
   "note": "On every periodic lattice, for plaquettes, both energies, Wilson and Polyakov loops. Single-process view; C06 and C08 relate it to distributed runs."
  },
  {
   "property": "C20",
   "status": "proved",
   "theorems": [
    "Leonard.C20_wilson",
    "Leonard.C20_improved"
   ],
   "note": "Extents at least 2 (Wilson) and 3 (improved)."
  },
  {
   "property": "C21",
   "status": "proved",
   "theorems": [
    "Leonard.C21_lie_algebra",
    "Leonard.C21_wilson_derivative",
    "Leonard.C21_improved_derivative",
    "Leonard.C21_wilson_conserves",
    "Leonard.C21_improved_conserves"
   ],
   "note": "Both actions, on every lattice; the normalisation is that kinetic plus gauge energy is stationary along the equations of motion."
  },
  {
   "property": "C49",
   "status": "partial",
   "theorems": [
    "Leonard.C49_bounded",
    "Leonard.C49_unit",
    "Leonard.C49_polyakov_unit_value",
    "Leonard.C49_polyakov_unit_partial",
    "Leonard.C49_polyakov_bounded_partial",
    "Leonard.C49_polyakov_counterexample"
   ],
   "note": "Polyakov loops are divided by the spatial volume in every direction, so space-like ones are not normalised unless that extent equals the time extent (counterexample)."
  },
  {
   "property": "C22",
   "status": "proved",
   "theorems": [
    "Leonard.C22_parallel_update",
    "Leonard.C22_sweep"
   ],
   "note": "The colouring built by Checkerboard on one process, for every periodic lattice: updating one colour class simultaneously equals updating its links one after another in any order, and the whole sweep is a sequential sweep."
  },
  {
   "property": "C50",
   "status": "partial",
   "theorems": [
    "Leonard.C50_sweep_covers_partial",
    "Leonard.C50_counterexample_narrow"
   ],
   "note": "Proved when every extent is larger than 2, on one process. On a lattice one site wide the colours run away and the links are never updated (counterexample)."
  },
  {
   "property": "C23",
   "status": "partial",
   "theorems": [
    "Leonard.C23_heatbath_two_colours_partial",
    "Leonard.C23_heatbath_more_colours_partial",
    "Leonard.C23_heatbath_defined_partial",
    "Leonard.C23_counterexample_zero_staple",
    "Leonard.C23_overrelaxation",
    "Leonard.C23_start",
    "Leonard.C23_md_step"
   ],
   "note": "Every link that the updates produce is in the group. The heat bath divides by zero when the staple (or the effective staple of a subgroup) vanishes (counterexample). QR factors and eigenvectors come from the linear algebra library and are assumed unitary."
  },
  {
   "property": "C24",
   "status": "partial",
   "theorems": [
    "Leonard.C24_two_colours",
    "Leonard.C24_two_colours_sweep",
    "Leonard.C24_more_colours_partial",
    "Leonard.C24_counterexample"
   ],
   "note": "Proved for two colours. For more colours the step is a Metropolis step on a proposal that undoes itself, and changes the energy (counterexample)."
  },
  {
   "property": "C25",
   "status": "partial",
   "theorems": [
    "Leonard.C25_two_colours_fixes",
    "Leonard.C25_two_colours_group",
    "Leonard.C25_more_colours_fixes_partial",
    "Leonard.C25_unitary_partial",
    "Leonard.C25_determinant_partial",
    "Leonard.C25_counterexample"
   ],
   "note": "For more than two colours rows are divided by their squared norm, so c times a group element comes back divided by c (counterexample); group elements are left as they are, unitary links with a wrong phase come back in SU(N) and the determinant of any result is real and not negative."
  },
  {
   "property": "C26",
   "status": "partial",
   "theorems": [
    "Leonard.C26_two_colours_partial",
    "Leonard.C26_three_colours_partial",
    "Leonard.C26_more_colours",
    "Leonard.C26_group_partial",
    "Leonard.C26_group_three_partial",
    "Leonard.C26_counterexample_zero"
   ],
   "note": "Exact away from zero (three colours: exact, or within 1e-17 per entry where the series for sin(w)/w is used). At zero the formulas for two and three colours divide zero by zero (counterexample)."
  },
  {
   "property": "C27",
   "status": "partial",
   "theorems": [
    "Leonard.C27_covariant",
    "Leonard.C27_exponentials",
    "Leonard.C27_group_partial",
    "Leonard.C27_spatial_time_links",
    "Leonard.C27_spatial_slices",
    "Leonard.C27_counterexample_cold"
   ],
   "note": "Covariance for all levels, weights and colours; group membership whenever smearing gives a result (three colours: within 1e-17). Smearing in space changes no time link and mixes no time slices. On the cold configuration smearing gives no numbers (counterexample)."
  },
  {
   "property": "C28",
   "status": "proved",
   "theorems": [
    "Leonard.C28_covariant",
    "Leonard.C28_group",
    "Leonard.C28_third_order",
    "Leonard.C28_smoothing"
   ],
   "note": "For the Wilson and the Symanzik flow, every lattice, configuration, non-negative time and number of steps: covariance, group membership, existence of the exact flow for all times, error bounded by C/n^3 in every entry, and the action falls along the flow. Real arithmetic; the eigensolver is assumed to return an orthonormal basis."
  },
  {
   "property": "C29",
   "status": "proved",
   "theorems": [
    "Leonard.C29_representation",
    "Leonard.C29_two_colours",
    "Leonard.C29_three_colours"
   ],
   "note": "All unitary matrices and every number of colours: adjoint links act by conjugation, product/inverse/identity go to product/transpose/identity, real orthogonal. The 9 and 64 formulas written out for two and three colours equal the general one for every matrix."
  },
  {
   "property": "C30",
   "status": "proved",
   "theorems": [
    "Leonard.C30_number",
    "Leonard.C30_generators",
    "Leonard.C30_complete",
    "Leonard.C30_hermitian",
    "Leonard.C30_special",
    "Leonard.C30_adjoint",
    "Leonard.C30_adjoint_two"
   ],
   "note": "Every number of colours; the lists written out for 2 and 3 colours equal the general construction, so do the adjoint generators written out for two colours."
  },
  {
   "property": "C31",
   "status": "partial",
   "theorems": [
    "Leonard.C31_antiperiodic",
    "Leonard.C31_twice",
    "Leonard.C31_open_partial",
    "Leonard.C31_open_counterexample",
    "Leonard.C31_copies",
    "Leonard.C31_path_sign",
    "Leonard.C31_polyakov",
    "Leonard.C31_plaquette",
    "Leonard.C31_rebuild_partial",
    "Leonard.C31_rebuild_open",
    "Leonard.C31_rebuild_counterexample",
    "Leonard.C31_full_counterexample",
    "Leonard.C31_same_bc",
    "Leonard.C31_adjoint_links"
   ],
   "note": "Antiperiodic boundary conditions: exact links, involution, sign of every path, plaquettes and Polyakov loop, copies on other processes. Open boundary conditions switch off all links touching the last time slice, not only those leaving it, and rebuilding with open boundary conditions changes the gauge field (counterexamples); fermion_full_antiperiodic is not honoured when rebuilding (counterexample)."
  },
  {
   "property": "C32",
   "status": "proved",
   "theorems": [
    "Leonard.C32_clifford",
    "Leonard.C32_gamma5",
    "Leonard.C32_derived",
    "Leonard.C32_chroma",
    "Leonard.C32_basis",
    "Leonard.C32_independent",
    "Leonard.C32_colours"
   ],
   "note": "All tables transcribed entry by entry and checked completely; identities carried over to the complex matrices. The last tensor of the first sixteen element table is sigma_{32} instead of sigma_{23}."
  },
  {
   "property": "C33",
   "status": "partial",
   "theorems": [
    "Leonard.C33_wilson",
    "Leonard.C33_improved",
    "Leonard.C33_block",
    "Leonard.C33_add",
    "Leonard.C33_add_composed",
    "Leonard.C33_twist",
    "Leonard.C33_twist_flag_counterexample",
    "Leonard.C33_overlap_counterexample",
    "Leonard.C33_squareTwisted_counterexample",
    "Leonard.C33_squareTwisted_partial",
    "Leonard.C33_block_counterexample",
    "Leonard.C33_block_partial",
    "Leonard.C33_unimplemented_counterexample"
   ],
   "note": "Agreement of the optimised and basic kernels with the textbook operator (Wilson, clover, block restricted) for all fields; multiply-and-add law for Wilson, basic, improved, exact overlap, square and twisted. It fails for overlap without gamma5, squared twisted, block, complement, SAP (empty bodies) and even-odd (exits); each refuted."
  },
  {
   "property": "C34",
   "status": "proved",
   "theorems": [
    "Leonard.C34_dot",
    "Leonard.C34_hermitian",
    "Leonard.C34_adjoint",
    "Leonard.C34_square",
    "Leonard.C34_block",
    "Leonard.C34_twisted",
    "Leonard.C34_covariant",
    "Leonard.C34_dot_invariant"
   ],
   "note": "All lattices, all links (hermiticity needs no unitarity), all parameters; Wilson (both kernels), clover, block, twisted and squared operators."
  },
  {
   "property": "C35",
   "status": "partial",
   "theorems": [
    "Leonard.C35_parity",
    "Leonard.C35_parity_counterexample",
    "Leonard.C35_schur",
    "Leonard.C35_singular",
    "Leonard.C35_residual",
    "Leonard.C35_injective",
    "Leonard.C35_surjective",
    "Leonard.C35_solution",
    "Leonard.C35_gamma5_counterexample",
    "Leonard.C35_few_colours_counterexample",
    "Leonard.C35_many_colours_counterexample"
   ],
   "note": "Holds for three colour components, even extents and operators without gamma5: Schur complement, independence of the order of the in-place step, exact even sites, residual relation and exact solution. Fails for other numbers of colour components (factor 3 written out in the source), for odd extents, and the solver ignores the gamma5 flag of the operator it is given; each refuted."
  },
  {
   "property": "C36",
   "status": "partial",
   "theorems": [
    "Leonard.C36_cg",
    "Leonard.C36_cg_converges",
    "Leonard.C36_cg_clover",
    "Leonard.C36_bicg_partial",
    "Leonard.C36_bicg_shift_partial",
    "Leonard.C36_bicg_counterexample",
    "Leonard.C36_prec_partial",
    "Leonard.C36_prec_drift_counterexample",
    "Leonard.C36_gmres",
    "Leonard.C36_gmres_monotone",
    "Leonard.C36_gmres_converges",
    "Leonard.C36_gmres_rate",
    "Leonard.C36_mg_cg_partial",
    "Leonard.C36_mg_bicg_partial",
    "Leonard.C36_mg_cg_counterexample",
    "Leonard.C36_multigrid_partial",
    "Leonard.C36_multigrid_counterexample",
    "Leonard.C36_exact_start_counterexample"
   ],
   "note": "Proved for conjugate gradient and GMRESR: success means a small true residual (any linear operator, source, guess, limits); convergence within the dimension for Hermitian positive operators. The other solvers violate it in corner cases, each refuted: BiCGStab returns the source when t=0, the preconditioned recursion tracks a different residual, the coarse CG succeeds with no steps, the multigrid solver always reports success, and an exact initial vector makes solvers fail. The l-step BiCGStab overload (not called anywhere) is not modelled."
  },
  {
   "property": "C37",
   "status": "partial",
   "theorems": [
    "Leonard.C37_me_partial",
    "Leonard.C37_chrono_partial",
    "Leonard.C37_mmmr_partial",
    "Leonard.C37_me_converges",
    "Leonard.C37_mmmr_converges",
    "Leonard.C37_bounds",
    "Leonard.C37_no_steps_counterexample",
    "Leonard.C37_order_counterexample"
   ],
   "note": "Success implies that every shifted system is solved: extrapolation and chronological solvers for at least one step; minimal residual solver when the last shift is the smallest. Refuted without steps and for other orders of the shifts. Convergence proved; the multigrid variant is C82."
  },
  {
   "property": "C38",
   "status": "partial",
   "theorems": [
    "Leonard.C38_gmres_memory",
    "Leonard.C38_gmres_partial",
    "Leonard.C38_dimension_counterexample",
    "Leonard.C38_prec_partial",
    "Leonard.C38_prec_counterexample",
    "Leonard.C38_prec_fresh",
    "Leonard.C38_multigrid_partial",
    "Leonard.C38_multigrid_counterexample",
    "Leonard.C38_basis_partial",
    "Leonard.C38_basis_counterexample"
   ],
   "note": "Sequences of calls: GMRESR with dimensions up to the allocated 13, the even-odd preconditioned solver when settings change before the first solve only. Refuted: larger dimensions (out of bounds), later changes of the settings (ignored), multigrid solve overwrites its step limit, block basis dimension."
  },
  {
   "property": "C39",
   "status": "proved",
   "theorems": [
    "Leonard.C39_scalar",
    "Leonard.C39_filter",
    "Leonard.C39_operator",
    "Leonard.C39_eigenvector",
    "Leonard.C39_defined"
   ],
   "note": "The recursion of order n evaluates T_(n+1) at the rescaled argument (numbers and linear operators); at most one in absolute value exactly inside the interval; division by zero only for an interval of length zero."
  },
  {
   "property": "C40",
   "status": "partial",
   "theorems": [
    "Leonard.C40_poly_scalar",
    "Leonard.C40_poly",
    "Leonard.C40_poly_eigenvector",
    "Leonard.C40_poly_prec",
    "Leonard.C40_poly_empty",
    "Leonard.C40_rational_scalar",
    "Leonard.C40_rational",
    "Leonard.C40_rational_me",
    "Leonard.C40_flag_counterexample",
    "Leonard.C40_sizes_counterexample"
   ],
   "note": "Polynomials: exact, for every non-empty list of roots (an empty list is read outside its bounds). Partial fractions: error bound from the solver precision when the solver succeeds; the flag of the solver is ignored and lists of different lengths are read outside their bounds."
  },
  {
   "property": "C41",
   "status": "partial",
   "theorems": [
    "Leonard.C41_reversible_partial",
    "Leonard.C41_opposite_length",
    "Leonard.C41_group",
    "Leonard.C41_toolkit_exponential",
    "Leonard.C41_toolkit_counterexample",
    "Leonard.C41_eigenvectors_counterexample"
   ],
   "note": "All five integrators, any nesting, steps, length and forces, when the links are updated with orthonormal eigenvectors. Without library the link update is the exponential for momenta that are not small; refuted there for small momenta, and for eigenvectors that are not orthogonal."
  },
  {
   "property": "C43",
   "status": "partial",
   "theorems": [
    "Leonard.C43_lengths",
    "Leonard.C43_defined",
    "Leonard.C43_two_flavor_cost",
    "Leonard.C43_single_leapfrog",
    "Leonard.C43_single_counterexample"
   ],
   "note": "Links and every force advance by the requested length; defined exactly for enough non-zero step numbers. The variant of the Omelyan integrator for one force rounds its step to an integer (refuted)."
  },
  {
   "property": "C45",
   "status": "proved",
   "theorems": [
    "Leonard.C45_lie",
    "Leonard.C45_energy",
    "Leonard.C45_bijective"
   ],
   "note": "Every number of colours and all values drawn: the momentum is in the Lie algebra, its energy is half the sum of the squares, and every element of the Lie algebra comes from exactly one set of numbers."
  },
  {
   "property": "C42",
   "status": "partial",
   "theorems": [
    "Leonard.C42_volume_partial",
    "Leonard.C42_unique"
   ],
   "note": "All five integrators, any nesting, steps and length, measurable forces with values in the Lie algebra, every left invariant finite measure on SU(N) for each link. As for C41 the exponential is the one of orthonormal eigenvectors; the library does not promise them for degenerate eigenvalues."
  },
  {
   "property": "C44",
   "status": "proved",
   "theorems": [
    "Leonard.C44_probability",
    "Leonard.C44_value",
    "Leonard.C44_nan",
    "Leonard.C44_ranks",
    "Leonard.C44_stationary",
    "Leonard.C44_gauge_actions"
   ],
   "note": "Acceptance probability min(1,exp(-dH)), one decision for all processes, and the density exp(-S) with respect to the Haar measure is stationary for the whole pure gauge sweep (Wilson and improved action), for orthonormal eigenvectors in the link update as in C41."
  },
  {
   "property": "C51",
   "status": "partial",
   "theorems": [
    "Leonard.C51_two_flavor_partial",
    "Leonard.C51_tolerance"
   ],
   "note": "Invariance for an exact linear solver, and a bound on the bias of m sweeps for a solver with a given residual; invertible Dirac operator with measurable matrix elements, measurable forces in the Lie algebra. The reuse of the action object from an earlier call is not covered."
  },
  {
   "property": "C46",
   "status": "proved",
   "theorems": [
    "Leonard.C46_blocks",
    "Leonard.C46_lattice",
    "Leonard.C46_orthogonalize_defined",
    "Leonard.C46_orthogonalize",
    "Leonard.C46_orthogonalize_one",
    "Leonard.C46_adjoint",
    "Leonard.C46_coarse_identity",
    "Leonard.C46_projection",
    "Leonard.C46_operator",
    "Leonard.C46_shift",
    "Leonard.C46_multigrid"
   ],
   "note": "Exact arithmetic over the complex numbers. The block layout is a partition of the sites, the block Gram-Schmidt yields vectors orthonormal on every block, restriction is the adjoint and a left inverse of prolongation, prolongation after restriction is the orthogonal projection, and the coarse operator is restriction times operator times prolongation, for any number of threads. The layout's basis dimension is the number of basis vectors; the case where the two differ is the counterexample listed under C38."
  },
  {
   "property": "C47",
   "status": "partial",
   "theorems": [
    "Leonard.C47_landau",
    "Leonard.C47_landau_partial",
    "Leonard.C47_landau_counterexample",
    "Leonard.C47_copies_partial",
    "Leonard.C47_copies_counterexample",
    "Leonard.C47_defined",
    "Leonard.C47_steps_counterexample",
    "Leonard.C47_deviation",
    "Leonard.C47_abelian",
    "Leonard.C47_abelian_sites",
    "Leonard.C47_epsilon_partial",
    "Leonard.C47_epsilon_counterexample",
    "Leonard.C47_projection_counterexample"
   ],
   "note": "Landau gauge with two colours and maximal abelian gauge: the result is a special unitary gauge transform of the input and the functional does not decrease; the deviation vanishes exactly on the stationary points. False in the code and shown by counterexamples: with three colours the Landau transformation has not determinant one (only unitarity is proved, for an exact eigenvalue solver), copies with non-positive functional are ignored, some step counts divide by zero, the threaded diagonal part ignores epsilon, the abelian projection leaves the group. The theorems on the maximal abelian gauge hold for the algorithm of the sweep; as shipped the sweep is never reached by it, because its options are not registered (C53)."
  },
  {
   "property": "C48",
   "status": "partial",
   "theorems": [
    "Leonard.C48_starter",
    "Leonard.C48_gauge_action",
    "Leonard.C48_flow",
    "Leonard.C48_integrator",
    "Leonard.C48_multishift",
    "Leonard.C48_sweep",
    "Leonard.C48_sweep_class",
    "Leonard.C48_dirac_unknown",
    "Leonard.C48_dirac",
    "Leonard.C48_square",
    "Leonard.C48_square_root_partial",
    "Leonard.C48_square_root_clover_counterexample",
    "Leonard.C48_square_root_overlap_counterexample",
    "Leonard.C48_overlap_default_counterexample",
    "Leonard.C48_block",
    "Leonard.C48_block_colour_counterexample",
    "Leonard.C48_defaults_partial",
    "Leonard.C48_default_warm_up_counterexample",
    "Leonard.C48_default_format_counterexample"
   ],
   "note": "All factories return the component of the table for every known name and stop with status 1 on every other string; the Dirac factory also sets name, coupling and links as asked, and getSquare matches the factory. It fails for getSquareRoot of the clover operator (clover term never computed) and of overlap operators (stops), for the colour of the squared block operator, and for the defaults of warm_up_sweeps (unknown sweep, the program stops), of input_format_name (unknown format, nothing is read) and of the overlap polynomial."
  },
  {
   "property": "C53",
   "status": "partial",
   "theorems": [
    "Leonard.C53_registered_partial",
    "Leonard.C53_last_default",
    "Leonard.C53_rational_partial",
    "Leonard.C53_xspace_counterexample",
    "Leonard.C53_abelian_counterexample",
    "Leonard.C53_chiral_rotation_counterexample",
    "Leonard.C53_pseudofermions_counterexample"
   ],
   "note": "For every configuration file all sweeps but two find every option they read, and so do the rational approximations up to 32 pseudofermions and 3 levels. XSpaceCorrelators always ends the program, and so does MaximalAbelianGaugeFixing for two colours (for other numbers of colours its body is compiled out and it does nothing); the source origin of OverlapChiralRotation can never be set; 33 pseudofermions end the program. The tables of registered and read names were extracted from the source by a script and compared by a second search; reads are all names on any path."
  },
  {
   "property": "C52",
   "status": "partial",
   "theorems": [
    "Leonard.C52_energy_partial",
    "Leonard.C52_motion_partial",
    "Leonard.C52_wilson_partial",
    "Leonard.C52_improved_partial",
    "Leonard.C52_two_flavor_partial",
    "Leonard.C52_second_order",
    "Leonard.C52_leading_error_partial",
    "Leonard.C52_omelyan_best_partial",
    "Leonard.C52_omelyan_best_counterexample"
   ],
   "note": "Orders 2, 2, 4, 6 for second_order, omelyan, fourth_order, sixth_order, any time scales, steps, lattice and colours, for every smooth energy with its forces (shown for the Wilson and improved action). fourth_omelyan is proved of second order for all time scales; its constants are decimal numbers, and with one force its third order error is at most 1e-12 of the commutators that second_order has with factors 1/12 and 1/24, so fourth order holds to that accuracy only. The constant of omelyan is within 1e-17 of the least error but is not the best one (a digit 2 too many). Exact real arithmetic, orthonormal eigenvectors in the link update as in C41."
  },
  {
   "property": "C54",
   "status": "proved",
   "theorems": [
    "Leonard.C54_steps",
    "Leonard.C54_accepts",
    "Leonard.C54_gauge_actions"
   ],
   "note": "Every integrator, any time scales (number of steps of the outermost one), every conservative energy smooth on the group, links in SU(N) and momenta in the Lie algebra, exact arithmetic and orthonormal eigenvectors in the link update as in C41. fourth_order and sixth_order compose whole trajectories, so for them too only the second power of the number of steps is claimed."
  },
  {
   "property": "C55",
   "status": "partial",
   "theorems": [
    "Leonard.C55_nflavor",
    "Leonard.C55_nflavor_order",
    "Leonard.C55_representations",
    "Leonard.C55_levels",
    "Leonard.C55_two_flavor_partial",
    "Leonard.C55_two_flavor_order_partial",
    "Leonard.C55_two_flavor_counterexample"
   ],
   "note": "Wilson fermions without smearing, exact solvers. Any number of flavours: proved for every boundary condition, both representations, positive shifts, links unitary or cut. Two flavours: proved for periodic and open boundary conditions where the Dirac operator is invertible; with antiperiodic boundary conditions (the default) the force on the links that cross the boundary has the wrong sign, on every lattice with two or more time slices and every number of colours above one (C55_two_flavor_counterexample). Three and four numbers of steps with too few force levels read past the end of an array after a warning (C55_levels). The clover term is C68; smearing is not modelled."
  },
  {
   "property": "C56",
   "status": "partial",
   "theorems": [
    "Leonard.C56_gauge",
    "Leonard.C56_local",
    "Leonard.C56_local_counterexample",
    "Leonard.C56_force",
    "Leonard.C56_force_link",
    "Leonard.C56_bounded_partial",
    "Leonard.C56_mass_counterexample",
    "Leonard.C56_lambda8"
   ],
   "note": "Gauge invariance, site energies (on lattices where no site is its own neighbour; with one site in a direction they are wrong: C56_local_counterexample) and forces proved. Bounded below if each quartic coupling is positive or the mass at least 24; without quartic coupling and with mass below 24 the energy has no lower bound (C56_mass_counterexample), so the number of the options is not m*m. lambda_8 has no effect for any field (C56_lambda8)."
  },
  {
   "property": "C57",
   "status": "proved",
   "theorems": [
    "Leonard.C57_stationary",
    "Leonard.C57_order",
    "Leonard.C57_visits",
    "Leonard.C57_fields"
   ],
   "note": "Exact arithmetic, random numbers independent per hit; the lattice of all processes is one lattice. Order independence needs even extensions (checkerboard)."
  },
  {
   "property": "C58",
   "status": "partial",
   "theorems": [
    "Leonard.C58_stationary",
    "Leonard.C58_order_partial",
    "Leonard.C58_steps",
    "Leonard.C58_fields"
   ],
   "note": "Stationarity for both gauge actions and all integrators. Missing: the order of fourth_omelyan, which is not what its name says (C52). Periodic boundary conditions for the links of the scalar fields."
  },
  {
   "property": "C59",
   "status": "partial",
   "theorems": [
    "Leonard.C59_energy_charge",
    "Leonard.C59_bound",
    "Leonard.C59_symmetry",
    "Leonard.C59_no_charge",
    "Leonard.C59_timeslices",
    "Leonard.C59_gauge_measure",
    "Leonard.C59_pure_gauge",
    "Leonard.C59_rows",
    "Leonard.C59_flow_type",
    "Leonard.C59_termination_counterexample",
    "Leonard.C59_gauge",
    "Leonard.C59_accuracy",
    "Leonard.C59_energy_correlator_counterexample"
   ],
   "note": "Energy, charge, their symmetries, the rows, gauge invariance and third order accuracy are proved. False in the code: the energy correlator has the sign of minus the energy, and with a step which is not positive the flow does not end. Real arithmetic, so the accumulated flow time has no rounding."
  },
  {
   "property": "C60",
   "status": "partial",
   "theorems": [
    "Leonard.C60_glueball",
    "Leonard.C60_glueball_gauge",
    "Leonard.C60_glueball_symmetry",
    "Leonard.C60_correlator",
    "Leonard.C60_correlator_gauge",
    "Leonard.C60_correlator_bound",
    "Leonard.C60_normalisation_counterexample",
    "Leonard.C60_distance_counterexample",
    "Leonard.C60_adjoint",
    "Leonard.C60_adjoint_gauge",
    "Leonard.C60_adjoint_bound",
    "Leonard.C60_adjoint_gens",
    "Leonard.C60_adjoint_counterexample"
   ],
   "note": "Proved for the configuration after smearing. False in the code: the correlator is divided by N instead of N squared, its first entry is distance one, and the spatial adjoint Polyakov loops are divided by the wrong volume."
  },
  {
   "property": "C61",
   "status": "partial",
   "theorems": [
    "Leonard.C61_wick",
    "Leonard.C61_inequalities",
    "Leonard.C61_pcac_bound",
    "Leonard.C61_positive",
    "Leonard.C61_gauge",
    "Leonard.C61_scalar_counterexample"
   ],
   "note": "Proved for the Wilson operators, basic, optimised and with clover term, with an exact inverter and without smearing. False in the code: the correlator written as scalar is that of the time component of the vector current (C61_scalar_counterexample). Missing: overlap operators, smeared sources."
  },
  {
   "property": "C62",
   "status": "partial",
   "theorems": [
    "Leonard.C62_unbiased",
    "Leonard.C62_no_passes",
    "Leonard.C62_disconnected",
    "Leonard.C62_real",
    "Leonard.C62_disconnected_counterexample"
   ],
   "note": "Proved with equally probable independent signs and an exact inverter. False in the code: the disconnected parts are four times the trace (C62_disconnected_counterexample), and the first time slice is not written (C62_disconnected). Without passes the program divides by zero (C62_no_passes)."
  },
  {
   "property": "C63",
   "status": "proved",
   "theorems": [
    "Leonard.C63_bounds",
    "Leonard.C63_gamma5",
    "Leonard.C63_solvable",
    "Leonard.C63_positive",
    "Leonard.C63_sharp"
   ],
   "note": "Exact arithmetic."
  },
  {
   "property": "C64",
   "status": "proved",
   "theorems": [
    "Leonard.C64_radius",
    "Leonard.C64_random_su2",
    "Leonard.C64_link_two_colours",
    "Leonard.C64_subgroup",
    "Leonard.C64_wilson",
    "Leonard.C64_improved",
    "Leonard.C64_two_colours",
    "Leonard.C64_order"
   ],
   "note": "Exact arithmetic, one process, an independent sequence of uniform numbers for every step."
  },
  {
   "property": "C65",
   "status": "proved",
   "theorems": [
    "Leonard.C65_two_colours",
    "Leonard.C65_more_colours"
   ],
   "note": "Exact arithmetic, one process, independent uniform numbers; the library's unitary factor is any measurable function of the staple with unitary values."
  },
  {
   "property": "C66",
   "status": "proved",
   "theorems": [
    "Leonard.C66_link",
    "Leonard.C66_two_colours"
   ],
   "note": "Exact arithmetic, independent uniform numbers. More than two colours (QR decomposition of a Gaussian matrix) is not covered: C23 gives only that the links are in SU(N)."
  },
  {
   "property": "C67",
   "status": "partial",
   "theorems": [
    "Leonard.C67_mean",
    "Leonard.C67_mean_two_colours",
    "Leonard.C67_unbiased_partial",
    "Leonard.C67_unbiased_two_colours_partial",
    "Leonard.C67_rectangles",
    "Leonard.C67_order_counterexample",
    "Leonard.C67_bounds_counterexample"
   ],
   "note": "Exact arithmetic, one process, independent uniform numbers. Unbiased for one or two slices; for three and more the adjoint lines of the second loop are multiplied in the wrong order (counterexample, and C67_mean says what is measured instead). With more sites in direction 2 than in direction 1 an array is read outside its bounds."
  },
  {
   "property": "C68",
   "status": "partial",
   "theorems": [
    "Leonard.C68_operator",
    "Leonard.C68_nflavor",
    "Leonard.C68_nflavor_order",
    "Leonard.C68_two_flavor_partial",
    "Leonard.C68_two_flavor_order_partial"
   ],
   "note": "The force of the operator is correct for every lattice, clover coefficient and link (C68_operator). Any number of flavours: proved for every boundary condition. Two flavours: proved for periodic and open boundary conditions; with antiperiodic ones the sign error of TwoFlavorFermionAction (C55_two_flavor_counterexample, clover coefficient zero) is the same. Exact arithmetic, exact solvers, no smearing."
  },
  {
   "property": "C69",
   "status": "partial",
   "theorems": [
    "Leonard.C69_derivative",
    "Leonard.C69_once_partial",
    "Leonard.C69_wilson_partial",
    "Leonard.C69_clover_partial",
    "Leonard.C69_order_partial",
    "Leonard.C69_levels_counterexample",
    "Leonard.C69_extent_counterexample",
    "Leonard.C69_two_flavor_counterexample"
   ],
   "note": "Any number of flavours and one level of smearing on lattices with at least three sites in each direction: proved. With two sites in a direction some smeared links are counted twice; with two and more levels the program ends; the two flavour action ignores the smearing in its force (counterexamples). Exact arithmetic, exact solvers, exact exponential of matrices."
  },
  {
   "property": "C70",
   "status": "partial",
   "theorems": [
    "Leonard.C70_mass",
    "Leonard.C70_eigenvector",
    "Leonard.C70_hermitian",
    "Leonard.C70_ginsparg_wilson",
    "Leonard.C70_exact",
    "Leonard.C70_operator_partial",
    "Leonard.C70_scaling",
    "Leonard.C70_nflavor_partial",
    "Leonard.C70_nflavor_order_partial",
    "Leonard.C70_scaling_counterexample",
    "Leonard.C70_two_flavor_counterexample"
   ],
   "note": "The operator: proved for both versions. The force: proved for any number of flavours if the scaling is not negative or the degree is odd; with negative scaling and even degree the force has the opposite sign (counterexample); the two flavour action takes the derivative of the Wilson operator (counterexample). The force of the operator that treats eigenvectors exactly is that of the polynomial in the program; not covered. Exact arithmetic, exact solvers; the eigenvectors are given."
  },
  {
   "property": "C71",
   "status": "partial",
   "theorems": [
    "Leonard.C71_momenta",
    "Leonard.C71_propagator",
    "Leonard.C71_colour",
    "Leonard.C71_translation",
    "Leonard.C71_transverse",
    "Leonard.C71_landau",
    "Leonard.C71_sum_rule",
    "Leonard.C71_vertex",
    "Leonard.C71_record_partial",
    "Leonard.C71_record_counterexample"
   ],
   "note": "Proved, except that the record of the propagator holds the third integer of the momentum twice instead of the third and the fourth (counterexample). Exact arithmetic, one process; extents up to 10^16 so that the comparison with 1e-16 means zero."
  },
  {
   "property": "C72",
   "status": "partial",
   "theorems": [
    "Leonard.C72_hermitian",
    "Leonard.C72_hessian",
    "Leonard.C72_gribov",
    "Leonard.C72_zero_modes",
    "Leonard.C72_free",
    "Leonard.C72_solver_partial",
    "Leonard.C72_accuracy",
    "Leonard.C72_free_counterexample",
    "Leonard.C72_two_colours_counterexample"
   ],
   "note": "The operator: proved. The solver: proved, except for the branch in which the residual after half a step is annihilated, where the result is not stored; on the trivial configuration this happens for every momentum (counterexamples: propagator zero, out of bounds for two colours). Exact arithmetic; a zero denominator ends the loop with the value stored so far."
  },
  {
   "property": "C73",
   "status": "partial",
   "theorems": [
    "Leonard.C73_propagator",
    "Leonard.C73_anticommutes",
    "Leonard.C73_rotation",
    "Leonard.C73_invariance",
    "Leonard.C73_angle",
    "Leonard.C73_condensate_partial",
    "Leonard.C73_mass_counterexample"
   ],
   "note": "The propagator, the accuracy of the rotations and the invariance of the massless action are proved. The rotations use the operator with its mass, so the angle of the rotated condensate is a quarter turn times one minus the mass (C73_angle, counterexample for mass one half). Exact arithmetic; the solution of the linear equation is given."
  },
  {
   "property": "C74",
   "status": "partial",
   "theorems": [
    "Leonard.C74_pairs",
    "Leonard.C74_stop",
    "Leonard.C74_orthonormal",
    "Leonard.C74_distance",
    "Leonard.C74_bound",
    "Leonard.C74_krylov",
    "Leonard.C74_monotone",
    "Leonard.C74_minimum",
    "Leonard.C74_nonhermitian",
    "Leonard.C74_order_counterexample",
    "Leonard.C74_degenerate_counterexample",
    "Leonard.C74_unconverged_counterexample",
    "Leonard.C74_nonhermitian_counterexample"
   ],
   "note": "Proved for exact arithmetic, a dense solver that returns all eigenvalues with normalised vectors and, where order matters, in order of modulus, and a spectrum above -7 (below 7 for the smallest values); a breakdown is the outcome none. Without the window the wrong end is returned (counterexample); degenerate eigenvalues are returned once (counterexample); unconverged results are not marked (counterexample); the smallest eigenvalues without gamma5 come with the wrong vectors (counterexample). The Chebyshev variant is C89; convergence is not covered."
  },
  {
   "property": "C75",
   "status": "proved",
   "theorems": [
    "Leonard.C75_propagator",
    "Leonard.C75_vertex",
    "Leonard.C75_gamma5",
    "Leonard.C75_tree",
    "Leonard.C75_global",
    "Leonard.C75_ward"
   ],
   "note": "For an exact inverter and operators of Wilson type. The momenta of C75_tree are integers and the coordinates name the sites; C75_ward holds for the operator with clover term at fixed coefficient, with the inverter exact in a neighbourhood of the mass."
  },
  {
   "property": "C76",
   "status": "proved",
   "theorems": [
    "Leonard.C76_inverse",
    "Leonard.C76_hopping",
    "Leonard.C76_expansion",
    "Leonard.C76_odd",
    "Leonard.C76_tail"
   ],
   "note": "For an exact inverter and operators of Wilson type; the noise is uniform on the signs. Note the program applies D-1, so that the orders enter the expansion with alternating signs."
  },
  {
   "property": "C77",
   "status": "partial",
   "theorems": [
    "Leonard.C77_solve",
    "Leonard.C77_exact_partial",
    "Leonard.C77_exact_counterexample",
    "Leonard.C77_disconnected_partial",
    "Leonard.C77_disconnected_counterexample",
    "Leonard.C77_disconnected_mean_partial",
    "Leonard.C77_shift",
    "Leonard.C77_points"
   ],
   "note": "The inversion is right. The exact connected correlator has the transpose of the last propagator: it is not gauge invariant (counterexample). The disconnected part is right for diagonal products of gamma matrices only (counterexample), and its mean contains the covariances of one noise vector over the number of vectors, since the same noise serves for both sites. No point is on the third axis. The stochastic connected part is C96."
  },
  {
   "property": "C78",
   "status": "partial",
   "theorems": [
    "Leonard.C78_formula",
    "Leonard.C78_gauge",
    "Leonard.C78_sources",
    "Leonard.C78_sources_counterexample"
   ],
   "note": "For an exact inverter, one process (the program does not update halos before smearing). The loop over sources does not end when more sources than time slices are asked for, and takes more sources than asked for when the number does not divide the extent (counterexample)."
  },
  {
   "property": "C79",
   "status": "partial",
   "theorems": [
    "Leonard.C79_processes",
    "Leonard.C79_runs",
    "Leonard.C79_calls_partial",
    "Leonard.C79_processes_counterexample",
    "Leonard.C79_clock_counterexample"
   ],
   "note": "The state is the seed modulo 2^32; clocks after 2001. Up to 534 processes that read the clock in the same second are told apart; ranks 294 and 534 are not, and neither are 505 and 508 when they read the clock one second apart (counterexamples). Within a process two calls collide if the shared random number happens to compensate the tables (C79_calls_partial gives the exact condition)."
  },
  {
   "property": "C80",
   "status": "partial",
   "theorems": [
    "Leonard.C80_range",
    "Leonard.C80_histogram",
    "Leonard.C80_total",
    "Leonard.C80_gauge",
    "Leonard.C80_time",
    "Leonard.C80_unimodular",
    "Leonard.C80_threads_partial",
    "Leonard.C80_threads_counterexample"
   ],
   "note": "Exact eigenvalues (roots of the characteristic polynomial). With threads the array has one column per thread of the serial region, that is one: right if all sites fall to thread 0, otherwise it is written out of bounds (counterexample)."
  },
  {
   "property": "C81",
   "status": "partial",
   "theorems": [
    "Leonard.C81_adjoint",
    "Leonard.C81_fundamental_partial",
    "Leonard.C81_fundamental_counterexample",
    "Leonard.C81_gauge",
    "Leonard.C81_gauge_counterexample",
    "Leonard.C81_missing_counterexample"
   ],
   "note": "Adjoint fields proved. The sums of the fundamental fields are not added over the processes (counterexample; the part is the case of one process). The mean field itself is not gauge invariant (counterexample), and flavour numbers larger than those of the configuration are read outside the vector."
  },
  {
   "property": "C82",
   "status": "partial",
   "theorems": [
    "Leonard.C82_shifts_partial",
    "Leonard.C82_limit",
    "Leonard.C82_flag_counterexample"
   ],
   "note": "Every shift whose loops end because of a small residual is solved, for all lattices and operators with clover term, any multigrid cycle and any unwritten memory. What is missing: the flag is always true; each inner solve that converges lowers the step limit of the following ones, so at most half the limit of the shifts can converge (C82_limit), and with an exact preconditioner the first solution is already wrong (counterexample); negative shifts after a small one give NaN."
  },
  {
   "property": "C83",
   "status": "partial",
   "theorems": [
    "Leonard.C83_block",
    "Leonard.C83_restriction",
    "Leonard.C83_decoupling",
    "Leonard.C83_adjoint",
    "Leonard.C83_add_partial",
    "Leonard.C83_add_counterexample"
   ],
   "note": "multiply is proved for all lattices and blocks. multiplyAdd hops over the boundaries of the blocks (counterexample); the part holds at sites outside the blocks and at sites whose neighbours all belong to the blocks."
  },
  {
   "property": "C84",
   "status": "partial",
   "theorems": [
    "Leonard.C84_generic",
    "Leonard.C84_su2",
    "Leonard.C84_conserved",
    "Leonard.C84_wilson",
    "Leonard.C84_generic_counterexample"
   ],
   "note": "Limits in exact arithmetic, one process. For three and more colours only one entry of the force is tested: a wrong force passes (counterexample)."
  },
  {
   "property": "C85",
   "status": "partial",
   "theorems": [
    "Leonard.C85_bias",
    "Leonard.C85_flavours",
    "Leonard.C85_check",
    "Leonard.C85_check_silent",
    "Leonard.C85_check_counterexample",
    "Leonard.C85_twist",
    "Leonard.C85_read",
    "Leonard.C85_twist_counterexample"
   ],
   "note": "For an exact multishift solver and eigenvalue solver. The bias bound is proved for every number of sweeps. The test of the theory looks at the functions at 2 only, so wrong functions pass (counterexample), and with a twist it prints a wrong number of flavours (counterexample)."
  },
  {
   "property": "C86",
   "status": "partial",
   "theorems": [
    "Leonard.C86_defined",
    "Leonard.C86_bias",
    "Leonard.C86_fields",
    "Leonard.C86_order_partial",
    "Leonard.C86_single_counterexample"
   ],
   "note": "For an exact multishift solver and eigenvalue solver. A single number of steps, or more than five, leads to a read past the end of the list after a warning (counterexample). The order is proved for all integrators except fourth_omelyan."
  },
  {
   "property": "C87",
   "status": "partial",
   "theorems": [
    "Leonard.C87_force_of_blocks",
    "Leonard.C87_force_partial",
    "Leonard.C87_first_link_counterexample",
    "Leonard.C87_outside_counterexample"
   ],
   "note": "Proved for all lattices and blocks what the force has to be and on exactly which links the program returns it: not on the first link of a block, where it returns zero (counterexample), and not on links that leave a block or lie outside, where it returns the Wilson force (counterexample)."
  },
  {
   "property": "C88",
   "status": "proved",
   "theorems": [
    "Leonard.C88_unbiased",
    "Leonard.C88_deflated",
    "Leonard.C88_complete"
   ],
   "note": "Both solvers exact. The mean is over all signs with equal weight."
  },
  {
   "property": "C89",
   "status": "partial",
   "theorems": [
    "Leonard.C89_pairs",
    "Leonard.C89_hermitian",
    "Leonard.C89_bound",
    "Leonard.C89_smallest",
    "Leonard.C89_order"
   ],
   "note": "For exact arithmetic and a correct dense solver that orders by modulus. That the smallest eigenvalues are returned is proved for odd orders, a run with deviation zero and a spectrum that does not exceed the interval; for other deviations C89_bound speaks of the filter values. Convergence is not covered. Even orders are accepted and have the opposite effect (C89_order)."
  },
  {
   "property": "C90",
   "status": "partial",
   "theorems": [
    "Leonard.C90_silent",
    "Leonard.C90_coordinates",
    "Leonard.C90_norm",
    "Leonard.C90_energies",
    "Leonard.C90_skewed_counterexample"
   ],
   "note": "No false alarms and the two kinds of faults that are found are proved. A test that passes does not show that the neighbours are right: tables whose steps also move in another direction pass every part (counterexample)."
  },
  {
   "property": "C91",
   "status": "proved",
   "theorems": [
    "Leonard.C91_fields",
    "Leonard.C91_gauge",
    "Leonard.C91_components"
   ],
   "note": "Independent normal numbers are assumed; the generator itself is not modelled (seeds: C79)."
  },
  {
   "property": "C92",
   "status": "partial",
   "theorems": [
    "Leonard.C92_trial_partial",
    "Leonard.C92_exchanges",
    "Leonard.C92_exchange_opposite",
    "Leonard.C92_exchange_counterexample",
    "Leonard.C92_direction_counterexample"
   ],
   "note": "The trials keep exp(beta F) if no change of beta F is below -50 (the program never accepts those). The exchanges do not keep the joint weight: the sign of the exponent is the opposite of the one required. The trial theorem uses the exact exponential and is stated for transformations of all sites, which both gauges use in the tempering."
  },
  {
   "property": "C93",
   "status": "partial",
   "theorems": [
    "Leonard.C93_cycle",
    "Leonard.C93_black",
    "Leonard.C93_fixed",
    "Leonard.C93_blocks_solvable",
    "Leonard.C93_rate",
    "Leonard.C93_convergence",
    "Leonard.C93_block_solver",
    "Leonard.C93_run",
    "Leonard.C93_source_counterexample",
    "Leonard.C93_block_size_counterexample"
   ],
   "note": "Both operators (Wilson, clover). Convergence for |kappa| (8 + 6 |csw|) < 1/sqrt 2 with exact solutions in the blocks; the solver of the blocks succeeds for |kappa| (8 + 6 |csw|) < 1 and enough steps unless it starts at the exact solution. That happens for every source which vanishes on the red blocks: the result is NaN, refuted. The block size set by the option is overwritten by that of the multigrid, refuted."
  },
  {
   "property": "C94",
   "status": "partial",
   "theorems": [
    "Leonard.C94_current",
    "Leonard.C94_eigenvalue",
    "Leonard.C94_square",
    "Leonard.C94_ginsparg_wilson_partial",
    "Leonard.C94_test",
    "Leonard.C94_degenerate_counterexample"
   ],
   "note": "All call sequences; exact criterion for a right pair. The last sentence is refuted: an eigenvector of the square that mixes both signs gives a wrong pair, and the test is not applied to new pairs. The solver is a function; exact eigenvectors in C94_ginsparg_wilson_partial."
  },
  {
   "property": "C95",
   "status": "proved",
   "theorems": [
    "Leonard.C95_cycle",
    "Leonard.C95_coarse_solvable",
    "Leonard.C95_convergence"
   ],
   "note": "|kappa| (8 + 6 |csw|) < 1 and the factor rho < 1; exact solutions in the blocks of the smoother (C93 has the solver of the blocks), a coarse solver with any bound on its residual. NaN from the solver of the blocks (C93) is outside."
  },
  {
   "property": "C96",
   "status": "partial",
   "theorems": [
    "Leonard.C96_mean_partial",
    "Leonard.C96_mean_counterexample"
   ],
   "note": "The claim is refuted: the same noise vector serves for both propagators, so the mean of every number is the connected plus the disconnected correlator (C96_mean_partial, proved for all points other than the starting point; counterexample on two sites). Exact inverter, signs equally probable and independent. The starting point itself is not covered."
  },
  {
   "property": "C97",
   "status": "partial",
   "theorems": [
    "Leonard.C97_silent",
    "Leonard.C97_solvable",
    "Leonard.C97_hermitian",
    "Leonard.C97_difference",
    "Leonard.C97_overlap",
    "Leonard.C97_overlap_found",
    "Leonard.C97_add_counterexample",
    "Leonard.C97_overlap_counterexample"
   ],
   "note": "No false alarms (exact arithmetic, exact inverter in the square of the complement operator, which exists for unitary links). Operators that are not Hermitian and operators that differ are found with probability one, for independent uniform numbers. A wrong multiply-and-add is not found, because it is only tested with the factor zero (counterexample). The overlap operators are tested right for polynomials that are real on the real line, polynomials that are not are found; an empty option is read beyond its end (counterexample)."
  },
  {
   "property": "C98",
   "status": "partial",
   "theorems": [
    "Leonard.C98_basis",
    "Leonard.C98_smoothing",
    "Leonard.C98_convergence",
    "Leonard.C98_heavy_counterexample"
   ],
   "note": "Proved: no access outside the arrays; if no division by zero happens, the vectors are as many as asked for and orthonormal in every block, and the solver converges with them (conditions of C95). Refuted: that the basis always exists: when the preconditioner solves the system, as for hopping parameter zero, the construction divides by zero for all random vectors. Exact arithmetic; the preconditioner is a function of the source."
  }
 ]
}