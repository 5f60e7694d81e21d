/-
The options: the table `desc` of `/repo/source/main.cpp` with the entries of the `registerParameters` functions, and the names that the
sweeps pass to `configurations.get`.  The lists were extracted from the source files and compared with them a second time by a separate
search.
-/
import Verif.Control.Model

set_option autoImplicit false

namespace Leonard

/-! ### Registered options -/

/-- The options of `main.cpp:87-179` in order, with the text of their default values. -/
def mainOptions : List (String × String) :=
  [("name_action", "Improved"), ("dirac_operator", "DiracWilson"), ("beta", "2"), ("kappa", "0.125"), ("mass", "0"), ("csw", "1"),
   ("stout_smearing_levels", "0"), ("stout_smearing_rho", "0.15"), ("glob_x", "4"), ("glob_y", "4"), ("glob_z", "4"), ("glob_t", "4"),
   ("pgrid_x", "1"), ("pgrid_y", "1"), ("pgrid_z", "1"), ("pgrid_t", "1"), ("number_threads", "2"), ("load_layout", "false"),
   ("print_report_layout", "false"), ("boundary_conditions", "fermion_periodic"), ("output_directory_configurations", "./"),
   ("output_directory_measurements", "./"), ("output_name", "measurements"), ("input_directory_configurations", "./"),
   ("input_name", "gauge_fields"), ("input_number", "1"), ("output_configuration_name", "gauge_fields"), ("output_offset", "1"),
   ("input_format_name", "muester_format"), ("output_format_name", "muenster_format"), ("measurement_output_format", "txt"),
   ("start", "hotstart"), ("start_gauge_configuration_file", "gauge_fields"), ("start_configuration_number", "1"),
   ("number_warm_up_sweeps", "1"), ("number_measurement_sweeps", "1"),
   ("warm_up_sweeps", "{{TestCommunications,1,1},{PureGaugeCM,1,1},{Plaquette,1,1}}"),
   ("measurement_sweeps", "{{PureGaugeCM,1,1},{Plaquette,1,1}}"), ("adjoint_nf_scalars", "0"), ("fundamental_nf_scalars", "0"),
   ("name_integrator", "omelyan"), ("hmc_t_length", "1"), ("number_hmc_steps", "{1,1,1}"), ("force_inverter_precision", "1e-11"),
   ("metropolis_inverter_precision", "1e-13"), ("metropolis_inverter_max_steps", "50000"), ("force_inverter_max_steps", "20000"),
   ("number_pseudofermions", "2"), ("number_force_levels", "2"), ("check_rational_approximations", "true"),
   ("twisted_mass_squared", "0"), ("number_twisted_correction_noise_vectors", "20"), ("number_block_correction_noise_vectors", "20"),
   ("theory_power_factor", "0.25"), ("twisted_breakup", "2"), ("deflation_block_size", "{4,4,4,4}"), ("read_start_number", "1"),
   ("read_step", "1"), ("OverlapOperator::squareRootApproximation", ""), ("ExactOverlapOperator::squareRootApproximation", ""),
   ("ExactOverlapOperator::eigensolver::use_chebyshev", "false"), ("ExactOverlapOperator::eigensolver::chebyshev_left", "0.2"),
   ("ExactOverlapOperator::eigensolver::chebyshev_right", "7"), ("ExactOverlapOperator::eigensolver::chebyshev_order", "15"),
   ("ExactOverlapOperator::eigensolver::eigensolver_precision", "1e-09"),
   ("ExactOverlapOperator::eigensolver::number_extra_vectors", "30"),
   ("ExactOverlapOperator::eigensolver::maximal_number_restarts_eigensolver", "50"),
   ("ExactOverlapOperator::eigensolver::number_eigenvalues", "30"), ("generic_inverter_max_steps", "20000"),
   ("generic_inverter_precision", "1e-11")]

/-- `DiracOperator::registerParameters(desc, basename)`, `DiracOperator.cpp:167-182`. -/
def diracOptions (basename : String) : List (String × String) :=
  [(basename ++ "dirac_operator", "DiracWilson"), (basename ++ "kappa", "0.125"), (basename ++ "csw", "1"), (basename ++ "mass", "0"),
   (basename ++ "OverlapOperator::squareRootApproximation", ""), (basename ++ "ExactOverlapOperator::squareRootApproximation", ""),
   (basename ++ "ExactOverlapOperator::eigensolver::use_chebyshev", "0"),
   (basename ++ "ExactOverlapOperator::eigensolver::chebyshev_left", "0.2"),
   (basename ++ "ExactOverlapOperator::eigensolver::chebyshev_right", "7"),
   (basename ++ "ExactOverlapOperator::eigensolver::chebyshev_order", "15"),
   (basename ++ "ExactOverlapOperator::eigensolver::eigensolver_precision", "1e-09"),
   (basename ++ "ExactOverlapOperator::eigensolver::number_extra_vectors", "30"),
   (basename ++ "ExactOverlapOperator::eigensolver::maximal_number_restarts_eigensolver", "50"),
   (basename ++ "ExactOverlapOperator::eigensolver::number_eigenvalues", "30")]

/-- `TestSpeedDiracOperators::registerParameters`, `TestSpeedDiracOperators.cpp:172-172`. -/
def testSpeedDiracOperatorsOptions : List (String × String) :=
  [("TestSpeedDiracOperators::number_multiplication_test_speed", "10")]

/-- `Eigenvalues::registerParameters`, `Eigenvalues.cpp:231-242`. -/
def eigenvaluesOptions : List (String × String) :=
  [("Eigenvalues::mode", "LR"), ("Eigenvalues::use_chebyshev", "false"), ("Eigenvalues::chebyshev_left", "0.2"),
   ("Eigenvalues::chebyshev_right", "7"), ("Eigenvalues::chebyshev_order", "15"), ("Eigenvalues::hermitian", "true"),
   ("Eigenvalues::inverter_precision", "1e-10"), ("Eigenvalues::eigensolver_precision", "1e-07"),
   ("Eigenvalues::number_extra_vectors", "30"), ("Eigenvalues::maximal_number_restarts_eigensolver", "50"),
   ("Eigenvalues::number_eigenvalues", "20"), ("Eigenvalues::use_inverse_power_method", "true")]

/-- `MesonCorrelator::registerParameters`, `MesonCorrelator.cpp:282-288`. -/
def mesonCorrelatorOptions : List (String × String) :=
  [("MesonCorrelator::inverter_precision", "1e-11"), ("MesonCorrelator::inverter_max_steps", "10000"),
   ("MesonCorrelator::t_source_origin", "0"), ("MesonCorrelator::stout_smearing_rho", "0.15"),
   ("MesonCorrelator::stout_smearing_levels", "0"), ("MesonCorrelator::number_stochastic_estimators", "50"),
   ("MesonCorrelator::compute_disconnected_contributions", "0")]

/-- `ChiralCondensate::registerParameters`, `ChiralCondensate.cpp:164-170`. -/
def chiralCondensateOptions : List (String × String) :=
  [("ChiralCondensate::number_stochastic_estimators", "20"), ("ChiralCondensate::inverter_precision", "1e-11"),
   ("ChiralCondensate::inverter_max_steps", "5000"), ("ChiralCondensate::measure_condensate_connected", "false"),
   ("ChiralCondensate::rho_stout_smearing", "0.15"), ("ChiralCondensate::use_even_odd_preconditioning", "true"),
   ("ChiralCondensate::levels_stout_smearing", "0")]

/-- `OverlapChiralRotation::registerParameters`, `OverlapChiralRotation.cpp:176-181`. -/
def overlapChiralRotationOptions : List (String × String) :=
  [("OverlapChiralRotation::number_stochastic_estimators", "20"), ("OverlapChiralRotation::exponential_product_number_steps", "200"),
   ("OverlapChiralRotation::inverter_precision", "1e-11"), ("OverlapChiralRotation::inverter_max_steps", "10000"),
   ("OverlapChiralRotation::rho_stout_smearing", "0.15"), ("OverlapChiralRotation::levels_stout_smearing", "0")]

/-- `PolyakovLoopCorrelator::registerParameters`, `PolyakovLoopCorrelator.cpp:118-119`. -/
def polyakovLoopCorrelatorOptions : List (String × String) :=
  [("PolyakovCorrelator::level_stout_smearing", "10"), ("PolyakovCorrelator::rho_stout_smearing", "0.05")]

/-- `Glueball::registerParameters`, `Glueball.cpp:80-81`. -/
def glueballOptions : List (String × String) :=
  [("Glueball::stout_smearing_rho", "0.15"), ("Glueball::stout_smearing_levels", "10")]

/-- `GluinoGlue::registerParameters`, `GluinoGlue.cpp:180-186`. -/
def gluinoGlueOptions : List (String × String) :=
  [("GluinoGlue::inverter_precision", "1e-11"), ("GluinoGlue::inverter_max_steps", "10000"),
   ("GluinoGlue::number_of_timeslice_sources", "1"), ("GluinoGlue::stout_smearing_rho", "0.15"),
   ("GluinoGlue::stout_smearing_levels", "15"), ("GluinoGlue::fermion_smearing_rho", "0.15"),
   ("GluinoGlue::fermion_smearing_levels", "5")]

/-- `PureGaugeWilsonLoops::registerParameters`, `PureGaugeWilsonLoops.cpp:274-277`. -/
def pureGaugeWilsonLoopsOptions : List (String × String) :=
  [("PureGaugeWilsonLoops::max_r", "8"), ("PureGaugeWilsonLoops::max_t", "8"), ("PureGaugeWilsonLoops::number_subsweeps_luescher", "10"),
   ("PureGaugeWilsonLoops::size_slice_luescher", "4")]

/-- `WilsonLoop::registerParameters`, `WilsonLoop.cpp:150-154`. -/
def wilsonLoopOptions : List (String × String) :=
  [("WilsonLoop::max_t", "6"), ("WilsonLoop::max_r", "6"), ("WilsonLoop::t_dir", "3"), ("WilsonLoop::level_stout_smearing", "10"),
   ("WilsonLoop::rho_stout_smearing", "0.05")]

/-- `WilsonFlow::registerParameters`, `WilsonFlow.cpp:281-284`. -/
def wilsonFlowOptions : List (String × String) :=
  [("WilsonFlow::flow_type", "Wilson"), ("WilsonFlow::flow_step", "0.1"), ("WilsonFlow::flow_integration_intervals", "20"),
   ("WilsonFlow::flow_time", "7")]

/-- `MultiStepNFlavorUpdater::registerParameters`, `MultiStepNFlavorUpdater.cpp:390-403`. -/
def multiStepNFlavorUpdaterOptions : List (String × String) :=
  [("MultiStepNFlavorUpdater::twist", "0"), ("MultiStepNFlavorUpdater::inverter_precision", "1e-11"),
   ("MultiStepNFlavorUpdater::inverter_max_steps", "5000"), ("MultiStepNFlavorUpdater::multigrid", "false"),
   ("MultiStepNFlavorUpdater::multigrid_basis_dimension", "20"), ("MultiStepNFlavorUpdater::multigrid_block_size", "{4,4,4,4}"),
   ("MultiStepNFlavorUpdater::sap_block_size", "{4,4,4,4}"), ("MultiStepNFlavorUpdater::sap_iterations", "5"),
   ("MultiStepNFlavorUpdater::sap_inverter_precision", "1e-11"), ("MultiStepNFlavorUpdater::sap_inverter_max_steps", "50"),
   ("MultiStepNFlavorUpdater::gmres_inverter_precision", "1e-11"), ("MultiStepNFlavorUpdater::gmres_inverter_max_steps", "100")] ++
    diracOptions "MultiStepNFlavorUpdater::dirac_operator_metropolis::" ++ diracOptions "MultiStepNFlavorUpdater::dirac_operator_force::"

/-- `SingletOperators::registerParameters`, `SingletOperators.cpp:216-221`. -/
def singletOperatorsOptions : List (String × String) :=
  [("SingletOperators::inverter_precision", "1e-11"), ("SingletOperators::inverter_max_steps", "5000"),
   ("SingletOperators::number_stochastic_estimators", "20"), ("SingletOperators::number_stochastic_estimators_hopping_terms", "2500"),
   ("SingletOperators::use_multigrid_diluition", "true")]

/-- `NPRVertex::registerParameters`, `NPRVertex.cpp:251-264`. -/
def nPRVertexOptions : List (String × String) :=
  [("NPRVertex::inverter_precision", "1e-11"), ("NPRVertex::inverter_max_steps", "10000"), ("NPRVertex::momentum", "{2,2,2,2}"),
   ("NPRVertex::multigrid", "false"), ("NPRVertex::multigrid_basis_dimension", "20"), ("NPRVertex::multigrid_block_size", "{4,4,4,4}"),
   ("NPRVertex::sap_block_size", "{4,4,4,4}"), ("NPRVertex::sap_iterations", "5"), ("NPRVertex::sap_inverter_precision", "1e-11"),
   ("NPRVertex::sap_inverter_max_steps", "100"), ("NPRVertex::gmres_inverter_precision", "1e-11"),
   ("NPRVertex::gmres_inverter_max_steps", "100")]

/-- `LandauGaugeFixing::registerParameters`, `LandauGaugeFixing.cpp:284-297`. -/
def landauGaugeFixingOptions : List (String × String) :=
  [("LandauGaugeFixing::epsilon1", "1e-05"), ("LandauGaugeFixing::epsilon2", "1e-07"), ("LandauGaugeFixing::epsilon3", "1e-09"),
   ("LandauGaugeFixing::beta1", "5"), ("LandauGaugeFixing::beta2", "1"), ("LandauGaugeFixing::beta3", "0.2"),
   ("LandauGaugeFixing::steps", "500"), ("LandauGaugeFixing::local_steps", "3000"), ("LandauGaugeFixing::final_steps", "3000"),
   ("LandauGaugeFixing::precision", "1e-12"), ("LandauGaugeFixing::output_steps", "100"), ("LandauGaugeFixing::number_copies", "5")]

/-- `MaximalAbelianGaugeFixing::registerParameters`, `MaximalAbelianGaugeFixing.cpp:329-339`. -/
def maximalAbelianGaugeFixingOptions : List (String × String) :=
  [("MaximalAbelianGaugeFixing::epsilon3", "0.01"), ("MaximalAbelianGaugeFixing::epsilon3", "0.001"),
   ("MaximalAbelianGaugeFixing::epsilon3", "0.0001"), ("MaximalAbelianGaugeFixing::beta1", "5"),
   ("MaximalAbelianGaugeFixing::beta2", "1"), ("MaximalAbelianGaugeFixing::beta3", "0.2"), ("MaximalAbelianGaugeFixing::steps", "500"),
   ("MaximalAbelianGaugeFixing::local_steps", "4000"), ("MaximalAbelianGaugeFixing::local_steps_phase2", "1000")]

/-- `LandauGluonPropagator::registerParameters`, `LandauGluonPropagator.cpp:237-238`. -/
def landauGluonPropagatorOptions : List (String × String) :=
  [("LandauGluonPropagator::anisotropy_cut", "0.25"), ("LandauGluonPropagator::maximal_momentum", "{2,2,2,2}")]

/-- `LandauGhostPropagator::registerParameters`, `LandauGhostPropagator.cpp:527-530`. -/
def landauGhostPropagatorOptions : List (String × String) :=
  [("LandauGhostPropagator::epsilon", "1e-11"), ("LandauGhostPropagator::anisotropy_cut", "0.25"),
   ("LandauGhostPropagator::max_steps", "10000"), ("LandauGhostPropagator::maximal_momentum", "{2,2,2,2}")]

/-- `ScalarFermionHMCUpdater::registerParameters`, `ScalarFermionHMCUpdater.cpp:374-383`. -/
def scalarFermionHMCUpdaterOptions : List (String × String) :=
  [("ScalarFermionHMCUpdater::adjoint_scalar_mass", "0"), ("ScalarFermionHMCUpdater::fundamental_scalar_mass", "0"),
   ("ScalarFermionHMCUpdater::adjoint_quartic_coupling", "0"), ("ScalarFermionHMCUpdater::fundamental_quartic_coupling", "0"),
   ("ScalarFermionHMCUpdater::lambda_8", "0"), ("ScalarFermionHMCUpdater::lambda_mixed", "0"), ("ScalarFermionHMCUpdater::twist", "0"),
   ("ScalarFermionHMCUpdater::inverter_precision", "1e-11"), ("ScalarFermionHMCUpdater::inverter_max_steps", "10000")]

/-- `HiggsGaugeHMCUpdater::registerParameters`, `HiggsGaugeHMCUpdater.cpp:151-158`. -/
def higgsGaugeHMCUpdaterOptions : List (String × String) :=
  [("HiggsGaugeHMCUpdater::adjoint_scalar_mass", "0"), ("HiggsGaugeHMCUpdater::fundamental_scalar_mass", "0"),
   ("HiggsGaugeHMCUpdater::adjoint_quartic_coupling", "0"), ("HiggsGaugeHMCUpdater::fundamental_quartic_coupling", "0"),
   ("HiggsGaugeHMCUpdater::lambda_8", "0"), ("HiggsGaugeHMCUpdater::lambda_mixed", "0")]

/-- `MetropolisScalarUpdater::registerParameters`, `MetropolisScalarUpdater.cpp:206-216`. -/
def metropolisScalarUpdaterOptions : List (String × String) :=
  [("MetropolisScalarUpdater::adjoint_scalar_mass", "0"), ("MetropolisScalarUpdater::fundamental_scalar_mass", "0"),
   ("MetropolisScalarUpdater::adjoint_quartic_coupling", "0"), ("MetropolisScalarUpdater::fundamental_quartic_coupling", "0"),
   ("MetropolisScalarUpdater::lambda_8", "0"), ("MetropolisScalarUpdater::lambda_mixed", "0"),
   ("MetropolisScalarUpdater::epsilon", "0.1"), ("MetropolisScalarUpdater::number_of_hits", "3")]

/-- The options of the rational approximations, `main.cpp:181-196`. -/
def rationalOptions : List (String × String) :=
  ([1, 2, 3].flatMap fun level =>
    ((List.range 32).map fun i => ("force_rational_fraction_" ++ toString (i + 1) ++ "_level_" ++ toString level, "")) ++
      [("force_inverter_precision_level_" ++ toString level, "")]) ++
  (List.range 32).flatMap fun i =>
    [("heatbath_rational_fraction_" ++ toString (i + 1), ""), ("metropolis_rational_fraction_" ++ toString (i + 1), ""),
      ("force_rational_fraction_" ++ toString (i + 1), "")]

/-- `LatticeSweep::addParameters`, `LatticeSweep.cpp:210-248`; the other classes register nothing. -/
def sweepOptions : List (String × String) :=
  testSpeedDiracOperatorsOptions ++ eigenvaluesOptions ++ mesonCorrelatorOptions ++ chiralCondensateOptions ++
  overlapChiralRotationOptions ++ polyakovLoopCorrelatorOptions ++ glueballOptions ++ gluinoGlueOptions ++
  pureGaugeWilsonLoopsOptions ++ wilsonLoopOptions ++ wilsonFlowOptions ++ multiStepNFlavorUpdaterOptions ++
  singletOperatorsOptions ++ nPRVertexOptions ++ landauGaugeFixingOptions ++ maximalAbelianGaugeFixingOptions ++
  landauGluonPropagatorOptions ++ landauGhostPropagatorOptions ++ scalarFermionHMCUpdaterOptions ++ higgsGaugeHMCUpdaterOptions ++
  metropolisScalarUpdaterOptions

/-- All entries written to `desc`, in the order of `main.cpp:87-198`. -/
def registeredOptions : List (String × String) := mainOptions ++ rationalOptions ++ sweepOptions

/-- The map after the assignments `desc[key] = Option(name, default, help)`: a later assignment replaces an earlier one. -/
def optionsOf (l : List (String × String)) : Options := fun k => (l.reverse.find? fun p => p.1.toList = k).map fun p => p.2.toList

/-- `configurations.get<T>(key)`, `StorageParameters.h:25-38`, before the text is converted.  A missing key throws `NotFoundOption`; `main`
and `Simulation` have no handler, so that an exception that the sweep does not catch ends the program (status 134, `SIGABRT`). -/
def getOption (o : Options) (key : String) : Outcome (List Char) :=
  match o key.toList with
  | some v => .ok v
  | none => .exit 134

/-! ### Options read

The names passed to `get` in each file, on any path, except those inside a `try` block with a handler for a name that is not registered
(`format_name`, `OverlapChiralRotation::t_source_origin`) and the names that are put together at run time (`rationalReads`). -/

/-- `Environment.cpp:22-58`. -/
def environmentReads : List String :=
  ["stout_smearing_levels", "stout_smearing_rho", "boundary_conditions"]

/-- `GaugeEnergy.cpp:12-12`. -/
def gaugeEnergyReads : List String :=
  ["beta", "name_action"]

/-- `NFlavorFermionAction.cpp:104-139`. -/
def nFlavorFermionActionReads : List String :=
  ["boundary_conditions", "stout_smearing_levels", "stout_smearing_rho"]

/-- `Glueball.cpp:19-21`. -/
def glueballReads : List String :=
  ["Glueball::stout_smearing_levels", "Glueball::stout_smearing_rho"]

/-- `GluinoGlue.cpp:30-67`. -/
def gluinoGlueReads : List String :=
  ["dirac_operator", "GluinoGlue::stout_smearing_levels", "GluinoGlue::stout_smearing_rho", "GluinoGlue::number_of_timeslice_sources",
   "GluinoGlue::inverter_precision", "GluinoGlue::inverter_max_steps", "GluinoGlue::fermion_smearing_rho",
   "GluinoGlue::fermion_smearing_levels"]

/-- `MesonCorrelator.cpp:26-215`. -/
def mesonCorrelatorReads : List String :=
  ["dirac_operator", "MesonCorrelator::stout_smearing_levels", "MesonCorrelator::stout_smearing_rho", "MesonCorrelator::t_source_origin",
   "MesonCorrelator::inverter_precision", "MesonCorrelator::inverter_max_steps", "MesonCorrelator::compute_disconnected_contributions",
   "MesonCorrelator::number_stochastic_estimators"]

/-- `ChiralCondensate.cpp:23-83`. -/
def chiralCondensateReads : List String :=
  ["ChiralCondensate::levels_stout_smearing", "ChiralCondensate::rho_stout_smearing", "dirac_operator",
   "ChiralCondensate::use_even_odd_preconditioning", "ChiralCondensate::inverter_max_steps", "ChiralCondensate::inverter_precision",
   "ChiralCondensate::measure_condensate_connected", "ChiralCondensate::number_stochastic_estimators"]

/-- `Eigenvalues.cpp:22-181`. -/
def eigenvaluesReads : List String :=
  ["Eigenvalues::inverter_precision", "Eigenvalues::eigensolver_precision", "Eigenvalues::maximal_number_restarts_eigensolver",
   "Eigenvalues::number_extra_vectors", "Eigenvalues::hermitian", "Eigenvalues::mode", "Eigenvalues::use_chebyshev",
   "Eigenvalues::chebyshev_order", "Eigenvalues::chebyshev_left", "Eigenvalues::chebyshev_right", "dirac_operator",
   "Eigenvalues::number_eigenvalues", "Eigenvalues::use_inverse_power_method"]

/-- `NPRVertex.cpp:31-80`. -/
def nPRVertexReads : List String :=
  ["dirac_operator", "NPRVertex::multigrid", "NPRVertex::sap_block_size", "NPRVertex::multigrid_basis_dimension",
   "NPRVertex::multigrid_block_size", "NPRVertex::sap_iterations", "NPRVertex::sap_inverter_max_steps",
   "NPRVertex::sap_inverter_precision", "NPRVertex::gmres_inverter_max_steps", "NPRVertex::gmres_inverter_precision",
   "NPRVertex::inverter_precision", "NPRVertex::inverter_max_steps", "NPRVertex::momentum"]

/-- `OverlapChiralRotation.cpp:63-119`. -/
def overlapChiralRotationReads : List String :=
  ["dirac_operator", "OverlapChiralRotation::levels_stout_smearing", "OverlapChiralRotation::rho_stout_smearing",
   "OverlapChiralRotation::inverter_precision", "OverlapChiralRotation::inverter_max_steps",
   "OverlapChiralRotation::number_stochastic_estimators", "OverlapChiralRotation::exponential_product_number_steps"]

/-- `SingletOperators.cpp:26-144`. -/
def singletOperatorsReads : List String :=
  ["dirac_operator", "SingletOperators::inverter_precision", "SingletOperators::inverter_max_steps",
   "SingletOperators::number_stochastic_estimators", "SingletOperators::number_stochastic_estimators_hopping_terms"]

/-- `XSpaceCorrelators.cpp:11-26`. -/
def xSpaceCorrelatorsReads : List String :=
  ["number_stochastic_estimators", "dirac_operator", "generic_inverter_max_steps", "generic_inverter_precision"]

/-- `LandauGaugeFixing.cpp:71-87`. -/
def landauGaugeFixingReads : List String :=
  ["LandauGaugeFixing::epsilon1", "LandauGaugeFixing::epsilon2", "LandauGaugeFixing::epsilon3", "LandauGaugeFixing::beta1",
   "LandauGaugeFixing::beta2", "LandauGaugeFixing::beta3", "LandauGaugeFixing::steps", "LandauGaugeFixing::local_steps",
   "LandauGaugeFixing::precision", "LandauGaugeFixing::final_steps", "LandauGaugeFixing::number_copies",
   "LandauGaugeFixing::output_steps"]

/-- `LandauGhostPropagator.cpp:416-420`. -/
def landauGhostPropagatorReads : List String :=
  ["LandauGhostPropagator::maximal_momentum", "LandauGhostPropagator::anisotropy_cut", "LandauGhostPropagator::epsilon",
   "LandauGhostPropagator::max_steps"]

/-- `LandauGluonPropagator.cpp:18-19`. -/
def landauGluonPropagatorReads : List String :=
  ["LandauGluonPropagator::maximal_momentum", "LandauGluonPropagator::anisotropy_cut"]

/-- `MaximalAbelianGaugeFixing.cpp:17-216`. -/
def maximalAbelianGaugeFixingReads : List String :=
  ["MaximalAbelianGaugeFixing::epsilon1", "MaximalAbelianGaugeFixing::epsilon2", "MaximalAbelianGaugeFixing::epsilon3",
   "MaximalAbelianGaugeFixing::beta1", "MaximalAbelianGaugeFixing::beta2", "MaximalAbelianGaugeFixing::beta3",
   "MaximalAbelianGaugeFixing::steps", "MaximalAbelianGaugeFixing::local_steps", "MaximalAbelianGaugeFixing::local_steps_phase2"]

/-- `HiggsGaugeHMCUpdater.cpp:22-79`. -/
def higgsGaugeHMCUpdaterReads : List String :=
  ["adjoint_nf_scalars", "fundamental_nf_scalars", "HiggsGaugeHMCUpdater::adjoint_scalar_mass",
   "HiggsGaugeHMCUpdater::fundamental_scalar_mass", "HiggsGaugeHMCUpdater::adjoint_quartic_coupling",
   "HiggsGaugeHMCUpdater::fundamental_quartic_coupling", "HiggsGaugeHMCUpdater::lambda_8", "HiggsGaugeHMCUpdater::lambda_mixed", "beta",
   "name_action", "hmc_t_length", "number_hmc_steps", "name_integrator"]

/-- `MultiStepNFlavorUpdater.cpp:39-323`. -/
def multiStepNFlavorUpdaterReads : List String :=
  ["MultiStepNFlavorUpdater::twist", "MultiStepNFlavorUpdater::multigrid", "dirac_operator", "MultiStepNFlavorUpdater::sap_block_size",
   "MultiStepNFlavorUpdater::multigrid_basis_dimension", "MultiStepNFlavorUpdater::multigrid_block_size",
   "MultiStepNFlavorUpdater::sap_iterations", "MultiStepNFlavorUpdater::sap_inverter_max_steps",
   "MultiStepNFlavorUpdater::sap_inverter_precision", "MultiStepNFlavorUpdater::gmres_inverter_max_steps",
   "MultiStepNFlavorUpdater::gmres_inverter_precision", "number_pseudofermions", "metropolis_inverter_precision",
   "metropolis_inverter_max_steps", "number_force_levels", "force_inverter_max_steps",
   "MultiStepNFlavorUpdater::dirac_operator_metropolis::dirac_operator", "beta", "name_action", "check_rational_approximations",
   "hmc_t_length", "number_hmc_steps", "name_integrator"]

/-- `PureGaugeHMCUpdater.cpp:22-41`. -/
def pureGaugeHMCUpdaterReads : List String :=
  ["beta", "name_action", "hmc_t_length", "number_hmc_steps", "name_integrator"]

/-- `ScalarFermionHMCUpdater.cpp:38-314`. -/
def scalarFermionHMCUpdaterReads : List String :=
  ["ScalarFermionHMCUpdater::twist", "number_pseudofermions", "metropolis_inverter_precision", "metropolis_inverter_max_steps",
   "number_force_levels", "force_inverter_max_steps", "adjoint_nf_scalars", "fundamental_nf_scalars",
   "ScalarFermionHMCUpdater::adjoint_scalar_mass", "ScalarFermionHMCUpdater::fundamental_scalar_mass",
   "ScalarFermionHMCUpdater::adjoint_quartic_coupling", "ScalarFermionHMCUpdater::fundamental_quartic_coupling",
   "ScalarFermionHMCUpdater::lambda_8", "ScalarFermionHMCUpdater::lambda_mixed", "dirac_operator", "beta", "name_action",
   "check_rational_approximations", "hmc_t_length", "number_hmc_steps", "name_integrator"]

/-- `TwoFlavorHMCUpdater.cpp:37-111`. -/
def twoFlavorHMCUpdaterReads : List String :=
  ["dirac_operator", "beta", "name_action", "force_inverter_precision", "hmc_t_length", "number_hmc_steps", "name_integrator",
   "metropolis_inverter_precision", "metropolis_inverter_max_steps"]

/-- `OutputSweep.cpp:24-454`. -/
def outputSweepReads : List String :=
  ["output_format_name", "output_configuration_name", "output_directory_configurations", "output_offset", "beta", "kappa"]

/-- `ReadGaugeConfiguration.cpp:27-41`. -/
def readGaugeConfigurationReads : List String :=
  ["read_start_number", "read_step"]

/-- `PolyakovLoopCorrelator.cpp:21-22`. -/
def polyakovLoopCorrelatorReads : List String :=
  ["PolyakovCorrelator::level_stout_smearing", "PolyakovCorrelator::rho_stout_smearing"]

/-- `PureGaugeOverrelaxation.cpp:69-69`. -/
def pureGaugeOverrelaxationReads : List String :=
  ["beta", "name_action"]

/-- `PureGaugeUpdater.cpp:52-55`. -/
def pureGaugeUpdaterReads : List String :=
  ["beta", "name_action"]

/-- `PureGaugeWilsonLoops.cpp:95-155`. -/
def pureGaugeWilsonLoopsReads : List String :=
  ["PureGaugeWilsonLoops::max_r", "PureGaugeWilsonLoops::max_t", "PureGaugeWilsonLoops::number_subsweeps_luescher",
   "PureGaugeWilsonLoops::size_slice_luescher", "beta", "name_action"]

/-- `MeanScalarField.cpp:12-49`. -/
def meanScalarFieldReads : List String :=
  ["adjoint_nf_scalars", "fundamental_nf_scalars"]

/-- `MetropolisScalarUpdater.cpp:58-81`. -/
def metropolisScalarUpdaterReads : List String :=
  ["adjoint_nf_scalars", "fundamental_nf_scalars", "MetropolisScalarUpdater::adjoint_scalar_mass",
   "MetropolisScalarUpdater::fundamental_scalar_mass", "MetropolisScalarUpdater::adjoint_quartic_coupling",
   "MetropolisScalarUpdater::fundamental_quartic_coupling", "MetropolisScalarUpdater::lambda_8", "MetropolisScalarUpdater::lambda_mixed",
   "MetropolisScalarUpdater::epsilon", "MetropolisScalarUpdater::number_of_hits"]

/-- `RandomScalarUpdater.cpp:50-60`. -/
def randomScalarUpdaterReads : List String :=
  ["adjoint_nf_scalars", "fundamental_nf_scalars"]

/-- `ReadStartGaugeConfiguration.cpp:28-305`. -/
def readStartGaugeConfigurationReads : List String :=
  ["input_number", "input_format_name", "input_directory_configurations", "input_name", "beta", "kappa"]

/-- `TestLinearAlgebra.cpp:85-146`. -/
def testLinearAlgebraReads : List String :=
  ["OverlapOperator::squareRootApproximation", "kappa"]

/-- `TestSpeedDiracOperators.cpp:65-65`. -/
def testSpeedDiracOperatorsReads : List String :=
  ["TestSpeedDiracOperators::number_multiplication_test_speed"]

/-- `WilsonFlow.cpp:18-45`. -/
def wilsonFlowReads : List String :=
  ["WilsonFlow::flow_type", "WilsonFlow::flow_step", "WilsonFlow::flow_time", "WilsonFlow::flow_integration_intervals"]

/-- `WilsonLoop.cpp:30-44`. -/
def wilsonLoopReads : List String :=
  ["WilsonLoop::level_stout_smearing", "WilsonLoop::rho_stout_smearing", "WilsonLoop::max_r", "WilsonLoop::max_t", "WilsonLoop::t_dir"]

/-- What `DiracOperator::getInstance` reads, `DiracOperator.cpp:20-165`. -/
def diracReads (basename : String) : List String :=
  [basename ++ "kappa", basename ++ "csw", basename ++ "mass", basename ++ "OverlapOperator::squareRootApproximation",
   basename ++ "ExactOverlapOperator::squareRootApproximation", basename ++ "ExactOverlapOperator::eigensolver::eigensolver_precision",
   basename ++ "ExactOverlapOperator::eigensolver::use_chebyshev", basename ++ "ExactOverlapOperator::eigensolver::chebyshev_order",
   basename ++ "ExactOverlapOperator::eigensolver::chebyshev_left", basename ++ "ExactOverlapOperator::eigensolver::chebyshev_right",
   basename ++ "ExactOverlapOperator::eigensolver::maximal_number_restarts_eigensolver",
   basename ++ "ExactOverlapOperator::eigensolver::number_eigenvalues"]

/-- What the code shared by the sweeps reads: the environment, the fermion action, the reader and the Dirac operators. -/
def sharedReads : List String :=
  environmentReads ++ nFlavorFermionActionReads ++ readStartGaugeConfigurationReads ++ diracReads "" ++
  diracReads "MultiStepNFlavorUpdater::dirac_operator_metropolis::" ++ diracReads "MultiStepNFlavorUpdater::dirac_operator_force::"

/-- The names of the sweeps whose own file reads options, and these options. -/
def sweepReadsTable : List (String × List String) :=
  [("PureGaugeCM", pureGaugeUpdaterReads),
   ("PureGaugeHMC", pureGaugeHMCUpdaterReads),
   ("TwoFlavorQCD", twoFlavorHMCUpdaterReads),
   ("PureGaugeOverrelaxation", pureGaugeOverrelaxationReads),
   ("Output", outputSweepReads),
   ("TestLinearAlgebra", testLinearAlgebraReads),
   ("TestSpeedDiracOperators", testSpeedDiracOperatorsReads),
   ("Eigenvalues", eigenvaluesReads),
   ("MesonCorrelator", mesonCorrelatorReads),
   ("OverlapChiralRotation", overlapChiralRotationReads),
   ("ChiralCondensate", chiralCondensateReads),
   ("PolyakovLoopCorrelator", polyakovLoopCorrelatorReads),
   ("Glueball", glueballReads),
   ("GluinoGlue", gluinoGlueReads),
   ("PureGaugeWilsonLoops", pureGaugeWilsonLoopsReads),
   ("WilsonLoop", wilsonLoopReads),
   ("ReadGaugeConfiguration", readGaugeConfigurationReads),
   ("WilsonFlow", wilsonFlowReads),
   ("GaugeEnergy", gaugeEnergyReads),
   ("MultiStepNFlavor", multiStepNFlavorUpdaterReads),
   ("SingletOperators", singletOperatorsReads),
   ("XSpaceCorrelators", xSpaceCorrelatorsReads),
   ("NPRVertex", nPRVertexReads),
   ("LandauGaugeFixing", landauGaugeFixingReads),
   ("MaximalAbelianGaugeFixing", maximalAbelianGaugeFixingReads),
   ("LandauGluonPropagator", landauGluonPropagatorReads),
   ("LandauGhostPropagator", landauGhostPropagatorReads),
   ("ScalarFermionHMC", scalarFermionHMCUpdaterReads),
   ("HiggsGaugeHMC", higgsGaugeHMCUpdaterReads),
   ("RandomScalarInitializer", randomScalarUpdaterReads),
   ("MCScalar", metropolisScalarUpdaterReads),
   ("MeanScalarField", meanScalarFieldReads)]

/-- The options a sweep may read, without those put together at run time. -/
def sweepReads (name : String) : List String :=
  ((sweepReadsTable.find? fun p => p.1 = name).map fun p => p.2).getD [] ++ sharedReads

/-- The names put together in `initializeApproximations`, `MultiStepNFlavorUpdater.cpp:82-146`, and the same ones in
`ScalarFermionHMCUpdater.cpp:47-111`, for the values of `number_pseudofermions` and `number_force_levels`, in order.  Both are stored in
an `int`; values from 2^31 on are left out. -/
def rationalReads (pseudofermions levels : ℕ) : List String :=
  ((List.range pseudofermions).map fun i => "heatbath_rational_fraction_" ++ toString (i + 1)) ++
  ((List.range pseudofermions).map fun i => "metropolis_rational_fraction_" ++ toString (i + 1)) ++
  ((List.range levels).map fun i => "force_inverter_precision_level_" ++ toString (i + 1)) ++
  (List.range levels).flatMap fun i => (List.range pseudofermions).map fun j =>
    "force_rational_fraction_" ++ toString (j + 1) ++ "_level_" ++ toString (i + 1)

/-- Read a list of options in order. -/
def getOptions (o : Options) : List String → Outcome (List (List Char))
  | [] => .ok []
  | k :: ks => do
    let v ← getOption o k
    let vs ← getOptions o ks
    .ok (v :: vs)

/-- The first statements of `MaximalAbelianGaugeFixing::execute`, `MaximalAbelianGaugeFixing.cpp:12-19`, for `n` colours.  For `n ≠ 2` the
preprocessor removes the whole body (lines 13-306), so that nothing is read and nothing is done. -/
def abelianFixingReads (n : ℕ) (o : Options) : Outcome (List (List Char)) :=
  if n = 2 then
    getOptions o ["MaximalAbelianGaugeFixing::epsilon1", "MaximalAbelianGaugeFixing::epsilon2", "MaximalAbelianGaugeFixing::epsilon3"]
  else .ok []

/-- The first statement of `XSpaceCorrelators::execute`, `XSpaceCorrelators.cpp:11`. -/
def xSpaceCorrelatorsStart (o : Options) : Outcome (List Char) := getOption o "number_stochastic_estimators"

/-- The guarded read of `OverlapChiralRotation.cpp:86-106`: the text of the time slice of the source, `none` (slice 0) if it is missing. -/
def chiralRotationSource (o : Options) : Option (List Char) :=
  match getOption o "OverlapChiralRotation::t_source_origin" with
  | .ok v => some v
  | _ => none

end Leonard
