/-
What the names of the components mean, as tables that do not mention the factories.
-/
import Verif.Factory.Model

set_option autoImplicit false

namespace Leonard

/-- A factory follows a table: it returns exactly the component that stands beside the name, and stops with status 1 on every name that
is not in the table. -/
def FollowsTable {C : Type} (factory : String → Outcome C) (table : List (String × C)) : Prop :=
  (∀ name c, factory name = .ok c ↔ (name, c) ∈ table) ∧ ∀ name, (∀ c, (name, c) ∉ table) → factory name = .exit 1

/-- The ways to start a simulation. -/
def starterTable : List (String × StartClass) :=
  [("coldstart", .ColdStartGaugeConfiguration), ("hotstart", .HotStartGaugeConfiguration), ("readstart", .ReadStartGaugeConfiguration)]

/-- The gauge actions. -/
def actionTable : List (String × ActionClass) := [("Improved", .ImprovedGaugeAction), ("StandardWilson", .WilsonGaugeAction)]

/-- The actions of the gradient flow. -/
def flowTable : List (String × ActionClass) := [("Symanzik", .ImprovedGaugeAction), ("Wilson", .WilsonGaugeAction)]

/-- The integrators. -/
def integratorTable : List (String × IntegratorClass) :=
  [("fourth_omelyan", .FourthOmelyanLeapFrog), ("fourth_order", .FourthOrderLeapFrog), ("omelyan", .OmelyanLeapFrog),
   ("second_order", .LeapFrog), ("sixth_order", .SixthOrderLeapFrog)]

/-- The solvers for several shifts. -/
def multishiftTable : List (String × MultishiftClass) :=
  [("chronological_mass_estrapolation", .ChronologicalMultishiftSolver), ("mass_estrapolation", .MEMultishiftSolver),
   ("minimal_residual", .MMMRMultishiftSolver)]

/-- The discretisations of the Dirac operator. -/
inductive Discretisation where
  | wilson
  | basicWilson
  | clover
  | overlap
  | exactOverlap
deriving DecidableEq

/-- Their names. -/
def discretisationTable : List (String × Discretisation) :=
  [("BasicDiracWilson", .basicWilson), ("DiracWilson", .wilson), ("ExactOverlap", .exactOverlap), ("Improved", .clover),
   ("Overlap", .overlap)]

/-- The discretisation an operator class implements. -/
def DiracClass.discretisation : DiracClass → Discretisation
  | .DiracWilsonOperator | .SquareDiracWilsonOperator => .wilson
  | .BasicDiracWilsonOperator | .BasicSquareDiracWilsonOperator => .basicWilson
  | .ImprovedDiracWilsonOperator | .SquareImprovedDiracWilsonOperator => .clover
  | .OverlapOperator | .SquareOverlapOperator false => .overlap
  | .ExactOverlapOperator | .SquareOverlapOperator true => .exactOverlap

/-- The power of the operator that a class implements. -/
def DiracClass.power : DiracClass → ℕ
  | .SquareDiracWilsonOperator | .BasicSquareDiracWilsonOperator | .SquareImprovedDiracWilsonOperator | .SquareOverlapOperator _ => 2
  | _ => 1

/-- The sweeps: the name in the configuration file and the class that does the work, in alphabetical order. -/
def sweepTable : List (String × String) :=
  [("AdjointPolyakovLoop", "AdjointPolyakovLoop"), ("ChiralCondensate", "ChiralCondensate"), ("Eigenvalues", "Eigenvalues"),
   ("GaugeEnergy", "GaugeEnergy"), ("Glueball", "Glueball"), ("GluinoGlue", "GluinoGlue"), ("HiggsGaugeHMC", "HiggsGaugeHMCUpdater"),
   ("LandauGaugeFixing", "LandauGaugeFixing"), ("LandauGhostPropagator", "LandauGhostPropagator"),
   ("LandauGluonPropagator", "LandauGluonPropagator"), ("MCScalar", "MetropolisScalarUpdater"),
   ("MaximalAbelianGaugeFixing", "MaximalAbelianGaugeFixing"), ("MaximalAbelianProjection", "MaximalAbelianProjection"),
   ("MeanScalarField", "MeanScalarField"), ("MesonCorrelator", "MesonCorrelator"), ("MultiStepNFlavor", "MultiStepNFlavorUpdater"),
   ("NPRVertex", "NPRVertex"), ("Output", "OutputSweep"), ("OverlapChiralRotation", "OverlapChiralRotation"), ("Plaquette", "Plaquette"),
   ("PolyakovLoop", "PolyakovLoop"), ("PolyakovLoopCorrelator", "PolyakovLoopCorrelator"),
   ("PolyakovLoopEigenvalues", "PolyakovLoopEigenvalues"), ("PureGaugeCM", "PureGaugeUpdater"), ("PureGaugeHMC", "PureGaugeHMCUpdater"),
   ("PureGaugeOverrelaxation", "PureGaugeOverrelaxation"), ("PureGaugeWilsonLoops", "PureGaugeWilsonLoops"),
   ("RandomGaugeTransformation", "RandomGaugeTransformation"), ("RandomScalarInitializer", "RandomScalarUpdater"), ("ReUnit", "ReUnit"),
   ("ReadGaugeConfiguration", "ReadGaugeConfiguration"), ("ScalarFermionHMC", "ScalarFermionHMCUpdater"),
   ("SingletOperators", "SingletOperators"), ("TestCommunication", "TestCommunication"), ("TestLinearAlgebra", "TestLinearAlgebra"),
   ("TestSpeedDiracOperators", "TestSpeedDiracOperators"), ("TwoFlavorQCD", "TwoFlavorHMCUpdater"), ("WilsonFlow", "WilsonFlow"),
   ("WilsonLoop", "WilsonLoop"), ("XSpaceCorrelators", "XSpaceCorrelators")]

end Leonard
