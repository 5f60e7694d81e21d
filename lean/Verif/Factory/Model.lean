/-
The factories: `/repo/source/LatticeSweep.cpp`, `starters/StartGaugeConfiguration.cpp`, `actions/GaugeAction.cpp`,
`hmc_integrators/Integrate.cpp`, `inverters/MultishiftSolver.cpp`, `dirac_operators/DiracOperator.cpp`,
`dirac_operators/BlockDiracOperator.cpp`, `wilson_flow/WilsonFlow.cpp`.

A component is represented by its class, and a Dirac operator by its class and settings.  Printing is left out.
-/
import Verif.Control.Model
import Mathlib.Data.Complex.Basic

set_option autoImplicit false

namespace Leonard

/-! ### Components without settings -/

/-- The classes of `StartGaugeConfiguration.cpp`. -/
inductive StartClass where
  | HotStartGaugeConfiguration
  | ColdStartGaugeConfiguration
  | ReadStartGaugeConfiguration
deriving DecidableEq

/-- `StartGaugeConfiguration::getInstance`, `StartGaugeConfiguration.cpp:12-23`. -/
def startInstance (name : String) : Outcome StartClass :=
  if name = "hotstart" then .ok .HotStartGaugeConfiguration
  else if name = "coldstart" then .ok .ColdStartGaugeConfiguration
  else if name = "readstart" then .ok .ReadStartGaugeConfiguration
  else .exit 1

/-- The classes of `GaugeAction.cpp`. -/
inductive ActionClass where
  | WilsonGaugeAction
  | ImprovedGaugeAction
deriving DecidableEq

/-- `GaugeAction::getInstance`, `GaugeAction.cpp:11-20`: the object has the class and `beta`. -/
def gaugeActionInstance (name : String) (beta : ℝ) : Outcome (ActionClass × ℝ) :=
  if name = "StandardWilson" then .ok (.WilsonGaugeAction, beta)
  else if name = "Improved" then .ok (.ImprovedGaugeAction, beta)
  else .exit 1

/-- The choice of the action in `WilsonFlow::execute`, `WilsonFlow.cpp:18-29`, for `n` colours: `beta` is `2n`.  For the Symanzik flow the
third number of the object, `u0`, is one. -/
def flowAction (name : String) (n : ℕ) : Outcome (ActionClass × ℝ) :=
  if name = "Wilson" then .ok (.WilsonGaugeAction, 2 * n)
  else if name = "Symanzik" then .ok (.ImprovedGaugeAction, 2 * n)
  else .exit 1

/-- The classes of `Integrate.cpp`. -/
inductive IntegratorClass where
  | LeapFrog
  | FourthOrderLeapFrog
  | SixthOrderLeapFrog
  | OmelyanLeapFrog
  | FourthOmelyanLeapFrog
deriving DecidableEq

/-- `Integrate::getInstance`, `Integrate.cpp:55-70`. -/
def integratorInstance (name : String) : Outcome IntegratorClass :=
  if name = "second_order" then .ok .LeapFrog
  else if name = "fourth_order" then .ok .FourthOrderLeapFrog
  else if name = "sixth_order" then .ok .SixthOrderLeapFrog
  else if name = "omelyan" then .ok .OmelyanLeapFrog
  else if name = "fourth_omelyan" then .ok .FourthOmelyanLeapFrog
  else .exit 1

/-- The classes of `MultishiftSolver.cpp`. -/
inductive MultishiftClass where
  | MEMultishiftSolver
  | ChronologicalMultishiftSolver
  | MMMRMultishiftSolver
deriving DecidableEq

/-- `MultishiftSolver::getInstance`, `MultishiftSolver.cpp:13-27`. -/
def multishiftInstance (name : String) : Outcome MultishiftClass :=
  if name = "mass_estrapolation" then .ok .MEMultishiftSolver
  else if name = "chronological_mass_estrapolation" then .ok .ChronologicalMultishiftSolver
  else if name = "minimal_residual" then .ok .MMMRMultishiftSolver
  else .exit 1

/-- The names and classes of `LatticeSweep::getInstance`, `LatticeSweep.cpp:52-139`, in order. -/
def sweepClasses : List (String × String) :=
  [("PureGaugeCM", "PureGaugeUpdater"), ("Plaquette", "Plaquette"), ("PureGaugeHMC", "PureGaugeHMCUpdater"),
   ("TwoFlavorQCD", "TwoFlavorHMCUpdater"), ("PureGaugeOverrelaxation", "PureGaugeOverrelaxation"), ("Output", "OutputSweep"),
   ("TestLinearAlgebra", "TestLinearAlgebra"), ("TestSpeedDiracOperators", "TestSpeedDiracOperators"), ("Eigenvalues", "Eigenvalues"),
   ("MesonCorrelator", "MesonCorrelator"), ("OverlapChiralRotation", "OverlapChiralRotation"), ("ChiralCondensate", "ChiralCondensate"),
   ("PolyakovLoop", "PolyakovLoop"), ("PolyakovLoopEigenvalues", "PolyakovLoopEigenvalues"),
   ("PolyakovLoopCorrelator", "PolyakovLoopCorrelator"), ("AdjointPolyakovLoop", "AdjointPolyakovLoop"), ("Glueball", "Glueball"),
   ("GluinoGlue", "GluinoGlue"), ("ReUnit", "ReUnit"), ("PureGaugeWilsonLoops", "PureGaugeWilsonLoops"), ("WilsonLoop", "WilsonLoop"),
   ("TestCommunication", "TestCommunication"), ("ReadGaugeConfiguration", "ReadGaugeConfiguration"), ("WilsonFlow", "WilsonFlow"),
   ("GaugeEnergy", "GaugeEnergy"), ("MultiStepNFlavor", "MultiStepNFlavorUpdater"), ("SingletOperators", "SingletOperators"),
   ("XSpaceCorrelators", "XSpaceCorrelators"), ("NPRVertex", "NPRVertex"), ("LandauGaugeFixing", "LandauGaugeFixing"),
   ("MaximalAbelianGaugeFixing", "MaximalAbelianGaugeFixing"), ("MaximalAbelianProjection", "MaximalAbelianProjection"),
   ("LandauGluonPropagator", "LandauGluonPropagator"), ("LandauGhostPropagator", "LandauGhostPropagator"),
   ("ScalarFermionHMC", "ScalarFermionHMCUpdater"), ("HiggsGaugeHMC", "HiggsGaugeHMCUpdater"),
   ("RandomScalarInitializer", "RandomScalarUpdater"), ("MCScalar", "MetropolisScalarUpdater"), ("MeanScalarField", "MeanScalarField"),
   ("RandomGaugeTransformation", "RandomGaugeTransformation")]

/-- `LatticeSweep::getInstance`, `LatticeSweep.cpp:52-139`, with the class of the object: the first branch with this name. -/
def sweepClass (name : String) : Outcome String :=
  match sweepClasses.find? fun p => p.1 = name with
  | some p => .ok p.2
  | none => .exit 1

/-- The names printed by `LatticeSweep::printSweepsName`, `LatticeSweep.cpp:253-299`. -/
def printedSweeps : List String :=
  ["PureGaugeCM", "Plaquette", "PureGaugeHMC", "TwoFlavorQCD", "PureGaugeOverrelaxation", "Output", "TestLinearAlgebra",
   "TestSpeedDiracOperators", "Eigenvalues", "MesonCorrelator", "OverlapChiralRotation", "ChiralCondensate", "PolyakovLoop",
   "PolyakovLoopEigenvalues", "PolyakovLoopCorrelator", "AdjointPolyakovLoop", "Glueball", "GluinoGlue", "ReUnit",
   "PureGaugeWilsonLoops", "WilsonLoop", "TestCommunication", "ReadGaugeConfiguration", "WilsonFlow", "GaugeEnergy",
   "MultiStepNFlavor", "SingletOperators", "XSpaceCorrelators", "NPRVertex", "LandauGaugeFixing", "MaximalAbelianGaugeFixing",
   "MaximalAbelianProjection", "LandauGluonPropagator", "LandauGhostPropagator", "ScalarFermionHMC", "HiggsGaugeHMC",
   "RandomScalarInitializer", "MCScalar", "RandomGaugeTransformation", "MeanScalarField"]

/-! ### Dirac operators -/

/-- The classes of `DiracOperator.cpp`; the square of an overlap operator owns an overlap operator of one of two classes. -/
inductive DiracClass where
  | DiracWilsonOperator
  | BasicDiracWilsonOperator
  | ImprovedDiracWilsonOperator
  | OverlapOperator
  | ExactOverlapOperator
  | SquareDiracWilsonOperator
  | BasicSquareDiracWilsonOperator
  | SquareImprovedDiracWilsonOperator
  | SquareOverlapOperator (exact : Bool)
deriving DecidableEq

/-- The settings of an operator: those of `DiracOperator`, `csw`, and the mass and the polynomial (scaling and roots) of the overlap operators.
`clover` are the links for which `updateFieldStrength` has computed the clover term, `none` before. The settings of the eigenvalue
solver of the exact overlap operator are left out. -/
structure DiracObject (L : Type) where
  name : String
  cls : DiracClass
  kappa : ℝ
  csw : ℝ
  mass : ℝ
  approximation : ℂ × List ℂ
  gamma5 : Bool
  lattice : L
  clover : Option L

/-- What the factory reads from the options: `get<double>` and `get< vector< complex > >`. -/
structure DiracReader where
  real : String → Outcome ℝ
  complexes : String → Outcome (List ℂ)

variable {L : Type}

/-- The constructors: `DiracOperator.cpp:14`, `ImprovedDiracWilsonOperator.cpp:14`; `l0` are the links of a new object. The mass of a new
overlap operator is not initialised but always set. -/
def newDirac (l0 : L) (c : DiracClass) : DiracObject L := ⟨"", c, 0, 0, 0, (1, []), true, l0, none⟩

/-- The scaling is the first number and the roots are the others, `DiracOperator.cpp:46-50`; `front` of an empty vector is undefined. -/
def readApproximation (r : DiracReader) (key : String) : Outcome (ℂ × List ℂ) := do
  match ← r.complexes key with
  | [] => .ub
  | c :: l => .ok (c, l)

/-- The case of one of the Wilson operators without clover term, for example `DiracOperator.cpp:22-27`. -/
def newWilson (l0 : L) (r : DiracReader) (basename name : String) (c : DiracClass) : Outcome (DiracObject L) := do
  let kappa ← r.real (basename ++ "kappa")
  .ok { newDirac l0 c with kappa := kappa, name := name }

/-- The case of an operator with clover term, `DiracOperator.cpp:34-40`, `:95-101`. -/
def newImproved (l0 : L) (r : DiracReader) (basename name : String) (c : DiracClass) : Outcome (DiracObject L) := do
  let kappa ← r.real (basename ++ "kappa")
  let csw ← r.real (basename ++ "csw")
  .ok { newDirac l0 c with kappa := kappa, csw := csw, name := name }

/-- The case of an overlap operator, `DiracOperator.cpp:41-56`, `:57-83`, `:108-125`, `:126-156`. -/
def newOverlap (l0 : L) (r : DiracReader) (basename name : String) (c : DiracClass) (key : String) : Outcome (DiracObject L) := do
  let kappa ← r.real (basename ++ "kappa")
  let mass ← r.real (basename ++ "mass")
  let a ← readApproximation r (basename ++ key)
  .ok { newDirac l0 c with kappa := kappa, mass := mass, approximation := a, name := name }

/-- `DiracOperator::getInstance`, `DiracOperator.cpp:20-165`. -/
def diracInstance (l0 : L) (name : String) (power : ℕ) (r : DiracReader) (basename : String) : Outcome (DiracObject L) :=
  if power = 1 then
    if name = "DiracWilson" then newWilson l0 r basename name .DiracWilsonOperator
    else if name = "BasicDiracWilson" then newWilson l0 r basename name .BasicDiracWilsonOperator
    else if name = "Improved" then newImproved l0 r basename name .ImprovedDiracWilsonOperator
    else if name = "Overlap" then newOverlap l0 r basename name .OverlapOperator "OverlapOperator::squareRootApproximation"
    else if name = "ExactOverlap" then newOverlap l0 r basename name .ExactOverlapOperator "ExactOverlapOperator::squareRootApproximation"
    else .exit 1
  else if power = 2 then
    if name = "DiracWilson" then newWilson l0 r basename name .SquareDiracWilsonOperator
    else if name = "Improved" then newImproved l0 r basename name .SquareImprovedDiracWilsonOperator
    else if name = "BasicDiracWilson" then newWilson l0 r basename name .BasicSquareDiracWilsonOperator
    else if name = "Overlap" then newOverlap l0 r basename name (.SquareOverlapOperator false) "OverlapOperator::squareRootApproximation"
    else if name = "ExactOverlap" then
      newOverlap l0 r basename name (.SquareOverlapOperator true) "ExactOverlapOperator::squareRootApproximation"
    else .exit 1
  else .exit 1

/-- `setLattice`, `DiracOperator.cpp:332-334`; the classes with clover term compute it, `ImprovedDiracWilsonOperator.cpp:489-492`,
`SquareImprovedDiracWilsonOperator.cpp:25-28`. -/
def DiracObject.setLattice (d : DiracObject L) (l : L) : DiracObject L :=
  match d.cls with
  | .ImprovedDiracWilsonOperator | .SquareImprovedDiracWilsonOperator => { d with lattice := l, clover := some l }
  | _ => { d with lattice := l }

/-- `DiracOperator::getSquareRoot`, `DiracOperator.cpp:184-229`: the links are assigned to the member, without `setLattice`. -/
def diracSquareRoot (l0 : L) (d : DiracObject L) : Outcome (DiracObject L) :=
  if d.name = "DiracWilson" then
    if d.cls = .SquareDiracWilsonOperator then
      .ok { newDirac l0 .DiracWilsonOperator with kappa := d.kappa, name := d.name, lattice := d.lattice, gamma5 := d.gamma5 }
    else .exit 1
  else if d.name = "Improved" then
    if d.cls = .SquareImprovedDiracWilsonOperator then
      .ok { newDirac l0 .ImprovedDiracWilsonOperator with
        kappa := d.kappa, csw := d.csw, name := d.name, lattice := d.lattice, gamma5 := d.gamma5 }
    else .exit 1
  else if d.name = "BasicDiracWilson" then
    if d.cls = .BasicSquareDiracWilsonOperator then
      .ok { newDirac l0 .BasicDiracWilsonOperator with kappa := d.kappa, name := d.name, lattice := d.lattice, gamma5 := d.gamma5 }
    else .exit 1
  else .exit 1

/-- `DiracOperator::getSquare`, `DiracOperator.cpp:231-310`.  An exact overlap operator is an overlap operator for `dynamic_cast`; an
operator named "ExactOverlap" of the class `OverlapOperator` would give a null pointer (line 291).  The code shares the overlap operator
with its square in the first overlap case (line 276), here it is copied; the class `EvenOddImprovedDiracWilsonOperator`, which is an
`ImprovedDiracWilsonOperator` for `dynamic_cast` but is never made by `getInstance`, is left out. -/
def diracSquare (l0 : L) (d : DiracObject L) : Outcome (DiracObject L) :=
  if d.name = "DiracWilson" then
    if d.cls = .DiracWilsonOperator then
      .ok { ({ newDirac l0 .SquareDiracWilsonOperator with kappa := d.kappa, name := d.name }.setLattice d.lattice) with gamma5 := d.gamma5 }
    else .exit 1
  else if d.name = "Improved" then
    if d.cls = .ImprovedDiracWilsonOperator then
      .ok { ({ newDirac l0 .SquareImprovedDiracWilsonOperator with kappa := d.kappa, csw := d.csw, name := d.name }.setLattice d.lattice) with
        gamma5 := d.gamma5 }
    else .exit 1
  else if d.name = "BasicDiracWilson" then
    if d.cls = .BasicDiracWilsonOperator then
      .ok { ({ newDirac l0 .BasicSquareDiracWilsonOperator with kappa := d.kappa, name := d.name }.setLattice d.lattice) with
        gamma5 := d.gamma5 }
    else .exit 1
  else if d.name = "Overlap" then
    if d.cls = .OverlapOperator ∨ d.cls = .ExactOverlapOperator then
      .ok { ({ newDirac l0 (.SquareOverlapOperator (decide (d.cls = DiracClass.ExactOverlapOperator))) with kappa := d.kappa, name := d.name }.setLattice
        d.lattice) with gamma5 := d.gamma5, mass := d.mass, approximation := d.approximation }
    else .exit 1
  else if d.name = "ExactOverlap" then
    if d.cls = .ExactOverlapOperator then
      .ok { ({ newDirac l0 (.SquareOverlapOperator true) with kappa := d.kappa, name := d.name }.setLattice d.lattice) with
        gamma5 := d.gamma5, mass := d.mass, approximation := d.approximation }
    else if d.cls = .OverlapOperator then .ub
    else .exit 1
  else .exit 1

/-! ### Block operators -/

/-- The classes of `BlockDiracOperator.cpp`. -/
inductive BlockClass where
  | BlockDiracWilsonOperator
  | BlockImprovedDiracWilsonOperator
  | SquareBlockDiracWilsonOperator
deriving DecidableEq

/-- `BlockDiracOperator::getInstance`, `BlockDiracOperator.cpp:18-46`; the values are the class, the colour (`true` for `Red`; `Black` is the
default), `kappa` and `csw` (0 where there is none). -/
def blockInstance (name : String) (power : ℕ) (r : DiracReader) (red : Bool) : Outcome (BlockClass × Bool × ℝ × ℝ) :=
  if power = 1 then
    if name = "DiracWilson" then do
      let kappa ← r.real "kappa"
      .ok (.BlockDiracWilsonOperator, red, kappa, 0)
    else if name = "Improved" then do
      let kappa ← r.real "kappa"
      let csw ← r.real "csw"
      .ok (.BlockImprovedDiracWilsonOperator, red, kappa, csw)
    else .exit 1
  else if power = 2 then
    if name = "DiracWilson" then do
      let kappa ← r.real "kappa"
      .ok (.SquareBlockDiracWilsonOperator, false, kappa, 0)
    else .exit 1
  else .exit 1

end Leonard
