import Verif.Layout.Props
import Verif.Layout.MpiProps
import Verif.Control.Props
import Verif.Output.Props
import Verif.Io.Props
import Verif.Gauge.Props
import Verif.Gauge.CheckerboardProps
import Verif.Gauge.UpdatesProps
import Verif.Gauge.OverrelaxProps
import Verif.Gauge.ExpMapProps
import Verif.Smear.Props
import Verif.Smear.Slices
import Verif.Rep.Props
import Verif.Rep.AdjointProps
import Verif.Output.SepProps
import Verif.Bc.Props
import Verif.Dirac.GammaProps
import Verif.Dirac.Props
import Verif.Dirac.HermProps
import Verif.Dirac.EvenOddProps
import Verif.Solver.Props
import Verif.Solver.ShiftProps
import Verif.Solver.SettingsProps
import Verif.Poly.Props
import Verif.Hmc.Props
import Verif.Hmc.MomentaProps
import Verif.Hmc.StationaryProps
import Verif.Hmc.TwoFlavorProps
import Verif.Hmc.Toolkit
import Verif.Multigrid.Props
import Verif.Fixing.Props
import Verif.Fixing.CounterProps
import Verif.Fixing.Temper
import Verif.Fixing.TemperProps
import Verif.Sap.Model
import Verif.Sap.Props
import Verif.Factory.OptionProps
import Verif.Order.Series
import Verif.Order.Flow
import Verif.Order.Fields
import Verif.Order.Smooth
import Verif.Order.Spec
import Verif.Order.Props
import Verif.Order.Steps
import Verif.Order.StepProps
import Verif.Order.Words
import Verif.Order.ErrorProps
import Verif.Order.CountProps
import Verif.Order.RungeKutta
import Verif.Order.RungeKuttaOrder
import Verif.Order.FlowExist
import Verif.Order.FlowProps
import Verif.Force.Model
import Verif.Force.Linear
import Verif.Force.Fields
import Verif.Force.Energy
import Verif.Force.Wilson
import Verif.Force.Gradient
import Verif.Force.Run
import Verif.Force.Props
import Verif.Force.CounterProps
import Verif.Force.OrderProps
import Verif.Scalar.Props
import Verif.Scalar.ForceProps
import Verif.Scalar.CounterProps
import Verif.Scalar.MetropolisProps
import Verif.Scalar.HiggsProps
import Verif.Measure.Model
import Verif.Measure.Symmetry
import Verif.Measure.BoxSymmetry
import Verif.Measure.Energy
import Verif.Measure.FlowProps
import Verif.Measure.LoopProps
import Verif.Meson.Model
import Verif.Meson.Green
import Verif.Meson.Moments
import Verif.Meson.Props
import Verif.Meson.Bound
import Verif.Meson.BoundProps
import Verif.Meson.Ineq
import Verif.Meson.Counter
import Verif.Meson.NoiseProps
import Verif.Meson.Examples
import Verif.Heat.Integrals
import Verif.Heat.Rejection
import Verif.Heat.Radius
import Verif.Heat.Haar
import Verif.Heat.Gibbs
import Verif.Heat.Law
import Verif.Heat.Step
import Verif.Heat.Null
import Verif.Heat.Chain
import Verif.Heat.Staples
import Verif.Heat.Model
import Verif.Heat.Sweep
import Verif.Heat.Props
import Verif.Heat.OverModel
import Verif.Heat.Reflect
import Verif.Heat.OverProps
import Verif.Heat.Hot
import Verif.Heat.HotProps
import Verif.Level.Model
import Verif.Level.Region
import Verif.Level.Chain
import Verif.Level.Lines
import Verif.Level.Law
import Verif.Level.Steps
import Verif.Level.Props
import Verif.Force.CloverModel
import Verif.Force.Clover
import Verif.Force.CloverLink
import Verif.Force.CloverForce
import Verif.Force.CloverProps
import Verif.Stout.Model
import Verif.Stout.Ridder
import Verif.Stout.Once
import Verif.Stout.Motion
import Verif.Stout.Force
import Verif.Stout.Accuracy
import Verif.Stout.Props
import Verif.Stout.CounterProps
import Verif.Overlap.Model
import Verif.Overlap.Algebra
import Verif.Overlap.Force
import Verif.Overlap.Spectral
import Verif.Overlap.Sign
import Verif.Overlap.Props
import Verif.Overlap.CounterProps
import Verif.Landau.Model
import Verif.Landau.Gluon
import Verif.Landau.GluonLemmas
import Verif.Landau.Parseval
import Verif.Landau.GluonProps
import Verif.Landau.Ghost
import Verif.Landau.GhostProps
import Verif.Chiral.Model
import Verif.Chiral.ExpLemmas
import Verif.Chiral.Lemmas
import Verif.Chiral.Props
import Verif.Arnoldi.Model
import Verif.Arnoldi.QR
import Verif.Arnoldi.Invariant
import Verif.Arnoldi.Restart
import Verif.Arnoldi.Shift
import Verif.Arnoldi.Process
import Verif.Arnoldi.Ritz
import Verif.Arnoldi.Result
import Verif.Arnoldi.Bounds
import Verif.Arnoldi.Example
import Verif.Arnoldi.Props
import Verif.Npr.Model
import Verif.Npr.Vertex
import Verif.Npr.Ward
import Verif.Npr.Props
import Verif.Npr.Examples
import Verif.Singlet.Model
import Verif.Singlet.Lemmas
import Verif.Singlet.Props
import Verif.Singlet.Examples
import Verif.Xspace.Model
import Verif.Xspace.Props
import Verif.Xspace.Examples
import Verif.Xspace.Noisy
import Verif.Xspace.NoisyProps
import Verif.Xspace.NoisyCounter
import Verif.Xspace.Mean
import Verif.Gluino.Model
import Verif.Gluino.Lemmas
import Verif.Gluino.Props
import Verif.Gluino.Examples
import Verif.Seed.Model
import Verif.Seed.Props
import Verif.Histogram.Model
import Verif.Histogram.Props
import Verif.Meanfield.Model
import Verif.Meanfield.Props
import Verif.Shiftmg.Model
import Verif.Shiftmg.Lemmas
import Verif.Shiftmg.Props
import Verif.Shiftmg.Examples
import Verif.Blockclover.Model
import Verif.Blockclover.Props
import Verif.Testforce.Model
import Verif.Testforce.Props
import Verif.Rhmc.Model
import Verif.Rhmc.Lemmas
import Verif.Rhmc.Spectral
import Verif.Rhmc.Bias
import Verif.Rhmc.General
import Verif.Rhmc.Props
import Verif.Rhmc.ScalarProps
import Verif.Blockforce.Model
import Verif.Blockforce.Props
import Verif.Mgtrace.Model
import Verif.Mgtrace.Props
import Verif.Chebeigen.Model
import Verif.Chebeigen.Filter
import Verif.Chebeigen.Props
import Verif.Rhmc.Tolerance
import Verif.Testcomm.Model
import Verif.Testcomm.Props
import Verif.Randscalar.Model
import Verif.Randscalar.Gauss
import Verif.Randscalar.Props
import Verif.Exactov.Model
import Verif.Exactov.Props
import Verif.Solver.Rate
import Verif.Sap.Gmres
import Verif.Mgsolve.Model
import Verif.Mgsolve.Props
import Verif.Linalg.Model
import Verif.Linalg.Props
import Verif.Linalg.Solvable
import Verif.Linalg.Overlap
import Verif.Mgsetup.Model
import Verif.Mgsetup.Props
