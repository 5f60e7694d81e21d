/-
Rational hybrid Monte Carlo.

Sources: `/repo/source/hmc_updaters/MultiStepNFlavorUpdater.cpp`, `/repo/source/hmc_updaters/ScalarFermionHMCUpdater.cpp`,
`/repo/source/dirac_functions/RationalApproximation.cpp`.

Simplifications: real arithmetic; the multishift solver is a function `solveShift` of links, shift and vector (its precision is not
modelled here, see C37 and C82); components of the fermion fields are labelled by a finite type.  The fields on which the object
works (actions, approximations, operators) are those of this call: the approximations and actions are made once and kept.  The option
`check_rational_approximations` only prints.
-/
import Verif.Hmc.Model
import Verif.Force.Model
import Verif.Scalar.Model

set_option autoImplicit false

namespace Leonard

noncomputable section

variable {N n : ℕ} {S κ : Type}

/-- The coefficients of a partial fraction from an option with the list `rat`, `MultiStepNFlavorUpdater.cpp` 84-95, 102-113 and 131-142: the
first half are the numerators, the second half the shifts, and the twist is added to every shift.  With an odd number of entries there
are more shifts than numerators, and the evaluation (`RationalApproximation.cpp` 34) reads past the end of the numerators. -/
def readFraction (twist : ℝ) (rat : List ℝ) : Outcome (List (ℝ × ℝ)) :=
  if rat.length % 2 = 0 then .ok ((rat.take (rat.length / 2)).zip ((rat.drop (rat.length / 2)).map fun β => β + twist)) else .ub

/-- `RationalApproximation::evaluate` for an operator, `RationalApproximation.cpp` 18-43, with the solutions of the multishift solver. -/
def fractionSolve (solve : ℝ → (κ → ℂ) → κ → ℂ) (r : List (ℝ × ℝ)) (v : κ → ℂ) : κ → ℂ :=
  (r.map fun p => (p.1 : ℂ) • solve p.2 v).sum

/-- `RationalApproximation::evaluate` for a number, `RationalApproximation.cpp` 45-53, for numbers that are not poles. -/
def fractionEvaluate (r : List (ℝ × ℝ)) (x : ℝ) : ℝ := r.foldl (fun result p => result + p.1 / (x + p.2)) 0

/-- The numbers of `MultiStepNFlavorUpdater::checkTheory`, `MultiStepNFlavorUpdater.cpp` 150-178, in the order of the lines: the number of
flavours printed, the warning that force and accept/reject step do not match, and the warning that Gaussian fields and accept/reject
step do not match.  `force` are the fractions of the first level. -/
def checkTheory (force metro heat : Fin n → List (ℝ × ℝ)) : ℝ × Bool × Bool :=
  let testerForce := ∏ i, fractionEvaluate (force i) 2
  let testerMetropolis := ∏ i, fractionEvaluate (metro i) 2
  let testerHeatBath := ∏ i, fractionEvaluate (heat i) 2
  (-2 * Real.log testerMetropolis / Real.log 2,
    decide (|testerMetropolis / testerForce - 1| > 0.0001),
    decide (|testerMetropolis * testerHeatBath * testerHeatBath - 1| > 0.0001))

/-- `AlgebraUtils::dot` of two fermion fields with components labelled by `κ`. -/
def fermionDot [Fintype κ] (v w : κ → ℂ) : ℂ := ∑ k, starRingEnd ℂ (v k) * w k

/-- The common part of `MultiStepNFlavorUpdater::execute` (`MultiStepNFlavorUpdater.cpp` 212-386) and `ScalarFermionHMCUpdater::execute`
(`ScalarFermionHMCUpdater.cpp` 190-370).  The momenta `P`, the Gaussian fields `η` (one for every pseudofermion) and the random number `u` have
been drawn.  `heat` and `metro` are the fractions of the Gaussian fields and of the accept/reject step; `energy` is the energy of the links
without the pseudofermions; the forces depend on the pseudofermions `φ`.  The result is the configuration after the sweep. -/
def rationalExecute {ι : Type} [Fintype S] [Fintype κ] (E : ℝ → Mat N → Mat N → Mat N) (solveShift : GField S N → ℝ → (κ → ℂ) → κ → ℂ)
    (energy : GField S N → ℝ) (force : (Fin n → κ → ℂ) → ι → GField S N → GField S N) (heat metro : Fin n → List (ℝ × ℝ)) (integrator : String)
    (forces : List ι) (steps : List ℕ) (t : ℝ) (P : GField S N) (η : Fin n → κ → ℂ) (U : GField S N) (u : ℝ) : Outcome (GField S N) :=
  let φ := fun j => fractionSolve (solveShift U) (heat j) (η j)
  mdIntegrate integrator forces steps t >>= fun l =>
    let new := mdRun E (force φ) l (U, P)
    .ok (if metropolisLocal (some (momentaEnergy P + energy U + ∑ j, fermionNormSq (η j)))
        (some (momentaEnergy new.2 + energy new.1 + ∑ j, (fermionDot (φ j) (fractionSolve (solveShift new.1) (metro j) (φ j))).re)) u
      then new.1 else U)

/-- `MultiStepNFlavorUpdater::execute`, `MultiStepNFlavorUpdater.cpp` 180-386; the fermion forces depend on the pseudofermions and the level. -/
def nFlavorExecute [Fintype S] [Fintype κ] (E : ℝ → Mat N → Mat N → Mat N) (solveShift : GField S N → ℝ → (κ → ℂ) → κ → ℂ)
    (energy : GField S N → ℝ) (fermionForce : (Fin n → κ → ℂ) → ℕ → GField S N → GField S N) (gaugeForce : GField S N → GField S N)
    (heat metro : Fin n → List (ℝ × ℝ)) (levels : ℕ) (integrator : String) (steps : List ℕ) (t : ℝ) (P : GField S N) (η : Fin n → κ → ℂ)
    (U : GField S N) (u : ℝ) : Outcome (GField S N) :=
  nFlavorForces levels steps >>= fun fs =>
    rationalExecute E solveShift energy (fun φ => nFlavorForce (fermionForce φ) gaugeForce) heat metro integrator fs.1 fs.2 t P η U u

/-! ### Fermions and scalars -/

/-- The objects that can be handed to the integrator by `ScalarFermionHMCUpdater`. -/
inductive ScalarFermionForce where
  | action
  | fermion (level : ℕ)
  | scalar
  | gauge
  deriving DecidableEq

/-- The forces and numbers of steps of `ScalarFermionHMCUpdater.cpp` 266-303; `levels` is `number_force_levels`, the length of the array of fermion
actions.  In all other cases `numbers_steps.resize(1)` keeps the first number or adds a zero, but two forces are used. -/
def scalarFermionForces (levels : ℕ) (steps : List ℕ) : Outcome (List ScalarFermionForce × List ℕ) :=
  if levels = 0 then .ub
  else match steps with
  | [m, n] => .ok ([.action, .scalar], [m, n])
  | [l, m, n] => .ok ([.fermion 0, .scalar, .gauge], [l, m, n])
  | [k, l, m, n] => if 2 ≤ levels then .ok ([.fermion 1, .fermion 0, .scalar, .gauge], [k, l, m, n]) else .ub
  | [j, k, l, m, n] => if 3 ≤ levels then .ok ([.fermion 2, .fermion 1, .fermion 0, .scalar, .gauge], [j, k, l, m, n]) else .ub
  | ns => .ok ([.action, .scalar], [ns.headD 0])

/-- The field of a force: `NFlavorQCDAction.cpp` 14-32, `NFlavorFermionAction.cpp` 76-158, `ScalarAction.cpp` and `GaugeAction.cpp`. -/
def scalarFermionForce (fermionForce : ℕ → GField S N → GField S N) (scalarForce gaugeForce : GField S N → GField S N) :
    ScalarFermionForce → GField S N → GField S N
  | .action, U => fun s μ => fermionForce 0 U s μ + gaugeForce U s μ
  | .fermion k, U => fermionForce k U
  | .scalar, U => scalarForce U
  | .gauge, U => gaugeForce U

variable {nA nF : ℕ}

/-- `ScalarFermionHMCUpdater::execute`, `ScalarFermionHMCUpdater.cpp` 140-372, with the couplings `c` of the first call and the numbers of fields of
the options (155-162). -/
def scalarFermionExecute [Fintype S] [Fintype κ] (E : ℝ → Mat N → Mat N → Mat N) (optA optF : ℕ) (c : ScalarCouplings) (T : Torus S)
    (Φ : Scalars S N nA nF) (solveShift : GField S N → ℝ → (κ → ℂ) → κ → ℂ)
    (gaugeEnergy : GField S N → ℝ) (fermionForce : (Fin n → κ → ℂ) → ℕ → GField S N → GField S N) (gaugeForce : GField S N → GField S N)
    (heat metro : Fin n → List (ℝ × ℝ)) (levels : ℕ) (integrator : String) (steps : List ℕ) (t : ℝ) (P : GField S N) (η : Fin n → κ → ℂ)
    (U : GField S N) (u : ℝ) : Outcome (GField S N) :=
  if optA ≠ nA then .exit 97
  else if optF ≠ nF then .exit 97
  else scalarFermionForces levels steps >>= fun fs =>
    rationalExecute E solveShift (fun U => gaugeEnergy U + scalarEnergy c T U Φ)
      (fun φ => scalarFermionForce (fermionForce φ) (scalarUpdateForce T Φ) gaugeForce) heat metro integrator fs.1 fs.2 t P η U u

end

end Leonard
