import Verif.Bc.Model
import Verif.Dirac.HermModel
import Verif.Rep.Props

/-!
# The force of the fermions on the links

Sources: `/repo/source/hmc_forces/FermionForce.cpp`, `/repo/source/hmc_forces/DiracWilsonFermionForce.cpp`,
`/repo/source/actions/TwoFlavorFermionAction.cpp`, `/repo/source/actions/NFlavorFermionAction.cpp`.

Exact complex numbers.  The loops over sites touch only their own site and are written pointwise.  The solvers are modelled as functions:
`solve L φ` stands for the vector found by `BiConjugateGradient::solve` for the operator on the fermion links `L`, and `solveShift L β φ` for
the vector found by the multishift solver for the squared operator plus `β` (see C25 for what the solvers themselves do).  Stout smearing is
off (`stout_smearing_levels = 0`), so `SmearingForce` is not used.
-/

set_option autoImplicit false

namespace Leonard

open Matrix

noncomputable section
variable {S : Type} {N M : ℕ}

/-- What the build decides about the fermions: how a gauge link becomes a fermion link (`ConvertLattice`) and the generators of the
representation (`fermionLieGenerator`, `FermionForce.h`), numbered like the generators of the gauge group. -/
structure FermionRep (N M : ℕ) where
  link : Mat N → Mat M
  gen : Fin (lieGenerators N).length → Mat M

/-- Fundamental fermions: the build without `ADJOINT`. -/
def fundamentalRep (N : ℕ) : FermionRep N N := ⟨id, gens N⟩

/-- Adjoint fermions: the build with `ADJOINT`; the entries of the links are real numbers. -/
def adjointRep (N : ℕ) : FermionRep N (lieGenerators N).length :=
  ⟨fun U => (toAdjoint (gens N) U).map Complex.ofReal, adjointGenerator (gens N)⟩

/-- `FermionForce::tensor`, `FermionForce.cpp` 22-31. -/
def tensor (x y : Fin M → ℂ) : Mat M := fun i j => y i * starRingEnd ℂ (x j)

/-- `DiracWilsonFermionForce::derivative`, `DiracWilsonFermionForce.cpp` 10-54, on the fermion links `L`.  Entries of the tables that are zero
are skipped by the program; here they are added. -/
def wilsonDerivative (T : Torus S) (κ : ℝ) (L : GField S M) (X Y : SField S M) (s : S) (μ : Fin 4) : Mat M :=
  (∑ α, tensor (X s α) (∑ β, (-(κ : ℂ) * tabGamma5Minus μ α β) • Y (T.sup μ s) β))
  - (∑ α, tensor (L s μ *ᵥ X (T.sup μ s) α) (∑ β, (-(κ : ℂ) * tabGamma5Plus μ α β) • ((L s μ)ᴴ *ᵥ Y s β)))
  + (∑ α, tensor (Y s α) (∑ β, (-(κ : ℂ) * tabGamma5Minus μ α β) • X (T.sup μ s) β))
  - (∑ α, tensor (L s μ *ᵥ Y (T.sup μ s) α) (∑ β, (-(κ : ℂ) * tabGamma5Plus μ α β) • ((L s μ)ᴴ *ᵥ X s β)))

/-- `FermionForce::force`, `FermionForce.cpp` 33-54: `U` is the stored gauge field, not the links seen by the fermions. -/
def linkForce (ρ : FermionRep N M) (U : GField S N) (D : Mat M) (s : S) (μ : Fin 4) : Mat N :=
  ∑ i, (-Complex.I * ((trace (D * ρ.gen i * ρ.link (U s μ))).im : ℂ)) • gens N i

/-- `TwoFlavorFermionAction::updateForce` and `force`, `TwoFlavorFermionAction.cpp` 16-40, for the fermion links `L`, the gauge links `U` and
the pseudofermion field `φ`; `deriv` is the virtual function `derivative` of the force of the Dirac operator. -/
def twoFlavorUpdateForce (ρ : FermionRep N M) (deriv : GField S M → SField S M → SField S M → S → Fin 4 → Mat M)
    (solve : GField S M → SField S M → SField S M) (L : GField S M) (U : GField S N) (φ : SField S M) : GField S N :=
  let Y := solve L φ
  let X := solve L Y
  fun s μ => -linkForce ρ U (deriv L X Y s μ) s μ

/-- `TwoFlavorFermionAction::energy`, `TwoFlavorFermionAction.cpp` 42-50. -/
def twoFlavorFermionEnergy [Fintype S] (solve : GField S M → SField S M → SField S M) (L : GField S M) (φ : SField S M) : ℝ :=
  latticeNorm2 (solve L φ)

/-- A field of pseudofermions with its partial fractions: coefficients and shifts. -/
structure PseudoFermion (S : Type) (M : ℕ) where
  φ : SField S M
  alphas : List ℝ
  betas : List ℝ

/-- The contribution of one pseudofermion to the link derivative, `NFlavorFermionAction.cpp` 55-74 with `FermionForce::derivative`,
`FermionForce.cpp` 11-20, for the solutions computed in `NFlavorFermionAction.cpp` 80-96.  One weight and one solution per partial fraction;
the lists are assumed to be equally long. -/
def nFlavorTerm (mul : GField S M → SField S M → SField S M) (deriv : GField S M → SField S M → SField S M → S → Fin 4 → Mat M)
    (solveShift : GField S M → ℝ → SField S M → SField S M) (L : GField S M) (p : PseudoFermion S M) (s : S) (μ : Fin 4) : Mat M :=
  ((p.alphas.zip p.betas).map fun ab =>
    -((ab.1 : ℂ) • deriv L (solveShift L ab.2 p.φ) (mul L (solveShift L ab.2 p.φ)) s μ)).sum

/-- The sign changes of `NFlavorFermionAction.cpp` 101-133; `none`: the option is not set. -/
def nFlavorBc {A : Type} [Neg A] (ext : Fin 4 → ℕ) (coord : S → Fin 4 → ℕ) (bc : Option String) (F : S → Fin 4 → A) : S → Fin 4 → A :=
  match bc with
  | some "fermion_antiperiodic" => switchAntiperiodicBc ext coord F
  | some "fermion_spatial_antiperiodic" => switchSpatialAntiperiodicBc ext coord F
  | some "fermion_periodic" => F
  | some "open" => F
  | _ => switchAntiperiodicBc ext coord F

/-- `NFlavorFermionAction::updateForce`, `NFlavorFermionAction.cpp` 76-158, without smearing. -/
def nFlavorUpdateForce (ρ : FermionRep N M) (T : Torus S) (mul : GField S M → SField S M → SField S M)
    (deriv : GField S M → SField S M → SField S M → S → Fin 4 → Mat M) (solveShift : GField S M → ℝ → SField S M → SField S M) (bc : String)
    (L : GField S M) (U : GField S N) (ps : List (PseudoFermion S M)) : GField S N :=
  let D := nFlavorBc T.ext T.coord (some bc) fun s μ => (ps.map fun p => nFlavorTerm mul deriv solveShift L p s μ).sum
  fun s μ => linkForce ρ U (D s μ) s μ

/-- `NFlavorFermionAction::energy`, `NFlavorFermionAction.cpp` 193-207, with `RationalApproximation::evaluate`,
`RationalApproximation.cpp` 18-43. -/
def nFlavorFermionEnergy [Fintype S] (solveShift : GField S M → ℝ → SField S M → SField S M) (L : GField S M)
    (ps : List (PseudoFermion S M)) : ℝ :=
  (ps.map fun p => (latticeDot p.φ ((p.alphas.zip p.betas).map fun ab => (ab.1 : ℂ) • solveShift L ab.2 p.φ).sum).re).sum

/-- The links seen by the fermions, `Environment::synchronize` without smearing, for gauge links `U` on which `synchronize` has been called
before (with open boundary conditions it has set links to zero). -/
def fermionLinks (ρ : FermionRep N M) (T : Torus S) (bc : String) (U : GField S N) : GField S M :=
  synchronizeBc T.ext T.coord bc fun s μ => ρ.link (U s μ)

/-- The objects that can be handed to the integrator by `MultiStepNFlavorUpdater`: the gauge action with the first fermion action, one of the
fermion actions, or the gauge action. -/
inductive NFlavorForce where
  | action
  | fermion (level : ℕ)
  | gauge
  deriving DecidableEq

/-- The forces and numbers of steps of `MultiStepNFlavorUpdater.cpp` 278-312; `levels` is `number_force_levels`, the length of the array of
fermion actions.  A wrong number of levels is only reported (287, 291, 296, 302); reading past the end of the array is undefined. -/
def nFlavorForces (levels : ℕ) (steps : List ℕ) : Outcome (List NFlavorForce × List ℕ) :=
  if levels = 0 then .ub
  else match steps with
  | [n] => .ok ([.action], [n])
  | [m, n] => .ok ([.fermion 0, .gauge], [m, n])
  | [l, m, n] => if 2 ≤ levels then .ok ([.fermion 1, .fermion 0, .gauge], [l, m, n]) else .ub
  | [k, l, m, n] => if 3 ≤ levels then .ok ([.fermion 2, .fermion 1, .fermion 0, .gauge], [k, l, m, n]) else .ub
  | ns => .ok ([.action], [ns.headD 0])

/-- The field of a force, `NFlavorQCDAction.cpp` 14-32, `NFlavorFermionAction.cpp` 76-158 and `GaugeAction.cpp`. -/
def nFlavorForce (fermionForce : ℕ → GField S N → GField S N) (gaugeForce : GField S N → GField S N) : NFlavorForce → GField S N → GField S N
  | .action, U => fun s μ => fermionForce 0 U s μ + gaugeForce U s μ
  | .fermion k, U => fermionForce k U
  | .gauge, U => gaugeForce U

end

end Leonard
