import Verif.Gauge.Model
import Verif.Gauge.ExpMap
import Verif.Gauge.Updates

/-!
# Stout smearing and Wilson flow

Model of `utils/StoutSmearing.cpp` and of the integration in `wilson_flow/WilsonFlow.cpp`, as seen on the global periodic
lattice. The exponential of the smearing is an argument `E`, for which `expSu2` and `expSu3` (which can fail) or the exact
exponential are put in. The eigenvalue decomposition of the linear algebra library is an argument `eig`.
-/

set_option autoImplicit false

namespace Leonard

open Matrix

variable {S : Type} {N : ℕ}

noncomputable section

open Classical in
/-- A field of links when every link has been computed; a link that is not a number spoils the field. -/
def collectLinks (f : S → Fin 4 → Option (Mat N)) : Option (GField S N) :=
  if h : ∀ s μ, (f s μ).isSome then some (fun s μ => (f s μ).get (h s μ)) else none

/-- `StoutSmearing.cpp` 53-57 and 40-42: what is exponentiated, from the staple of the gauge action. -/
def stoutGenerator (ρ : ℝ) (U staple : Mat N) : Mat N :=
  let omega := (ρ : ℂ) • stapleᴴ * Uᴴ
  let iStout := (0.5 : ℂ) • (omegaᴴ - omega)
  let toExp := -(iStout - (trace iStout / (N : ℂ)) • (1 : Mat N))
  toExp

/-- `StoutSmearing::smearLink`, `StoutSmearing.cpp` 52-60. -/
def smearLink (E : Mat N → Option (Mat N)) (T : Torus S) (ρ : ℝ) (U : GField S N) (s : S) (μ : Fin 4) : Option (Mat N) :=
  (E (stoutGenerator ρ (U s μ) (wilsonStaple T U s μ))).map fun R => R * U s μ

/-- `StoutSmearing::smearing`, `StoutSmearing.cpp` 12-20. -/
def smearing (E : Mat N → Option (Mat N)) (T : Torus S) (ρ : ℝ) (U : GField S N) : Option (GField S N) :=
  collectLinks (smearLink E T ρ U)

/-- The levels of smearing in `Environment::synchronize`, `Environment.cpp` 36-39. -/
def smearingLevels (E : Mat N → Option (Mat N)) (T : Torus S) (ρ : ℝ) : ℕ → GField S N → Option (GField S N)
  | 0, U => some U
  | n + 1, U => (smearing E T ρ U).bind (smearingLevels E T ρ n)

/-- The staple in the three space directions, `StoutSmearing.cpp` 32-39. -/
def spatialStaple (T : Torus S) (U : GField S N) (s : S) (μ : Fin 4) : Mat N :=
  ∑ ν, if ν.val < 3 ∧ ν ≠ μ then stapleUp T U s μ ν + stapleDown T U s μ ν else 0

/-- One link in one level of `spatialSmearing`, `StoutSmearing.cpp` 31-45: time links are copied. -/
def spatialSmearLink (E : Mat N → Option (Mat N)) (T : Torus S) (ρ : ℝ) (U : GField S N) (s : S) (μ : Fin 4) :
    Option (Mat N) :=
  if μ.val < 3 then (E (stoutGenerator ρ (U s μ) (spatialStaple T U s μ))).map fun R => R * U s μ else some (U s μ)

/-- `StoutSmearing::spatialSmearing`, `StoutSmearing.cpp` 22-50. -/
def spatialSmearing (E : Mat N → Option (Mat N)) (T : Torus S) (ρ : ℝ) : ℕ → GField S N → Option (GField S N)
  | 0, U => some U
  | n + 1, U => (collectLinks (spatialSmearLink E T ρ U)).bind (spatialSmearing E T ρ n)

/-! ### Wilson flow -/

/-- An eigenvalue decomposition: the eigenvalues and the matrix of eigenvectors. -/
abbrev EigenSolver (N : ℕ) := Mat N → (Fin N → ℂ) × Mat N

/-- `WilsonFlow::exponential`, `WilsonFlow.cpp` 139-173. -/
def flowExponential (eig : EigenSolver N) (link force : Mat N) (ε : ℝ) : Mat N :=
  mdLinkUpdate ε (eig force).1 (eig force).2 link

/-- `WilsonFlow::getForce`, `WilsonFlow.cpp` 130-137; the action is given by its coupling and its staple. -/
def flowForce (β : ℝ) (staple : GField S N → S → Fin 4 → Mat N) (U : GField S N) : GField S N :=
  fun s μ => -(gaugeForce β U (staple U s μ) s μ)

/-- One of the loops over the links in `WilsonFlow::integrate`, `WilsonFlow.cpp` 98-103. -/
def flowStage (eig : EigenSolver N) (dt : ℝ) (X Z : GField S N) : GField S N :=
  fun s μ => flowExponential eig (X s μ) (Z s μ) dt

/-- One step of `WilsonFlow::integrate`, `WilsonFlow.cpp` 96-124. -/
def flowStep (eig : EigenSolver N) (force : GField S N → GField S N) (dt : ℝ) (X0 : GField S N) : GField S N :=
  let Z0 := force X0
  let X1 := flowStage eig dt X0 fun s μ => (1 / 4 : ℂ) • Z0 s μ
  let Z1 := force X1
  let X2 := flowStage eig dt X1 fun s μ => (8 / 9 : ℂ) • Z1 s μ - (17 / 36 : ℂ) • Z0 s μ
  let Z2 := force X2
  flowStage eig dt X2 fun s μ => (3 / 4 : ℂ) • Z2 s μ - (8 / 9 : ℂ) • Z1 s μ + (17 / 36 : ℂ) • Z0 s μ

/-- `WilsonFlow::integrate`, `WilsonFlow.cpp` 90-128. -/
def flowIntegrate (eig : EigenSolver N) (force : GField S N → GField S N) (time : ℝ) (nSteps : ℕ) (U : GField S N) :
    GField S N :=
  (flowStep eig force (time / nSteps))^[nSteps] U

end

end Leonard
