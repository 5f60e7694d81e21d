import Verif.Force.Model
import Verif.Smear.Model
import Verif.Gauge.Path
import Mathlib.Analysis.Normed.Algebra.MatrixExponential

/-!
# The force of stout smeared fermions

Sources: `/repo/source/hmc_forces/SmearingForce.cpp`, `/repo/source/actions/NFlavorFermionAction.cpp` 76-158 (one level of smearing),
`/repo/source/Environment.cpp` 21-75.

Exact complex numbers and the exact exponential of matrices (C27 is about the exponential of the program).  One process; the copy of the links
that every thread changes and restores is the argument of a function.
-/

set_option autoImplicit false

namespace Leonard

open Matrix

noncomputable section
variable {S : Type} {N M : ℕ}

/-! ### The numerical derivative -/

/-- One column of the table of `SmearingForce::ridder`, `SmearingForce.cpp` 164-174: `x` is `a[n-1][m]`, the list holds `a[n-1][m-1]`,
`a[n][m-1]`, ...; the pair is `err`, `result`.  Returns the column from `a[n-1][m]` on and the new pair. -/
def ridderColumn (factor x : ℝ) : List ℝ → ℝ × ℝ → List ℝ × ℝ × ℝ
  | [], best => ([x], best)
  | p :: ps, best =>
    let y := (x * factor - p) / (factor - 1)
    let errt := max |y - x| |y - p|
    let best := if errt < best.1 then (errt, y) else best
    let r := ridderColumn (1.3 * 1.3 * factor) y ps best
    (x :: r.1, r.2)

/-- The loop over the columns, `SmearingForce.cpp` 134-181: `k` columns are left, `prev` is the column before. -/
def ridderLoop (f : ℝ → ℝ) : ℕ → ℝ → List ℝ → ℝ × ℝ → ℝ
  | 0, _, _, best => best.2
  | k + 1, h, prev, best =>
    let h := h / 1.3
    let r := ridderColumn (1.3 * 1.3) ((f h - f (-h)) / (2 * h)) prev best
    if 2 * r.2.1 < |r.1.getLastD 0 - prev.getLastD 0| then r.2.2 else ridderLoop f k h r.1 r.2

/-- `SmearingForce::ridder`, `SmearingForce.cpp` 91-187, as a function of the number that is computed with the link turned by the angle `h`
(`plus`) and `-h` (`minus`).  The messages about bad convergence are left out. -/
def ridder (f : ℝ → ℝ) (h : ℝ) : ℝ :=
  let a := (f h - f (-h)) / (2 * h)
  ridderLoop f 24 h [a] (1000000, a)

/-! ### The force -/

/-- `StoutSmearing::smearing` with the exact exponential, `StoutSmearing.cpp` 12-20 and 52-60. -/
def stoutLinks (T : Torus S) (r : ℝ) (U : GField S N) : GField S N := fun s μ =>
  NormedSpace.exp (stoutGenerator r (U s μ) (wilsonStaple T U s μ)) * U s μ

variable [DecidableEq S]

/-- The sum over the generators of one call of `ridder` each, for the link `(s, μ)` that is turned and the smeared link `(s', μ')`:
`SmearingForce.cpp` 27-30 with 105-124.  `diff` is the numerical derivative. -/
def smearTerm (diff : (ℝ → ℝ) → ℝ) (ρ : FermionRep N M) (T : Torus S) (r : ℝ) (D : GField S M) (U : GField S N) (s : S) (μ : Fin 4) (s' : S)
    (μ' : Fin 4) : Mat N :=
  ∑ c, (Complex.I * (diff fun h => (trace (D s' μ' * ρ.link (stoutLinks T r
    (setLink U s μ (NormedSpace.exp (h • (Complex.I • gens N c)) * U s μ)) s' μ'))).re : ℝ)) • gens N c

/-- `SmearingForce::force`, `SmearingForce.cpp` 11-87: the seven kinds of smeared links that contain the link `(s, μ)`. -/
def smearingForce (diff : (ℝ → ℝ) → ℝ) (ρ : FermionRep N M) (T : Torus S) (r : ℝ) (D : GField S M) (U : GField S N) : GField S N := fun s μ =>
  smearTerm diff ρ T r D U s μ s μ
  + (∑ ν, if ν ≠ μ then smearTerm diff ρ T r D U s μ (T.sup μ s) ν else 0)
  + (∑ ν, if ν ≠ μ then smearTerm diff ρ T r D U s μ (T.sup ν s) μ else 0)
  + (∑ ν, if ν ≠ μ then smearTerm diff ρ T r D U s μ s ν else 0)
  + (∑ ν, if ν ≠ μ then smearTerm diff ρ T r D U s μ (T.sup μ (T.sdn ν s)) ν else 0)
  + (∑ ν, if ν ≠ μ then smearTerm diff ρ T r D U s μ (T.sdn ν s) μ else 0)
  + (∑ ν, if ν ≠ μ then smearTerm diff ρ T r D U s μ (T.sdn ν s) ν else 0)

/-- `NFlavorFermionAction::updateForce` with any number of levels of smearing, `NFlavorFermionAction.cpp` 76-158: one level calls
`SmearingForce` with the gauge links, more levels end the program. -/
def nFlavorSmearedForce (diff : (ℝ → ℝ) → ℝ) (ρ : FermionRep N M) (T : Torus S) (mul : GField S M → SField S M → SField S M)
    (deriv : GField S M → SField S M → SField S M → S → Fin 4 → Mat M) (solveShift : GField S M → ℝ → SField S M → SField S M) (bc : String)
    (levels : ℕ) (r : ℝ) (L : GField S M) (U : GField S N) (ps : List (PseudoFermion S M)) : Option (GField S N) :=
  let D := nFlavorBc T.ext T.coord (some bc) fun s μ => (ps.map fun p => nFlavorTerm mul deriv solveShift L p s μ).sum
  match levels with
  | 0 => some fun s μ => linkForce ρ U (D s μ) s μ
  | 1 => some (smearingForce diff ρ T r D U)
  | _ => none

/-- The links seen by the fermions, `Environment::synchronize`, `Environment.cpp` 21-75, with `levels` levels of smearing. -/
def smearedFermionLinks (ρ : FermionRep N M) (T : Torus S) (bc : String) (levels : ℕ) (r : ℝ) (U : GField S N) : GField S M :=
  fermionLinks ρ T bc ((stoutLinks T r)^[levels] U)

end

end Leonard
