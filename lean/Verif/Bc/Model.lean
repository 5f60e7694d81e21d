import Verif.Smear.Model
import Verif.Rep.Model

/-!
# Boundary conditions and the links seen by the fermions

Sources: `/repo/source/LatticeBoundaryConditions.h`, `/repo/source/Environment.h`, `/repo/source/Environment.cpp`.

The loops run over all stored sites (`completesize`), own sites and copies of the sites of other processes alike, and every pass
touches only its own site; so the result is written pointwise, for stored sites of an arbitrary type `K` with a table `coord` of
global coordinates. `ext` are the extents of the lattice.
-/

set_option autoImplicit false

namespace Leonard

open Matrix

section
variable {K A : Type}

/-- `switchAntiperiodicBc`, `LatticeBoundaryConditions.h` 8-14. -/
def switchAntiperiodicBc [Neg A] (ext : Fin 4 → ℕ) (coord : K → Fin 4 → ℕ) (F : K → Fin 4 → A) : K → Fin 4 → A := fun k μ =>
  if (coord k 3 : ℤ) = ext 3 - 1 then (if μ = 3 then -F k 3 else F k μ) else F k μ

/-- `switchSpatialAntiperiodicBc`, `LatticeBoundaryConditions.h` 16-22. -/
def switchSpatialAntiperiodicBc [Neg A] (ext : Fin 4 → ℕ) (coord : K → Fin 4 → ℕ) (F : K → Fin 4 → A) : K → Fin 4 → A :=
  fun k μ => if (coord k 2 : ℤ) = ext 2 - 1 then (if μ = 2 then -F k 2 else F k μ) else F k μ

/-- One of the four assignments of `LatticeBoundaryConditions.h` 28-31. -/
def negLast [Neg A] (ext : Fin 4 → ℕ) (coord : K → Fin 4 → ℕ) (ν : Fin 4) (F : K → Fin 4 → A) : K → Fin 4 → A := fun k μ =>
  if (coord k ν : ℤ) = ext ν - 1 then (if μ = ν then -F k ν else F k μ) else F k μ

/-- `switchFullAntiperiodicBc`, `LatticeBoundaryConditions.h` 24-33. -/
def switchFullAntiperiodicBc [Neg A] (ext : Fin 4 → ℕ) (coord : K → Fin 4 → ℕ) (F : K → Fin 4 → A) : K → Fin 4 → A :=
  negLast ext coord 3 (negLast ext coord 2 (negLast ext coord 1 (negLast ext coord 0 F)))

/-- `switchOpenBc`, `LatticeBoundaryConditions.h` 35-47 and (adjoint fermions) 50-62. -/
def switchOpenBc [Zero A] (ext : Fin 4 → ℕ) (coord : K → Fin 4 → ℕ) (F : K → Fin 4 → A) : K → Fin 4 → A := fun k μ =>
  if (coord k 3 : ℤ) = ext 3 - 1 then 0
  else if (coord k 3 : ℤ) = ext 3 - 2 then (if μ = 3 then 0 else F k μ)
  else F k μ

/-- `Environment::setFermionBc`, `Environment.h` 27-62; `none`: the option is not set (the exception is caught, 54-61). -/
def setFermionBc [Neg A] [Zero A] (ext : Fin 4 → ℕ) (coord : K → Fin 4 → ℕ) (bc : Option String) (F : K → Fin 4 → A) :
    K → Fin 4 → A :=
  match bc with
  | some "fermion_antiperiodic" => switchAntiperiodicBc ext coord F
  | some "fermion_spatial_antiperiodic" => switchSpatialAntiperiodicBc ext coord F
  | some "fermion_full_antiperiodic" => switchFullAntiperiodicBc ext coord F
  | some "fermion_periodic" => F
  | some "open" => switchOpenBc ext coord F
  | _ => switchAntiperiodicBc ext coord F

end

noncomputable section
variable {S : Type} {N : ℕ}

/-- The fields of `Environment` that `synchronize` reads and writes; `A` is the type of a fermion link (fundamental or adjoint
matrices), `B` the type of an adjoint link. -/
structure LinkState (S : Type) (N : ℕ) (A B : Type) where
  gauge : GField S N
  fermion : S → Fin 4 → A
  adjoint : S → Fin 4 → B

/-- The boundary conditions of `Environment::synchronize`, `Environment.cpp` 57-78, on the fermion links. -/
def synchronizeBc {A : Type} [Neg A] [Zero A] (ext : Fin 4 → ℕ) (coord : S → Fin 4 → ℕ) (bc : String) (F : S → Fin 4 → A) :
    S → Fin 4 → A :=
  match bc with
  | "fermion_antiperiodic" => switchAntiperiodicBc ext coord F
  | "fermion_spatial_antiperiodic" => switchSpatialAntiperiodicBc ext coord F
  | "fermion_periodic" => F
  | "open" => switchOpenBc ext coord F
  | _ => switchAntiperiodicBc ext coord F

/-- `Environment::synchronize`, `Environment.cpp` 21-79. `conv` is the conversion of the links to the representation of the
fermions (for fundamental fermions the identity), `convAdj` to the adjoint representation; `E` is the exponential map used by
the smearing; `none` if a smeared link is not a number. The options are assumed to be set. -/
def synchronize {A B : Type} [Neg A] [Zero A] (E : Mat N → Option (Mat N)) (T : Torus S) (conv : Mat N → A) (convAdj : Mat N → B)
    (levels : ℤ) (ρ : ℝ) (bc : String) (e : LinkState S N A B) : Option (LinkState S N A B) :=
  (smearingLevels E T ρ levels.toNat e.gauge).map fun smeared =>
    { gauge := if bc = "open" then switchOpenBc T.ext T.coord e.gauge else e.gauge
      fermion := synchronizeBc T.ext T.coord bc fun s μ => conv (smeared s μ)
      adjoint := fun s μ => convAdj (e.gauge s μ) }

end

end Leonard
