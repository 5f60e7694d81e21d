/-
The sweep that tests the communication.

Modelled source: `/repo/source/tests/TestCommunication.cpp` 10-269, `execute`.

Simplifications: exact real numbers; the view of the lattice as a whole: `up` and `down` are what `sup` and `sdn` of the layout
together with the halos give, whether they are right or not (that is what is tested).  The four coordinates stored in the test vector
are converted to `double` and back by `(int)real(.)`, which is exact for lattice coordinates.  The random vector is any vector.
The messages are kept as the set of the site, direction and sense they are written for; the same test is made for a reduced vector
(177-203), an extended one (217-243) and a copy of the first in the form of the second (247-271).
-/
import Verif.Gauge.Model
import Verif.Layout.Model

set_option autoImplicit false

namespace Leonard

open Matrix

variable {S : Type} {N : ℕ}

/-- The neighbour tables `sup` and `sdn` as a test sees them. -/
structure NeighbourTables (S : Type) where
  up : Fin 4 → S → S
  down : Fin 4 → S → S

/-- The Wilson energy, `TestCommunication.cpp` 16-28 and 88-99. -/
noncomputable def commWilson [Fintype S] (X : NeighbourTables S) (U : GField S N) : ℝ :=
  ∑ s, ∑ μ, -(trace (U s μ * ∑ ν, if μ < ν then U (X.up μ s) ν * (U (X.up ν s) μ)ᴴ * (U s ν)ᴴ else 0)).re

/-- The improved energy, `TestCommunication.cpp` 31-45 and 104-118. -/
noncomputable def commImproved [Fintype S] (X : NeighbourTables S) (U : GField S N) : ℝ :=
  ∑ s, ∑ μ, -(trace (U s μ * ∑ ν, if μ < ν then
    (5 / 3 : ℂ) • (U (X.up μ s) ν * (U (X.up ν s) μ)ᴴ * (U s ν)ᴴ)
    - (1 / 12 : ℂ) • (U (X.up μ s) μ * U (X.up μ (X.up μ s)) ν * (U (X.up ν (X.up μ s)) μ)ᴴ * (U (X.up ν s) μ)ᴴ * (U s ν)ᴴ)
    - (1 / 12 : ℂ) • (U (X.up μ s) ν * U (X.up ν (X.up μ s)) ν * (U (X.up ν (X.up ν s)) μ)ᴴ * (U (X.up ν s) ν)ᴴ * (U s ν)ᴴ)
    else 0)).re

/-- The energy from the staples, `TestCommunication.cpp` 49-70 and 122-144. -/
noncomputable def commStaple [Fintype S] (X : NeighbourTables S) (U : GField S N) : ℝ :=
  ∑ s, ∑ μ, -(trace (U s μ * ∑ ν, if ν ≠ μ then
    (5 / 3 : ℂ) • (U (X.up μ s) ν * (U (X.up ν s) μ)ᴴ * (U s ν)ᴴ)
    + (5 / 3 : ℂ) • ((U (X.up μ (X.down ν s)) ν)ᴴ * (U (X.down ν s) μ)ᴴ * U (X.down ν s) ν)
    - (1 / 12 : ℂ) • (U (X.up μ s) μ * U (X.up μ (X.up μ s)) ν * (U (X.up ν (X.up μ s)) μ)ᴴ * (U (X.up ν s) μ)ᴴ * (U s ν)ᴴ)
    - (1 / 12 : ℂ) • (U (X.up μ s) ν * (U (X.up ν s) μ)ᴴ * (U (X.up ν (X.down μ s)) μ)ᴴ * (U (X.down μ s) ν)ᴴ * U (X.down μ s) μ)
    - (1 / 12 : ℂ) • (U (X.up μ s) μ * (U (X.down ν (X.up μ (X.up μ s))) ν)ᴴ * (U (X.up μ (X.down ν s)) μ)ᴴ
        * (U (X.down ν s) μ)ᴴ * U (X.down ν s) ν)
    - (1 / 12 : ℂ) • ((U (X.up μ (X.down ν s)) ν)ᴴ * (U (X.down ν s) μ)ᴴ * (U (X.down ν (X.down μ s)) μ)ᴴ
        * U (X.down ν (X.down μ s)) ν * U (X.down μ s) μ)
    - (1 / 12 : ℂ) • (U (X.up μ s) ν * U (X.up ν (X.up μ s)) ν * (U (X.up ν (X.up ν s)) μ)ᴴ * (U (X.up ν s) ν)ᴴ * (U s ν)ᴴ)
    - (1 / 12 : ℂ) • ((U (X.up μ (X.down ν s)) ν)ᴴ * (U (X.up μ (X.down ν (X.down ν s))) ν)ᴴ * (U (X.down ν (X.down ν s)) μ)ᴴ
        * U (X.down ν (X.down ν s)) ν * U (X.down ν s) ν)
    else 0)).re

/-- The configuration moved by one step in direction 0, `TestCommunication.cpp` 76-85. -/
def commWrap (X : NeighbourTables S) (U : GField S N) : GField S N := fun s μ => U (X.up 0 s) μ

/-- `AlgebraUtils::squaredNorm` of a vector with four spinor components and `n` colours. -/
noncomputable def commNorm [Fintype S] {n : ℕ} (v : S → Fin 4 → Fin n → ℂ) : ℝ := ∑ s, ∑ μ, ∑ c, Complex.normSq (v s μ c)

/-- The five numbers printed: `TestCommunication.cpp` 101, 120, 146 and the two of 171. -/
noncomputable def commDifferences [Fintype S] {n : ℕ} (X : NeighbourTables S) (U : GField S N) (v : S → Fin 4 → Fin n → ℂ) : List ℝ :=
  [commWilson X (commWrap X U) - commWilson X U,
   commImproved X (commWrap X U) - commImproved X U,
   commStaple X (commWrap X U) - commStaple X U,
   commNorm v - commNorm (fun s => v (X.up 2 s)),
   commNorm v - commNorm (fun s => v (X.down 2 s))]

/-- The condition of the message for a site and a direction, `TestCommunication.cpp` 179-202: `true` is "Invalid sup", `false` is "Invalid
down".  `coord` is the global coordinate of a site as the layout gives it. -/
def commComplains (X : NeighbourTables S) (ext : Fin 4 → ℕ) (coord : S → Fin 4 → ℕ) (s : S) (μ : Fin 4) : Bool → Bool
  | true => modulusLocal ((coord s μ : ℤ) + 1) (ext μ) != coord (X.up μ s) μ
  | false => modulusLocal ((coord s μ : ℤ) - 1) (ext μ) != coord (X.down μ s) μ

/-- The messages of `TestCommunication.cpp` 177-203. -/
def commMessages [Fintype S] (X : NeighbourTables S) (ext : Fin 4 → ℕ) (coord : S → Fin 4 → ℕ) : Finset (S × Fin 4 × Bool) :=
  Finset.univ.filter fun m => commComplains X ext coord m.1 m.2.1 m.2.2

end Leonard
