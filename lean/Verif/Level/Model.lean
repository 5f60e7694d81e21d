import Verif.Heat.Model
import Verif.Gauge.Checkerboard

/-!
# The multilevel measurement of Polyakov loop correlators

The second half of `PureGaugeWilsonLoops::execute`, `PureGaugeWilsonLoops.cpp` 150-235, and `updateSlices`, 237-271, without `ENABLE_MPI`. The lattice is cut
into slices along the direction 1; lines of links through every slice are averaged over updates of the inside of the slices.
-/

set_option autoImplicit false

namespace Leonard

open Matrix

variable {S : Type} {N : ℕ}

/-! ### Wilson loops -/

/-- One side of `SpatialWilsonLoop::measure`, `PureGaugeWilsonLoops.h` 24-27 and 28-31, after `n` passes: the product and the site. -/
def sideUp (T : Torus S) (U : GField S N) (μ : Fin 4) : ℕ → Mat N × S → Mat N × S
  | 0, p => p
  | n + 1, p =>
    let q := sideUp T U μ n p
    (q.1 * U q.2 μ, T.sup μ q.2)

/-- One side of `SpatialWilsonLoop::measure`, `PureGaugeWilsonLoops.h` 32-35 and 36-39. -/
def sideDown (T : Torus S) (U : GField S N) (μ : Fin 4) : ℕ → Mat N × S → Mat N × S
  | 0, p => p
  | n + 1, p =>
    let q := sideDown T U μ n p
    (q.1 * (U (T.sdn μ q.2) μ)ᴴ, T.sdn μ q.2)

/-- `SpatialWilsonLoop::measure`, `PureGaugeWilsonLoops.h` 16-41. -/
def rectangleLoop (T : Torus S) (U : GField S N) (R L : ℕ) (s : S) : Mat N :=
  (sideDown T U 1 L (sideDown T U 0 R (sideUp T U 1 L (sideUp T U 0 R (1, s))))).1

/-- `PureGaugeWilsonLoops.cpp` 100-133: the number written for the loops of size `R` times `L`, the average over the sites whose coordinates are all
even. -/
noncomputable def rectangleMean [Fintype S] (T : Torus S) (U : GField S N) (R L : ℕ) : ℝ :=
  (∑ s, if ∀ μ, T.coord s μ % 2 = 0 then (trace (rectangleLoop T U R L s)).re else 0)
    / ((Finset.univ.filter fun s => ∀ μ, T.coord s μ % 2 = 0).card * N)

/-! ### Pairs of lines -/

/-- `TwoLinkOperator`, `PureGaugeWilsonLoops.cpp` 8-77. -/
abbrev TwoLink (N : ℕ) := Fin N → Fin N → Fin N → Fin N → ℂ

/-- `TwoLinkOperator::setToZero`, `PureGaugeWilsonLoops.cpp` 12-22. -/
def twoLinkZero : TwoLink N := fun _ _ _ _ => 0

/-- `TwoLinkOperator::add`, `PureGaugeWilsonLoops.cpp` 24-35. -/
def twoLinkAdd (t : TwoLink N) (U1 U2 : Mat N) : TwoLink N := fun a b c d => t a b c d + U1 a b * U2ᴴ c d

/-- `TwoLinkOperator::operator*`, `PureGaugeWilsonLoops.cpp` 45-62. -/
def twoLinkMul (t u : TwoLink N) : TwoLink N := fun a b c d => ∑ e, ∑ f, t a e c f * u e b f d

/-- `TwoLinkOperator::normalize`, `PureGaugeWilsonLoops.cpp` 64-74. -/
noncomputable def twoLinkNormalize (t : TwoLink N) (factor : ℕ) : TwoLink N := fun a b c d => t a b c d / factor

/-! ### Lines through a slice -/

/-- The loop over `dy`, `PureGaugeWilsonLoops.cpp` 167-170, after `n` passes: the product and the site. -/
def sliceLine (T : Torus S) (U : GField S N) (s : S) : ℕ → Mat N × S
  | 0 => (1, s)
  | n + 1 =>
    let p := sliceLine T U s n
    (p.1 * U p.2 1, T.sup 1 p.2)

/-- `wilsonLineT[.][x][z][t][slice]`, `PureGaugeWilsonLoops.cpp` 164-171; the site `(x,0,z,t)` is `s`, so the line begins `slice*size` steps above it. -/
def lineOfSlice (T : Torus S) (size : ℕ) (U : GField S N) (s : S) (slice : ℕ) : Mat N := (sliceLine T U ((T.sup 1)^[slice * size] s) size).1

/-! ### Updates of the inside of the slices -/

/-- The conditions of `updateSlices`, `PureGaugeWilsonLoops.cpp` 254 and 262. -/
def insideSlice (T : Torus S) (size : ℕ) (l : Link S) : Bool :=
  (T.coord l.1 1 % size != size - 1 && T.coord l.1 1 % size != 0) || (l.2 == 1 && T.coord l.1 1 % size == 0)

/-- The links `updateSlices` updates, in the order `links` in which all links are visited (`sweepLinks` for the program). On a site at most one of the two
conditions holds, so the order is that of `PureGaugeWilsonLoops.cpp` 244-269. -/
def sliceLinks (T : Torus S) (size : ℕ) (links : List (Link S)) : List (Link S) := links.filter (insideSlice T size)

/-- The loop over `numSweep`, `PureGaugeWilsonLoops.cpp` 159-178: the configurations whose lines are stored, and the last one. `update` is
`updateSlices`. -/
def levelRun {J : Type} (update : J → GField S N → Option (GField S N)) : List J → GField S N → Option (List (GField S N) × GField S N)
  | [], U => some ([], U)
  | d :: ds, U => (update d U).bind fun V => (levelRun update ds V).map fun r => (U :: r.1, r.2)

/-! ### The correlator -/

/-- The averaged operator of one slice, `PureGaugeWilsonLoops.cpp` 192-202. -/
noncomputable def sliceOperator (T : Torus S) (size : ℕ) (confs : List (GField S N)) (s s' : S) (slice : ℕ) : TwoLink N :=
  twoLinkNormalize (confs.foldl (fun t U => twoLinkAdd t (lineOfSlice T size U s slice) (lineOfSlice T size U s' slice)) twoLinkZero) confs.length

/-- The product over the slices and the contraction, `PureGaugeWilsonLoops.cpp` 204-213. -/
noncomputable def levelSite (T : Torus S) (size : ℕ) (confs : List (GField S N)) (s s' : S) : ℝ :=
  let result := ((List.range' 1 (T.ext 1 / size - 1)).map (sliceOperator T size confs s s')).foldl twoLinkMul (sliceOperator T size confs s s' 0)
  ∑ a, ∑ b, (result a a b b).re

/-- What is written for the distance `R`, `PureGaugeWilsonLoops.cpp` 185-224: `(x+R)%glob_x` is the site `R` steps away. -/
noncomputable def levelCorrelator [Fintype S] (T : Torus S) (size : ℕ) (confs : List (GField S N)) (R : ℕ) : ℝ :=
  (∑ s, if T.coord s 1 = 0 then levelSite T size confs s ((T.sup 0)^[R] s) else 0) / (N * N * T.ext 0 * T.ext 2 * T.ext 3)

/-- `PureGaugeWilsonLoops.cpp` 150-233: the numbers written for `R = 2, …, maxR` and the configuration left behind. `none` stands for a division by zero
(no subsweeps, slices of size zero), an index outside of an array (`wilsonLineT[.][x][z]` has `glob_y` elements in the place of `z`; with more sites in a
slice than in the lattice there is no slice), and an update which is not defined. -/
noncomputable def levelMeasure [Fintype S] {J : Type} (T : Torus S) (size maxR : ℕ) (update : J → GField S N → Option (GField S N)) (draws : List J) (U : GField S N) :
    Option (List ℝ × GField S N) :=
  if size = 0 ∨ draws = [] ∨ T.ext 1 / size = 0 ∨ T.ext 1 < T.ext 2 then none
  else (levelRun update draws U).map fun r => ((List.range' 2 (maxR - 1)).map (levelCorrelator T size r.1), r.2)

end Leonard
