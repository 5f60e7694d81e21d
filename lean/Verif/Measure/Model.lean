import Verif.Dirac.Model
import Verif.Smear.Model
import Verif.Rep.Model
import Verif.Base.Outcome

/-!
# Measurements on a gauge configuration

Model of the measurements of `wilson_flow/WilsonFlow.cpp`, `correlators/Glueball.cpp`,
`polyakov_loops/PolyakovLoopCorrelator.cpp` and `polyakov_loops/AdjointPolyakovLoop.cpp` on the global periodic lattice. Sums over
threads and processes (`MultiThreadSummator`, `reduceAllSum`) are sums over the sites of the lattice, and numbers are exact.
-/

set_option autoImplicit false

namespace Leonard

open Matrix

noncomputable section

variable {S : Type} {N : ℕ}

/-- `Layout::glob_spatial_volume`. -/
def spatialVolume (T : Torus S) : ℕ := T.ext 0 * T.ext 1 * T.ext 2

/-! ### Energy and topological charge -/

/-- `WilsonFlow::measureEnergyAndTopologicalCharge`, `WilsonFlow.cpp` 175-200: energy and topological charge of one site. The six
lines for `tmpF` and their antisymmetrisation (180-191) have the text of `ImprovedDiracWilsonOperator.cpp` 509-522, which is
`fieldStrength`. -/
def siteMeasure (T : Torus S) (U : GField S N) (x : S) : ℝ × ℝ :=
  let tmpF := fieldStrength T U x
  (∑ i, (trace (tmpF i * tmpF i)).re,
   (trace (tmpF 2 * tmpF 3) - trace (tmpF 1 * tmpF 4) + trace (tmpF 0 * tmpF 5)).re / (4 * Real.pi * Real.pi))

/-- What `measureEnergy` leaves in the object. -/
structure FlowMeasure where
  gaugeEnergy : ℝ
  topologicalCharge : ℝ
  energyCorrelator : ℕ → ℝ
  topologicalCorrelator : ℕ → ℝ

/-- `WilsonFlow::measureEnergy`, `WilsonFlow.cpp` 202-242. -/
def measureEnergy [Fintype S] (T : Torus S) (U : GField S N) : FlowMeasure where
  gaugeEnergy := -(∑ x, (siteMeasure T U x).1) / Fintype.card S
  topologicalCharge := ∑ x, (siteMeasure T U x).2
  energyCorrelator t := ∑ x, if T.coord x 3 = t then (siteMeasure T U x).1 else 0
  topologicalCorrelator t := ∑ x, if T.coord x 3 = t then (siteMeasure T U x).2 else 0

/-- What is written for one flow time, `WilsonFlow.cpp` 54-75. -/
structure FlowRow where
  time : ℝ
  wilsonFlow : ℝ
  charge : ℝ
  energyCorrelator : List ℝ
  topologicalCorrelator : List ℝ

/-- The row written for the configuration `U` at flow time `t`, `WilsonFlow.cpp` 57-75. -/
def flowRow [Fintype S] (T : Torus S) (t : ℝ) (U : GField S N) : FlowRow :=
  let m := measureEnergy T U
  { time := t
    wilsonFlow := t * t * m.gaugeEnergy
    charge := m.topologicalCharge
    energyCorrelator := (List.range (T.ext 3)).map fun t => m.energyCorrelator t / spatialVolume T
    topologicalCorrelator := (List.range (T.ext 3)).map fun t => m.topologicalCorrelator t / spatialVolume T }

/-- The loop `for (t = 0; t < flow_time; t += step)`, `WilsonFlow.cpp` 47-76, run for at most `fuel` passes: `none` when it has not
ended by then. `integrate` is one call of `WilsonFlow::integrate`. -/
def flowLoop [Fintype S] (T : Torus S) (integrate : GField S N → GField S N) (step flowTime : ℝ) :
    ℕ → ℝ → GField S N → Option (List FlowRow)
  | 0, _, _ => none
  | fuel + 1, t, U =>
    if t < flowTime then
      (flowLoop T integrate step flowTime fuel (t + step) (integrate U)).map (flowRow T t U :: ·)
    else some []

/-- The action of the flow, `WilsonFlow.cpp` 19-29: a staple, the coupling being `2 N`. The constructor argument 1 of the improved
action is its `u0`. -/
def measuredFlow (T : Torus S) (flowType : String) : Outcome (GField S N → S → Fin 4 → Mat N) :=
  if flowType = "Wilson" then .ok (wilsonStaple T)
  else if flowType = "Symanzik" then .ok (improvedStaple 1 T)
  else .exit 1

/-- `WilsonFlow::execute`, `WilsonFlow.cpp` 16-87, with the loop run for at most `fuel` passes. The configuration of the environment
is not changed: `initialLattice` is a copy of it. -/
def flowExecute [Fintype S] (eig : EigenSolver N) (T : Torus S) (flowType : String) (step flowTime : ℝ) (intervals fuel : ℕ)
    (U : GField S N) : Outcome (Option (List FlowRow)) :=
  match measuredFlow T flowType with
  | .ok staple => .ok (flowLoop T (flowIntegrate eig (flowForce (2 * N) staple) step intervals) step flowTime fuel 0 U)
  | .exit c => .exit c
  | .ub => .ub

/-! ### Glueball operators -/

/-- `real(trace(...))` of the three products in `Glueball.cpp` 38-40, which have the same text up to the two directions. -/
def glueballPlaquette (U : GField S N) (T : Torus S) (μ ν : Fin 4) (x : S) : ℝ :=
  (trace (U x μ * U (T.sup μ x) ν * (U (T.sup ν x) μ)ᴴ * (U x ν)ᴴ)).re

/-- `zero_glueball[t]/glob_spatial_volume`, `Glueball.cpp` 36-58, for the configuration after smearing. -/
def glueballZero [Fintype S] (T : Torus S) (U : GField S N) (t : ℕ) : ℝ :=
  (∑ x, if T.coord x 3 = t then
    glueballPlaquette U T 1 0 x + glueballPlaquette U T 2 0 x + glueballPlaquette U T 2 1 x else 0) / spatialVolume T

/-- `two_glueball[t]/glob_spatial_volume`, `Glueball.cpp` 36-67, for the configuration after smearing. -/
def glueballTwo [Fintype S] (T : Torus S) (U : GField S N) (t : ℕ) : ℝ :=
  (∑ x, if T.coord x 3 = t then glueballPlaquette U T 1 0 x - glueballPlaquette U T 2 0 x else 0) / spatialVolume T

/-! ### Polyakov loops -/

/-- `polyakov[site][3]` in `PolyakovLoopCorrelator.cpp` 36-61 for the configuration after smearing; the text is that of
`PolyakovLoop.cpp` 33-53 for direction 3. -/
def polyakovField (T : Torus S) (U : GField S N) : S → Mat N := (polyakovState T U 3 (T.ext 3)).2

/-- The numbers written by `PolyakovLoopCorrelator`, `PolyakovLoopCorrelator.cpp` 68-106: one for each pass `l`; the field is
translated before the sum is taken. -/
def polyakovCorrelator [Fintype S] (T : Torus S) (U : GField S N) : List ℂ :=
  (List.range (T.ext 0 / 2)).map fun l =>
    (∑ x, if T.coord x 3 = 0 then
      star (trace (polyakovField T U x)) * trace (shiftField T 0 (polyakovField T U) (l + 1) x) else 0)
      / ((N * spatialVolume T : ℕ) : ℂ)

/-- What `AdjointPolyakovLoop` writes for direction `ν`, `AdjointPolyakovLoop.cpp` 22-71, with the generators `G` of the build. -/
def adjointPolyakov [Fintype S] {ι : Type} [Fintype ι] (G : ι → Mat N) (T : Torus S) (U : GField S N) (ν : Fin 4) : ℝ :=
  (∑ x, if T.coord x ν = 0 then trace (toAdjoint G ((polyakovState T U ν (T.ext ν)).2 x)) else 0)
    / (((N * N - 1) * spatialVolume T : ℕ) : ℝ)

/-- The four numbers, in the order in which they are written, `AdjointPolyakovLoop.cpp` 22. -/
def adjointPolyakovRows [Fintype S] {ι : Type} [Fintype ι] (G : ι → Mat N) (T : Torus S) (U : GField S N) : List ℝ :=
  [3, 2, 1, 0].map (adjointPolyakov G T U)

end

end Leonard
