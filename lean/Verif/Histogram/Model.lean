import Verif.Measure.Model
import Mathlib.LinearAlgebra.Matrix.Charpoly.Eigs
import Mathlib.Analysis.SpecialFunctions.Complex.Arg

/-!
# The histogram of the eigenvalues of the Polyakov loops

Model of `polyakov_loops/PolyakovLoopEigenvalues.cpp` with Eigen and exact numbers on the global lattice. The eigenvalues of a loop are the roots of its
characteristic polynomial; the sums over processes are sums over the sites.
-/

set_option autoImplicit false

namespace Leonard

open Matrix

noncomputable section

variable {S : Type} {N : ℕ}

/-- The eigenvalues with their multiplicities, `es.eigenvalues()`, `PolyakovLoopEigenvalues.cpp:64`. -/
def loopEigenvalues (P : Mat N) : Multiset ℂ := P.charpoly.roots

/-- The index of the bin, `PolyakovLoopEigenvalues.cpp:70, 73`: the cast to `int` takes the integer part. -/
def eigenvalueBin (z : ℂ) : ℕ := ⌊50 * (z.arg + Real.pi)⌋₊

/-- What the sites `s` for which `p s` holds add to bin `b`, `PolyakovLoopEigenvalues.cpp:61-77`; the loops are those of `polyakovField`, the text of the lines
20-42 is that of `PolyakovLoopCorrelator.cpp`. -/
def binCount [Fintype S] (T : Torus S) (U : GField S N) (p : S → Prop) [DecidablePred p] (b : ℕ) : ℕ :=
  ∑ s, if p s ∧ T.coord s 3 = 0 then (loopEigenvalues (polyakovField T U s)).countP fun z => eigenvalueBin z = b else 0

/-- The numbers written under `polyakov_eigenvalues` without threads, `PolyakovLoopEigenvalues.cpp:54-57, 73, 115-117`. -/
def eigenvalueHistogram [Fintype S] (T : Torus S) (U : GField S N) : List ℕ := (List.range 315).map (binCount T U fun _ => True)

/-- The number written under `polyakov_loop_phase_average`, `PolyakovLoopEigenvalues.cpp:75, 121`. -/
def phaseAverage [Fintype S] (T : Torus S) (U : GField S N) : ℝ :=
  (∑ s, if T.coord s 3 = 0 then (((loopEigenvalues (polyakovField T U s)).map Complex.arg).filter fun a => 0 ≤ a).sum else 0) / spatialVolume T

/-- `omp_get_num_threads()` outside of a parallel region, `PolyakovLoopEigenvalues.cpp:46, 48, 100`. -/
def threadsOutside : ℕ := 1

/-- The numbers with threads, `PolyakovLoopEigenvalues.cpp:45-53, 70, 98-104`: `thread s` is the thread which has the site `s` in the parallel loop. The array has
`threadsOutside` columns; the result is `none` if a column is used that it does not have. -/
def eigenvalueHistogramThreads [Fintype S] (T : Torus S) (U : GField S N) (thread : S → ℕ) : Option (List ℕ) :=
  open Classical in
  if ∀ s, T.coord s 3 = 0 → 0 < N → thread s < threadsOutside then
    some ((List.range 315).map fun b => ∑ j ∈ Finset.range threadsOutside, binCount T U (fun s => thread s = j) b)
  else none

end

end Leonard
