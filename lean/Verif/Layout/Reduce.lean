import Verif.Layout.Halo
import Mathlib.Algebra.BigOperators.Group.List.Basic

/-!
# Model of the global sums

Source: `/repo/source/utils/MultiThreadSummator.h` 6-72, `/repo/source/MPILattice/MPIUtils.h` 17-90 (`reduceAllSum`),
and the pattern `#pragma omp parallel for reduction(+:v) for (site < localsize) v += f(site); reduceAllSum(v)`
(e.g. actions/WilsonGaugeAction.cpp 33-48, wilson_loops/Plaquette.cpp 15-31). Arithmetic is exact: values live
in a commutative additive monoid.
-/

set_option autoImplicit false

namespace Leonard

variable {A : Type} [AddCommMonoid A]

/-- `MultiThreadSummator::data` after construction or `reset` (9-10, 44): one zero per thread. -/
def summatorInit : ℕ → A := fun _ => 0

/-- `add`, MultiThreadSummator.h 33-39: the calling thread's cell is incremented. -/
def summatorAdd (data : ℕ → A) (thread : ℕ) (value : A) : ℕ → A :=
  fun i => if i = thread then data i + value else data i

/-- The thread loop of `computeResult`, MultiThreadSummator.h 53-54. -/
def summatorResult (threads : ℕ) (data : ℕ → A) : A := (List.range threads).foldl (fun r i => r + data i) 0

/-- A parallel loop over slots: the additions in the order they happen, as `(thread, slot)`. -/
abbrev Schedule := List (ℕ × ℤ)

/-- The per-rank result of the loop `for (site < localsize) sum.add(f(site))` under a schedule. OpenMP's
`reduction(+)` clause behaves in the same way (private copies, combined at the end). -/
def rankSum (threads : ℕ) (sched : Schedule) (f : ℤ → A) : A :=
  summatorResult threads (sched.foldl (fun d a => summatorAdd d a.1 (f a.2)) summatorInit)

/-- `MPI_Allreduce(..., MPI_SUM, ...)` combining the rank values in some order. -/
def allReduceSum (order : List ℤ) (v : ℤ → A) : A := order.foldl (fun r k => r + v k) 0

/-- The serial loop `for (site = 0; site < volume; ++site) v += f(site)`. -/
def serialSum (volume : ℤ) (f : ℤ → A) : A := (intRange volume).foldl (fun r k => r + f k) 0

end Leonard
