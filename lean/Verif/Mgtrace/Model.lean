/-
The split of a stochastic trace between the coarse space and the rest, `multigrid/MultiGridStochasticEstimator.cpp`.

The notation is that of `Verif/Multigrid/Model.lean`.  The two functions are members of the base class of the measurements of the vertex functions
and of the singlet operators.  The solvers are parameters.
-/
import Verif.Multigrid.Model

set_option autoImplicit false

namespace Leonard

noncomputable section

variable {P κ R : Type} [Fintype P] [Fintype κ] [DecidableEq R]

/-- The random coarse vector of `getMultigridVectors`, `MultiGridStochasticEstimator.cpp` 16-28: every process fills the `m` entries of its array;
`false` is the integer 0.  Entries after the end of the array are not read; here they are zero. -/
def mgNoise {m : ℕ} (q : R × Fin m → Bool) : R → ℕ → ℂ := fun r i => if h : i < m then (if q (r, ⟨i, h⟩) = false then -1 else 1) else 0

/-- `getMultigridVectors`, `MultiGridStochasticEstimator.cpp` 16-55: `mg_source` and `inverse_mg_source`; `coarseSolve` is the solver of the coarse
operator. -/
def multigridVectors (rank : P → R) (idx : P → ℕ) (n d : ℕ) (basis : ℕ → P → κ → ℂ) (coarseSolve : (R → ℕ → ℂ) → R → ℕ → ℂ)
    (q : R × Fin (d * n) → Bool) : (P → κ → ℂ) × (P → κ → ℂ) :=
  let mg_sr := mgNoise q
  let mg_sol := coarseSolve mg_sr
  (mgProlong rank idx n d basis mg_sr, mgProlong rank idx n d basis mg_sol)

/-- The signs of `StochasticEstimator::generateRandomNoise`, `StochasticEstimator.h` 18-35. -/
def fineNoise (r : P × κ → Bool) : P → κ → ℂ := fun p k => if r (p, k) = false then -1 else 1

/-- What `getResidualVectors` does with its source, `MultiGridStochasticEstimator.cpp` 78-92: the solution of the Dirac equation minus the
prolonged solution of the coarse equation; `solve` is the solver of the Dirac operator. -/
def residualInverse (rank : P → R) (idx thread : P → ℕ) (n d threads : ℕ) (basis : ℕ → P → κ → ℂ) (coarseSolve : (R → ℕ → ℂ) → R → ℕ → ℂ)
    (solve : (P → κ → ℂ) → P → κ → ℂ) (source : P → κ → ℂ) : P → κ → ℂ :=
  let mg_sr := mgRestrict rank idx thread n d threads basis source
  let mg_sol := coarseSolve mg_sr
  let mg_inverse := mgProlong rank idx n d basis mg_sol
  let full_inverse := solve source
  fun p k => full_inverse p k - mg_inverse p k

/-- `getResidualVectors`, `MultiGridStochasticEstimator.cpp` 57-95: `residual_source` and `inverse_residual_source`. -/
def residualVectors (rank : P → R) (idx thread : P → ℕ) (n d threads : ℕ) (basis : ℕ → P → κ → ℂ) (coarseSolve : (R → ℕ → ℂ) → R → ℕ → ℂ)
    (solve : (P → κ → ℂ) → P → κ → ℂ) (r : P × κ → Bool) : (P → κ → ℂ) × (P → κ → ℂ) :=
  (fineNoise r, residualInverse rank idx thread n d threads basis coarseSolve solve (fineNoise r))

end

end Leonard
