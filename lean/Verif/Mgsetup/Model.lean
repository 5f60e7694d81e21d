import Verif.Mgsolve.Model

/-!
# The construction of the multigrid basis: model

`MultiGridSolver::initializeBasis` and `updateBasis`.

Left out: the printed deficits, timing, rounding.  The arrays that the solver GMRESR keeps between two calls are taken as zero: they have no influence (C38).  The
preconditioner is a function of the source (see C93).  A result `none` stands for a division by zero, after which the vectors are not numbers.
-/

set_option autoImplicit false

namespace Leonard

open Vec

noncomputable section

variable {S R : Type} [Fintype S] [DecidableEq R] {N : ℕ}

/-- The two solutions for one basis vector, `MultiGridSolver.cpp:192-193` and `:245-246`: first the homogeneous system with the initial guess `start`, then the system with the
result as source.  `rnd` is the random vector GMRESR takes when the source is shorter than the precision. -/
def setupVector (D P : SField S N → SField S N) (precision : ℝ) (steps : ℕ) (start rnd : SField S N) : Outcome (Option (SField S N)) := do
  let first ← gmresSolve D (fun _ => P) 13 13 precision steps 0 rnd (some start) (fun _ => 0) (fun _ => 0)
  match first.x with
  | none => .ok none
  | some tmp =>
    let second ← gmresSolve D (fun _ => P) 13 13 precision steps tmp rnd none (fun _ => 0) (fun _ => 0)
    .ok second.x

/-- `AlgebraUtils::normalize`, `AlgebraUtils.h:32-47`. -/
def normalizeField (v : SField S N) : Option (SField S N) := if norm2 v = 0 then none else some ((((Real.sqrt (norm2 v))⁻¹ : ℝ) : ℂ) • v)

/-- One pass of the loop of `initializeBasis`, `MultiGridSolver.cpp:186-193`: `v.1` is the random vector of the program, `v.2` the one of the solver. -/
def initVector (D P : SField S N → SField S N) (precision : ℝ) (steps : ℕ) (v : SField S N × SField S N) : Outcome (Option (SField S N)) :=
  match normalizeField v.1 with
  | none => .ok none
  | some start => setupVector D P precision steps start v.2

/-- The end of both functions, `blockBasis.orthogonalize()`, `MultiGridSolver.cpp:203` and `:256`; a vector that is not a number makes the basis useless. -/
def finishBasis (rank : S → R) (idx : S → ℕ) (ws : List (Option (SField S N))) : Option (List (S → Fin 4 × Fin N → ℂ)) :=
  (ws.mapM id).bind fun vs => basisOrthogonalize rank idx (vs.map flatField)

/-- `MultiGridSolver::initializeBasis`, `MultiGridSolver.cpp:152-214`; one pair of random vectors for each basis vector. -/
def initializeBasis (rank : S → R) (idx : S → ℕ) (D P : SField S N → SField S N) (precision : ℝ) (steps : ℕ) (random : List (SField S N × SField S N)) :
    Outcome (Option (List (S → Fin 4 × Fin N → ℂ))) := do
  let ws ← random.mapM (initVector D P precision steps)
  .ok (finishBasis rank idx ws)

/-- `MultiGridSolver::updateBasis`, `MultiGridSolver.cpp:216-267`: the old basis vectors take the place of the random vectors, with a fifth of the steps. -/
def updateBasis (rank : S → R) (idx : S → ℕ) (D P : SField S N → SField S N) (precision : ℝ) (steps : ℕ) (basis : List (S → Fin 4 × Fin N → ℂ))
    (rnd : SField S N) : Outcome (Option (List (S → Fin 4 × Fin N → ℂ))) := do
  let ws ← basis.mapM fun w => setupVector D P precision (steps / 5 + 1) (unflatField w) rnd
  .ok (finishBasis rank idx ws)

end

end Leonard
