import Verif.Blockclover.Model

/-!
# The Schwarz alternating procedure: model

`SAPPreconditioner.cpp`, `ComplementBlockDiracOperator.cpp`, `BlockDiracOperator::project` and the block sizes used by the multigrid solver.

Left out: `updateHalo` and the arithmetic rounding; the solver `GMRESR` of the blocks, which is a function of the precision and of the source (the
bound on its residual is a hypothesis of the theorems; in `Sap/Gmres.lean` the solver itself is put in).
-/

set_option autoImplicit false

namespace Leonard

variable {S : Type} {N : ℕ}

/-- `BlockDiracOperator::project`, `BlockDiracOperator.cpp:50-59`: zero at the sites with `index_lattice[site] == 0`. -/
def projectBlock (idx : S → Bool) (v : SField S N) : SField S N := fun x => if idx x then v x else 0

/-- `ComplementBlockDiracOperator::multiply`, `ComplementBlockDiracOperator.cpp:25-65`.  `D` is the full operator, `solveRed` and `solveBlack` are
`gmresr->solve` with the two block operators (31, 50), `red` and `black` their sites. -/
def complementMul (D : SField S N → SField S N) (solveRed solveBlack : SField S N → SField S N) (red black : S → Bool) (input : SField S N) :
    SField S N :=
  let tmp1 := projectBlock red (solveRed input)
  let tmp2 := input - D tmp1
  projectBlock black (solveBlack tmp2) + tmp1

/-- The precision given to the solver of the blocks, `SAPPreconditioner.cpp:12-14`; `norm` is the squared norm of the input. -/
noncomputable def sapPrecision (precision norm : ℝ) : ℝ := if norm < 10 * precision then 0.001 * norm else precision

/-- One pass of the loop of `SAPPreconditioner::multiply`, `SAPPreconditioner.cpp:18-28`; `K` is `ComplementBlockDiracOperator::multiply`. -/
def sapStep (D K : SField S N → SField S N) (input output : SField S N) : SField S N := output - K (D output) + K input

/-- `SAPPreconditioner::multiply`, `SAPPreconditioner.cpp:10-29`, for given `K`. -/
def sapMul (D K : SField S N → SField S N) (steps : ℕ) (input : SField S N) : SField S N := (sapStep D K input)^[steps] input

/-- `BlockDiracOperator::setBlockSize` called with the sizes in the list one after the other: the sizes in use, starting from `bs`. -/
def blockSizeAfter (bs : Fin 4 → ℕ) (calls : List (Fin 4 → ℕ)) : Fin 4 → ℕ := calls.foldl (fun _ b => b) bs

/-- The calls of `setBlockSize` for each of the two block operators before the first solution: `NPRVertex.cpp:45,50` with the option
`NPRVertex::sap_block_size` (the same in `MultiStepNFlavorUpdater.cpp:51,56`), then `MultiGridSolver::initializeBasis`,
`MultiGridSolver.cpp:170,174`, with the block size of the multigrid. -/
def sapBlockCalls (sap multigrid : Fin 4 → ℕ) : List (Fin 4 → ℕ) := [sap, multigrid]

end Leonard
