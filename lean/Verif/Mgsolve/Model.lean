import Verif.Multigrid.Model
import Verif.Sap.Model
import Verif.Solver.Model

/-!
# The cycle of the multigrid solver: model

The first half of one step of `MultiGridSolver::solve`, `MultiGridSolver.cpp:68-90`; the second half is `gmresStep` in `mgLoop` (`Solver/Model.lean`).

Left out: `updateHalo`, rounding, and the coarse solver, which is a function of its source (the bound on its residual is a hypothesis of the
theorems).  The NaN a preconditioner may give (C93) is not part of this model: the smoother is a function of the source.
-/

set_option autoImplicit false

namespace Leonard

noncomputable section

variable {S R : Type} [Fintype S] [DecidableEq R] {N : ℕ}

/-- The components of a field at one site, labelled by spin and colour: the form in which `MultiGridProjector` runs through them. -/
def flatField (v : SField S N) : S → Fin 4 × Fin N → ℂ := fun x k => v x k.1 k.2

/-- The field with the given components. -/
def unflatField (w : S → Fin 4 × Fin N → ℂ) : SField S N := fun x => Matrix.of fun mu i => w x (mu, i)

/-- `MultiGridSolver.cpp:69-88`: restriction of the residual `r`, coarse solver, prolongation, smoother (`sap`) for what is left of the residual, sum of
the two corrections.  The result is `u[k % 15]` before the orthogonalisation. -/
def mgCycle (D : SField S N → SField S N) (rank : S → R) (idx thread : S → ℕ) (n d threads : ℕ) (basis : ℕ → S → Fin 4 × Fin N → ℂ)
    (coarse : (R → ℕ → ℂ) → R → ℕ → ℂ) (sap : SField S N → SField S N) (r : SField S N) : SField S N :=
  let source_hat := mgRestrict rank idx thread n d threads basis (flatField r)
  let mg_inverse := unflatField (mgProlong rank idx n d basis (coarse source_hat))
  let source_sap := r - D mg_inverse
  sap source_sap + mg_inverse

end

end Leonard
