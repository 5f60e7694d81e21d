import Verif.Arnoldi.Model
import Verif.Poly.Model

/-!
# Eigenvalues with Chebyshev acceleration

Model of `/repo/source/fermion_measurements/DiracEigenSolver.cpp` with `useChebyshev` set (lines 90, 135 and 140), which is what `Eigenvalues.cpp:37-44` does for the options
`Eigenvalues::use_chebyshev` and what `DiracOperator.cpp:72-77` does for the exact overlap operator.
-/

set_option autoImplicit false

namespace Leonard

noncomputable section

variable {S : Type} [Fintype S] {M : ℕ}

/-- The polynomial in place of the operator, `DiracEigenSolver.cpp:90` and `:140`; used only where it is defined. -/
def chebyshevApply (D : SField S M → SField S M) (a b : ℝ) (order : ℕ) (v : SField S M) : SField S M := (chebOp D a b order v).getD v

/-- `maximumEigenvalues`, `DiracEigenSolver.cpp:417-441`, with `useChebyshev`: the polynomial acts also on the random vector of the start (line 135), and the mode has no
effect. The returned values are those of the operator itself, line 202. `none` if the interval is empty, a division by zero. -/
def chebyshevEigenvalues (D : SField S M → SField S M) (a b : ℝ) (order : ℕ) (eig : DenseSolver) (n extra restarts : ℕ) (epsilon : ℝ) (random : SField S M)
    (old : ℕ → SField S M) : Option (List (ℂ × SField S M) × ℝ) :=
  (chebOp D a b order random).bind fun start => maximumEigenvalues (chebyshevApply D a b order) D eig n extra restarts epsilon start old

end

end Leonard
