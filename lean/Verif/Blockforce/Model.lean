/-
The force of the operator restricted to blocks, `hmc_forces/BlockDiracWilsonFermionForce.cpp`.
-/
import Verif.Force.Model
import Verif.Dirac.Model

set_option autoImplicit false

namespace Leonard

open Matrix

variable {S : Type} {M : ℕ}

/-- `BlockDiracWilsonFermionForce::derivative`, `BlockDiracWilsonFermionForce.cpp` 10-67, for block sizes `bs`.  The flag `inBlockBoundary` of
lines 17-21 tests the coordinate of the site along the link; 23-25 return zero, and the text of 27-64 is that of
`DiracWilsonFermionForce::derivative`.  Block sizes are assumed to be positive: the program divides by them. -/
noncomputable def blockDerivative (T : Torus S) (bs : Fin 4 → ℕ) (κ : ℝ) (L : GField S M) (X Y : SField S M) (s : S) (μ : Fin 4) : Mat M :=
  if T.coord s μ % bs μ = 0 then 0 else wilsonDerivative T κ L X Y s μ

end Leonard
