/-
The clover improved operator restricted to blocks.

Modelled source: `/repo/source/dirac_operators/BlockImprovedDiracWilsonOperator.cpp`, created by
`BlockDiracOperator::getInstance` (`BlockDiracOperator.cpp:24-29`) for the operator name `Improved` and used by the
Schwarz preconditioner of `NPRVertex.cpp` and `MultiStepNFlavorUpdater.cpp`.

Simplifications: those of `Verif/Dirac/Model.lean`.  `getForce` returns the null pointer (361-363) and is not modelled.
-/
import Verif.Dirac.Model

set_option autoImplicit false

namespace Leonard

variable {S : Type} {N : ℕ}

/-- The clover term added in `BlockImprovedDiracWilsonOperator.cpp:136-192` (in `multiply`) and `:269-325` (in `multiplyAdd`): the
components 2 and 3 are subtracted when `gamma5` is not set.  The field strength is that of
`updateFieldStrength` (342-359), whose text is that of the full operator and which reads the links that leave the blocks. -/
noncomputable def blockClover (T : Torus S) (U : GField S N) (κ csw : ℝ) (g5 : Bool) (v : SField S N) (x : S) (c : Fin 4) (i : Fin N) : ℂ :=
  let q := fun c => (κ * csw : ℂ) * cloverTerm (fieldStrength T U x) (v x) c i
  if g5 then q c else ![q 0, q 1, -q 2, -q 3] c

/-- `BlockImprovedDiracWilsonOperator::multiply`, `BlockImprovedDiracWilsonOperator.cpp:22-195`: the text of 26-133 is that of
`BlockDiracWilsonOperator.cpp:18-119`; the clover term is added at every site, in the blocks and outside. -/
noncomputable def blockImprovedMul (T : Torus S) (idx : S → Bool) (U : GField S N) (κ csw τ : ℝ) (g5 : Bool) (v : SField S N) : SField S N :=
  fun x => Matrix.of fun c i => blockMul T idx U κ τ g5 v x c i + blockClover T U κ csw g5 v x c i

/-- `BlockImprovedDiracWilsonOperator::multiplyAdd`, `BlockImprovedDiracWilsonOperator.cpp:197-328`. -/
noncomputable def blockImprovedMulAdd (T : Torus S) (idx : S → Bool) (U : GField S N) (κ csw τ : ℝ) (g5 : Bool)
    (v w : SField S N) (α : ℂ) : SField S N :=
  fun x => Matrix.of fun c i => blockMulAdd T idx U κ τ g5 v w α x c i + blockClover T U κ csw g5 v x c i

/-- The class as an operator object. -/
noncomputable def blockImprovedOp (T : Torus S) (idx : S → Bool) (U : GField S N) (κ csw τ : ℝ) (g5 : Bool) : DiracOp S N :=
  ⟨blockImprovedMul T idx U κ csw τ g5, fun _ v w α => .ok (blockImprovedMulAdd T idx U κ csw τ g5 v w α)⟩

end Leonard
