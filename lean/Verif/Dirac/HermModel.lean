/-
Inner products of spinor fields and gauge transformations of them.

Modelled source: `/repo/source/algebra_utils/AlgebraUtils.h`.  The sum over the sites of all
processes is modelled as a sum over the sites of the lattice (C08).
-/
import Verif.Dirac.Model
import Mathlib.Analysis.Complex.Basic

set_option autoImplicit false

namespace Leonard

open Matrix

variable {S : Type} {N : ℕ}

/-- `AlgebraUtils::dot`, `AlgebraUtils.h:182-196`; `vector_dot` conjugates its first argument. -/
noncomputable def latticeDot [Fintype S] (v w : SField S N) : ℂ :=
  ∑ x, ∑ mu, ∑ n, starRingEnd ℂ (v x mu n) * w x mu n

/-- `AlgebraUtils::squaredNorm`, `AlgebraUtils.h:17-27`. -/
noncomputable def latticeNorm2 [Fintype S] (v : SField S N) : ℝ :=
  ∑ x, ∑ mu, (∑ n, starRingEnd ℂ (v x mu n) * v x mu n).re

/-- `AlgebraUtils::gamma5dot`, `AlgebraUtils.h:219-238`. -/
noncomputable def latticeGamma5Dot [Fintype S] (v w : SField S N) : ℂ :=
  ∑ x, (((∑ n, starRingEnd ℂ (v x 0 n) * w x 0 n) + ∑ n, starRingEnd ℂ (v x 1 n) * w x 1 n)
    - (∑ n, starRingEnd ℂ (v x 2 n) * w x 2 n) - ∑ n, starRingEnd ℂ (v x 3 n) * w x 3 n)

/-- `AlgebraUtils::gamma5`, `AlgebraUtils.h:268-275`: the lower two components change sign. -/
noncomputable def latticeGamma5 (v : SField S N) : SField S N := fun x => Matrix.of fun mu n =>
  if 2 ≤ mu.val then -v x mu n else v x mu n

/-- A gauge transformation of a spinor field: `ψ(x) → Ω(x) ψ(x)` on the colour index. -/
def spinorTransform (ω : S → Mat N) (v : SField S N) : SField S N := fun x => v x * (ω x)ᵀ

end Leonard
