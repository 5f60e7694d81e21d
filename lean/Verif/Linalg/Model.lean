import Verif.Dirac.HermProps
import Mathlib.MeasureTheory.Measure.Lebesgue.EqHaar
import Mathlib.MeasureTheory.Constructions.Pi

/-!
# The self test of the linear algebra

Model of `tests/TestLinearAlgebra.cpp` on the global lattice with exact numbers: the random vectors, the tests of hermiticity and the comparisons of operators.
The tests of the overlap operators (lines 79-112) are in `Overlap.lean`; the printing is left out.
-/

set_option autoImplicit false

namespace Leonard

open Matrix MeasureTheory

noncomputable section

variable {S : Type} {N : ℕ}

/-- `AlgebraUtils::generateRandomVector`, `AlgebraUtils.h:132-168`, as a function of the uniform numbers: two for each component. -/
def randomVector (u : S × Fin 4 × Fin N → ℝ × ℝ) : SField S N := fun x => Matrix.of fun mu c => ⟨(u (x, mu, c)).1, (u (x, mu, c)).2⟩

/-- The law of the numbers of a random vector: independent and uniform between zero and one. -/
def randomVectorLaw (S : Type) [Fintype S] (N : ℕ) : Measure (S × Fin 4 × Fin N → ℝ × ℝ) :=
  Measure.pi fun _ => ((volume : Measure ℝ).restrict (Set.Icc 0 1)).prod (volume.restrict (Set.Icc 0 1))

/-- `htest`, for example `TestLinearAlgebra.cpp:44-46`: `std::norm` is the squared modulus. -/
def hermitianTest [Fintype S] (A : SField S N → SField S N) (test1 test2 : SField S N) : ℝ :=
  let test3 := A test1
  let test4 := A test2
  Complex.normSq (latticeDot test2 test3 - latticeDot test4 test1)

/-- `AlgebraUtils::differenceNorm`, `AlgebraUtils.h:244-254`. -/
def differenceNorm [Fintype S] (v w : SField S N) : ℝ := ∑ x, ∑ mu, (∑ c, starRingEnd ℂ (v x mu c - w x mu c) * (v x mu c - w x mu c)).re

/-- `SquareComplementBlockDiracWilsonOperator::multiply`, `SquareComplementBlockDiracWilsonOperator.cpp:13-25`; `solve` is the inverter for the square of the block operator. -/
def squareComplementMul (T : Torus S) (U : GField S N) (κ : ℝ) (solve : SField S N → SField S N) (v : SField S N) : SField S N :=
  optMul T U κ true (solve (optMul T U κ true v))

/-- The numbers printed by `TestLinearAlgebra::execute`, `TestLinearAlgebra.cpp:32-158`, without those of the overlap operators. `idx` marks the sites of the blocks (the
operators are constructed with colour `Black` and no twist), `solve` is the inverter of the square of the block operator, `a₁ a₂ b₁ b₂ z` are the random vectors. -/
def linearAlgebraTest [Fintype S] (T : Torus S) (U : GField S N) (idx : S → Bool) (κ : ℝ) (solve : SField S N → SField S N) (a₁ a₂ b₁ b₂ z : SField S N) : List ℝ :=
  let block := blockMul T idx U (1 / 10) 0 true
  [hermitianTest (optMul T U (1 / 10) true) a₁ a₂,
   hermitianTest (improvedMul T U (1 / 10) 1 true) b₁ b₂,
   hermitianTest block b₁ b₂,
   hermitianTest (fun v => block (block v)) b₁ b₂,
   hermitianTest (squareComplementMul T U (1 / 10) solve) b₁ b₂,
   differenceNorm (optMulAdd T U κ true z z 0) (improvedMulAdd T U κ 0 true z z 0),
   differenceNorm (optMul T U κ true z) (improvedMul T U κ 0 true z),
   differenceNorm (improvedMul T U κ 0 true z) (improvedMulAdd T U κ 0 true z z 0),
   differenceNorm (improvedMul T U κ 0 true z) (basicMul T U κ true z)]

end

end Leonard
