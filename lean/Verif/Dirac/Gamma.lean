/-
The gamma matrices as complex matrices.

Modelled source: `/repo/source/utils/Gamma.cpp` and `/repo/source/utils/Gamma.h`.

The tables (`Verif/Dirac/GammaTable.lean`) hold Gaussian integers; here they are read as complex
numbers, which is what `std::complex<real_t>` holds.  The entries are 0, 1, -1, i and -i, which
every floating point type represents exactly, so nothing is lost by using exact complex numbers.
-/
import Verif.Dirac.GammaTable
import Mathlib.Data.Complex.Basic
import Mathlib.LinearAlgebra.Matrix.Trace
import Mathlib.LinearAlgebra.Matrix.ConjTranspose

set_option autoImplicit false

namespace Leonard

/-- A matrix acting on the four spinor components. -/
abbrev SpinMat := Matrix (Fin 4) (Fin 4) ℂ

/-- Reading a table of Gaussian integers as a matrix of complex numbers. -/
noncomputable def toSpin (t : Matrix (Fin 4) (Fin 4) GaussianInt) : SpinMat :=
  GaussianInt.toComplex.mapMatrix t

/-- `Gamma::g5idpg(mu,·,·)`, `utils/Gamma.h:13-15`. -/
noncomputable def tabGamma5Plus (mu : Fin 4) : SpinMat := toSpin (tabGamma5PlusT mu)

/-- `Gamma::g5idmg(mu,·,·)`, `utils/Gamma.h:18-20`. -/
noncomputable def tabGamma5Minus (mu : Fin 4) : SpinMat := toSpin (tabGamma5MinusT mu)

/-- `Gamma::gamma5_gamma(mu,·,·)`, `utils/Gamma.h:23-25`. -/
noncomputable def tabGamma5Gamma (mu : Fin 4) : SpinMat := toSpin (tabGamma5GammaT mu)

/-- `Gamma::gamma(mu,·,·)`, `utils/Gamma.h:28-30`. -/
noncomputable def tabGamma (mu : Fin 4) : SpinMat := toSpin (tabGammaT mu)

/-- `Gamma::gamma5(·,·)`, `utils/Gamma.h:32-34`. -/
noncomputable def tabGamma5 : SpinMat := toSpin tabGamma5T

/-- `Sigma::g5sigma(mu,nu,·,·)`, `utils/Gamma.h:60-62`. -/
noncomputable def tabGamma5Sigma (mu nu : Fin 4) : SpinMat := toSpin (tabGamma5SigmaT mu nu)

/-- `Sigma::sigma(mu,nu,·,·)`, `utils/Gamma.h:64-66`. -/
noncomputable def tabSigma (mu nu : Fin 4) : SpinMat := toSpin (tabSigmaT mu nu)

/-- `Gamma::gammaBasisMatrices(i)` for one colour, `utils/Gamma.h:36-38`. -/
noncomputable def tabBasis (i : Fin 16) : SpinMat := toSpin (tabBasisT i)

/-- `Gamma::gammaChromaMatrices(i)` for one colour, `utils/Gamma.h:40-42`. -/
noncomputable def tabChroma (i : Fin 16) : SpinMat := toSpin (tabChromaT i)

/-- The matrices that `Gamma::gammaBasisMatrices` and `Gamma::gammaChromaMatrices` return:
`4 * n` rows and columns for `n` colours.  `utils/Gamma.cpp:16-21` sets them to zero, the
assignments fill the block of colour 0 and the loop at `utils/Gamma.cpp:539-554` copies that
block to `(c*4+nu, c*4+rho)` for every other colour `c`. -/
noncomputable def colourBlocks (n : Nat) (t : SpinMat) : Matrix (Fin (n * 4)) (Fin (n * 4)) ℂ :=
  Matrix.of fun i j =>
    if i.val / 4 = j.val / 4 then t ⟨i.val % 4, Nat.mod_lt _ (by decide)⟩
      ⟨j.val % 4, Nat.mod_lt _ (by decide)⟩
    else 0

end Leonard
