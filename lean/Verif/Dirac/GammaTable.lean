/-
The tables of gamma matrices of `/repo/source/utils/Gamma.cpp`.

Every entry in the source is one of 0, 1, -1, i and -i, so the tables are kept as matrices of
Gaussian integers (which Lean can compute with) and `Verif/Dirac/Gamma.lean` maps them to the
complex numbers.  The tables are transcribed entry by entry from the source.
-/
import Mathlib.NumberTheory.Zsqrtd.GaussianInt
import Mathlib.LinearAlgebra.Matrix.Notation

set_option autoImplicit false

namespace Leonard

/-- The imaginary unit, `I` in `utils/Gamma.cpp:2`. -/
abbrev gI : GaussianInt := ⟨0, 1⟩

/-- `Gamma::gamma5_id_plus_gamma`, `utils/Gamma.cpp:6`. -/
def tabGamma5PlusT : Fin 4 → Matrix (Fin 4) (Fin 4) GaussianInt :=
  ![
    !![1, 0, 0, -gI; 0, 1, -gI, 0; 0, -gI, -1, 0; -gI, 0, 0, -1],
    !![1, 0, 0, -1; 0, 1, 1, 0; 0, -1, -1, 0; 1, 0, 0, -1],
    !![1, 0, -gI, 0; 0, 1, 0, gI; -gI, 0, -1, 0; 0, gI, 0, -1],
    !![1, 0, 1, 0; 0, 1, 0, 1; -1, 0, -1, 0; 0, -1, 0, -1]]

/-- `Gamma::gamma5_id_minus_gamma`, `utils/Gamma.cpp:7`. -/
def tabGamma5MinusT : Fin 4 → Matrix (Fin 4) (Fin 4) GaussianInt :=
  ![
    !![1, 0, 0, gI; 0, 1, gI, 0; 0, gI, -1, 0; gI, 0, 0, -1],
    !![1, 0, 0, 1; 0, 1, -1, 0; 0, 1, -1, 0; -1, 0, 0, -1],
    !![1, 0, gI, 0; 0, 1, 0, -gI; gI, 0, -1, 0; 0, -gI, 0, -1],
    !![1, 0, -1, 0; 0, 1, 0, -1; 1, 0, -1, 0; 0, 1, 0, -1]]

/-- `Gamma::gamma5gammamu`, `utils/Gamma.cpp:8`. -/
def tabGamma5GammaT : Fin 4 → Matrix (Fin 4) (Fin 4) GaussianInt :=
  ![
    !![0, 0, 0, -gI; 0, 0, -gI, 0; 0, -gI, 0, 0; -gI, 0, 0, 0],
    !![0, 0, 0, -1; 0, 0, 1, 0; 0, -1, 0, 0; 1, 0, 0, 0],
    !![0, 0, -gI, 0; 0, 0, 0, gI; -gI, 0, 0, 0; 0, gI, 0, 0],
    !![0, 0, 1, 0; 0, 0, 0, 1; -1, 0, 0, 0; 0, -1, 0, 0]]

/-- `Gamma::gammamu`, `utils/Gamma.cpp:9`. -/
def tabGammaT : Fin 4 → Matrix (Fin 4) (Fin 4) GaussianInt :=
  ![
    !![0, 0, 0, -gI; 0, 0, -gI, 0; 0, gI, 0, 0; gI, 0, 0, 0],
    !![0, 0, 0, -1; 0, 0, 1, 0; 0, 1, 0, 0; -1, 0, 0, 0],
    !![0, 0, -gI, 0; 0, 0, 0, gI; gI, 0, 0, 0; 0, -gI, 0, 0],
    !![0, 0, 1, 0; 0, 0, 0, 1; 1, 0, 0, 0; 0, 1, 0, 0]]

/-- `Gamma::_gamma5`, `utils/Gamma.cpp:10`. -/
def tabGamma5T : Matrix (Fin 4) (Fin 4) GaussianInt :=
  !![1, 0, 0, 0; 0, 1, 0, 0; 0, 0, -1, 0; 0, 0, 0, -1]

/-- `Sigma::gamma5_sigma`, `utils/Gamma.cpp:12`. -/
def tabGamma5SigmaT : Fin 4 → Fin 4 → Matrix (Fin 4) (Fin 4) GaussianInt :=
  ![
    ![
      !![0, 0, 0, 0; 0, 0, 0, 0; 0, 0, 0, 0; 0, 0, 0, 0],
      !![-1, 0, 0, 0; 0, 1, 0, 0; 0, 0, 1, 0; 0, 0, 0, -1],
      !![0, -gI, 0, 0; gI, 0, 0, 0; 0, 0, 0, gI; 0, 0, -gI, 0],
      !![0, 1, 0, 0; 1, 0, 0, 0; 0, 0, 0, 1; 0, 0, 1, 0]],
    ![
      !![1, 0, 0, 0; 0, -1, 0, 0; 0, 0, -1, 0; 0, 0, 0, 1],
      !![0, 0, 0, 0; 0, 0, 0, 0; 0, 0, 0, 0; 0, 0, 0, 0],
      !![0, -1, 0, 0; -1, 0, 0, 0; 0, 0, 0, 1; 0, 0, 1, 0],
      !![0, -gI, 0, 0; gI, 0, 0, 0; 0, 0, 0, -gI; 0, 0, gI, 0]],
    ![
      !![0, gI, 0, 0; -gI, 0, 0, 0; 0, 0, 0, -gI; 0, 0, gI, 0],
      !![0, 1, 0, 0; 1, 0, 0, 0; 0, 0, 0, -1; 0, 0, -1, 0],
      !![0, 0, 0, 0; 0, 0, 0, 0; 0, 0, 0, 0; 0, 0, 0, 0],
      !![1, 0, 0, 0; 0, -1, 0, 0; 0, 0, 1, 0; 0, 0, 0, -1]],
    ![
      !![0, -1, 0, 0; -1, 0, 0, 0; 0, 0, 0, -1; 0, 0, -1, 0],
      !![0, gI, 0, 0; -gI, 0, 0, 0; 0, 0, 0, gI; 0, 0, -gI, 0],
      !![-1, 0, 0, 0; 0, 1, 0, 0; 0, 0, -1, 0; 0, 0, 0, 1],
      !![0, 0, 0, 0; 0, 0, 0, 0; 0, 0, 0, 0; 0, 0, 0, 0]]]

/-- `Sigma::_sigma`, `utils/Gamma.cpp:13`. -/
def tabSigmaT : Fin 4 → Fin 4 → Matrix (Fin 4) (Fin 4) GaussianInt :=
  ![
    ![
      !![0, 0, 0, 0; 0, 0, 0, 0; 0, 0, 0, 0; 0, 0, 0, 0],
      !![-1, 0, 0, 0; 0, 1, 0, 0; 0, 0, -1, 0; 0, 0, 0, 1],
      !![0, -gI, 0, 0; gI, 0, 0, 0; 0, 0, 0, -gI; 0, 0, gI, 0],
      !![0, 1, 0, 0; 1, 0, 0, 0; 0, 0, 0, -1; 0, 0, -1, 0]],
    ![
      !![1, 0, 0, 0; 0, -1, 0, 0; 0, 0, 1, 0; 0, 0, 0, -1],
      !![0, 0, 0, 0; 0, 0, 0, 0; 0, 0, 0, 0; 0, 0, 0, 0],
      !![0, -1, 0, 0; -1, 0, 0, 0; 0, 0, 0, -1; 0, 0, -1, 0],
      !![0, -gI, 0, 0; gI, 0, 0, 0; 0, 0, 0, gI; 0, 0, -gI, 0]],
    ![
      !![0, gI, 0, 0; -gI, 0, 0, 0; 0, 0, 0, gI; 0, 0, -gI, 0],
      !![0, 1, 0, 0; 1, 0, 0, 0; 0, 0, 0, 1; 0, 0, 1, 0],
      !![0, 0, 0, 0; 0, 0, 0, 0; 0, 0, 0, 0; 0, 0, 0, 0],
      !![1, 0, 0, 0; 0, -1, 0, 0; 0, 0, -1, 0; 0, 0, 0, 1]],
    ![
      !![0, -1, 0, 0; -1, 0, 0, 0; 0, 0, 0, 1; 0, 0, 1, 0],
      !![0, gI, 0, 0; -gI, 0, 0, 0; 0, 0, 0, -gI; 0, 0, gI, 0],
      !![-1, 0, 0, 0; 0, 1, 0, 0; 0, 0, 1, 0; 0, 0, 0, -1],
      !![0, 0, 0, 0; 0, 0, 0, 0; 0, 0, 0, 0; 0, 0, 0, 0]]]

/-- The leading 4x4 block of `gammaBasis`, filled at `utils/Gamma.cpp:23-278`. -/
def tabBasisT : Fin 16 → Matrix (Fin 4) (Fin 4) GaussianInt :=
  ![
    !![1, 0, 0, 0; 0, 1, 0, 0; 0, 0, 1, 0; 0, 0, 0, 1],
    !![1, 0, 0, 0; 0, 1, 0, 0; 0, 0, -1, 0; 0, 0, 0, -1],
    !![0, 0, 0, -gI; 0, 0, -gI, 0; 0, gI, 0, 0; gI, 0, 0, 0],
    !![0, 0, 0, -1; 0, 0, 1, 0; 0, 1, 0, 0; -1, 0, 0, 0],
    !![0, 0, -gI, 0; 0, 0, 0, gI; gI, 0, 0, 0; 0, -gI, 0, 0],
    !![0, 0, 1, 0; 0, 0, 0, 1; 1, 0, 0, 0; 0, 1, 0, 0],
    !![0, 0, 0, 1; 0, 0, 1, 0; 0, 1, 0, 0; 1, 0, 0, 0],
    !![0, 0, 0, -gI; 0, 0, gI, 0; 0, -gI, 0, 0; gI, 0, 0, 0],
    !![0, 0, 1, 0; 0, 0, 0, -1; 1, 0, 0, 0; 0, -1, 0, 0],
    !![0, 0, gI, 0; 0, 0, 0, gI; -gI, 0, 0, 0; 0, -gI, 0, 0],
    !![-1, 0, 0, 0; 0, 1, 0, 0; 0, 0, -1, 0; 0, 0, 0, 1],
    !![0, -gI, 0, 0; gI, 0, 0, 0; 0, 0, 0, -gI; 0, 0, gI, 0],
    !![0, 1, 0, 0; 1, 0, 0, 0; 0, 0, 0, -1; 0, 0, -1, 0],
    !![0, -1, 0, 0; -1, 0, 0, 0; 0, 0, 0, -1; 0, 0, -1, 0],
    !![0, -gI, 0, 0; gI, 0, 0, 0; 0, 0, 0, gI; 0, 0, -gI, 0],
    !![-1, 0, 0, 0; 0, 1, 0, 0; 0, 0, 1, 0; 0, 0, 0, -1]]

/-- The leading 4x4 block of `gammaChroma`, filled at `utils/Gamma.cpp:282-537`. -/
def tabChromaT : Fin 16 → Matrix (Fin 4) (Fin 4) GaussianInt :=
  ![
    !![1, 0, 0, 0; 0, 1, 0, 0; 0, 0, 1, 0; 0, 0, 0, 1],
    !![0, 0, 0, -gI; 0, 0, -gI, 0; 0, gI, 0, 0; gI, 0, 0, 0],
    !![0, 0, 0, -1; 0, 0, 1, 0; 0, 1, 0, 0; -1, 0, 0, 0],
    !![gI, 0, 0, 0; 0, -gI, 0, 0; 0, 0, gI, 0; 0, 0, 0, -gI],
    !![0, 0, -gI, 0; 0, 0, 0, gI; gI, 0, 0, 0; 0, -gI, 0, 0],
    !![0, -1, 0, 0; 1, 0, 0, 0; 0, 0, 0, -1; 0, 0, 1, 0],
    !![0, gI, 0, 0; gI, 0, 0, 0; 0, 0, 0, gI; 0, 0, gI, 0],
    !![0, 0, 1, 0; 0, 0, 0, 1; -1, 0, 0, 0; 0, -1, 0, 0],
    !![0, 0, 1, 0; 0, 0, 0, 1; 1, 0, 0, 0; 0, 1, 0, 0],
    !![0, -gI, 0, 0; -gI, 0, 0, 0; 0, 0, 0, gI; 0, 0, gI, 0],
    !![0, -1, 0, 0; 1, 0, 0, 0; 0, 0, 0, 1; 0, 0, -1, 0],
    !![0, 0, gI, 0; 0, 0, 0, -gI; gI, 0, 0, 0; 0, -gI, 0, 0],
    !![-gI, 0, 0, 0; 0, gI, 0, 0; 0, 0, gI, 0; 0, 0, 0, -gI],
    !![0, 0, 0, -1; 0, 0, 1, 0; 0, -1, 0, 0; 1, 0, 0, 0],
    !![0, 0, 0, gI; 0, 0, gI, 0; 0, gI, 0, 0; gI, 0, 0, 0],
    !![1, 0, 0, 0; 0, 1, 0, 0; 0, 0, -1, 0; 0, 0, 0, -1]]

end Leonard
