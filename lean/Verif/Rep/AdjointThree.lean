import Verif.Rep.Model

/-!
# `toAdjoint` for three colours

The table of `/repo/source/utils/ConvertLattice.h` 36-99, entry by entry in the order of the source.
-/

set_option autoImplicit false

namespace Leonard

noncomputable section

/-- Row 0 of `toAdjoint` for three colours, `ConvertLattice.h` 36-43. -/
def toAdjoint3Row0 (U : Mat 3) : Fin 8 → ℝ :=
  ![(U 0 1).im * (U 1 0).im + (U 0 0).im * (U 1 1).im + (U 0 1).re * (U 1 0).re + (U 0 0).re * (U 1 1).re,
    (U 0 2).im * (U 1 0).im + (U 0 0).im * (U 1 2).im + (U 0 2).re * (U 1 0).re + (U 0 0).re * (U 1 2).re,
    (U 0 2).im * (U 1 1).im + (U 0 1).im * (U 1 2).im + (U 0 2).re * (U 1 1).re + (U 0 1).re * (U 1 2).re,
    -((U 1 1).im * (U 0 0).re) + (U 1 0).im * (U 0 1).re - ((U 0 1).im * (U 1 0).re) + (U 0 0).im * (U 1 1).re,
    -((U 1 2).im * (U 0 0).re) + (U 1 0).im * (U 0 2).re - ((U 0 2).im * (U 1 0).re) + (U 0 0).im * (U 1 2).re,
    -((U 1 2).im * (U 0 1).re) + (U 1 1).im * (U 0 2).re - ((U 0 2).im * (U 1 1).re) + (U 0 1).im * (U 1 2).re,
    (U 0 0).im * (U 1 0).im - ((U 0 1).im * (U 1 1).im) + (U 0 0).re * (U 1 0).re - ((U 0 1).re * (U 1 1).re),
    (U 0 0).im * (U 1 0).im / Real.sqrt 3 + (U 0 1).im * (U 1 1).im / Real.sqrt 3 + (-2) * ((U 0 2).im * (U 1 2).im) /
    Real.sqrt 3 + (U 0 0).re * (U 1 0).re / Real.sqrt 3 + (U 0 1).re * (U 1 1).re / Real.sqrt 3 + (-2) * ((U 0 2).re *
    (U 1 2).re) / Real.sqrt 3]

/-- Row 1 of `toAdjoint` for three colours, `ConvertLattice.h` 44-51. -/
def toAdjoint3Row1 (U : Mat 3) : Fin 8 → ℝ :=
  ![(U 0 1).im * (U 2 0).im + (U 0 0).im * (U 2 1).im + (U 0 1).re * (U 2 0).re + (U 0 0).re * (U 2 1).re,
    (U 0 2).im * (U 2 0).im + (U 0 0).im * (U 2 2).im + (U 0 2).re * (U 2 0).re + (U 0 0).re * (U 2 2).re,
    (U 0 2).im * (U 2 1).im + (U 0 1).im * (U 2 2).im + (U 0 2).re * (U 2 1).re + (U 0 1).re * (U 2 2).re,
    -((U 2 1).im * (U 0 0).re) + (U 2 0).im * (U 0 1).re - ((U 0 1).im * (U 2 0).re) + (U 0 0).im * (U 2 1).re,
    -((U 2 2).im * (U 0 0).re) + (U 2 0).im * (U 0 2).re - ((U 0 2).im * (U 2 0).re) + (U 0 0).im * (U 2 2).re,
    -((U 2 2).im * (U 0 1).re) + (U 2 1).im * (U 0 2).re - ((U 0 2).im * (U 2 1).re) + (U 0 1).im * (U 2 2).re,
    (U 0 0).im * (U 2 0).im - ((U 0 1).im * (U 2 1).im) + (U 0 0).re * (U 2 0).re - ((U 0 1).re * (U 2 1).re),
    (U 0 0).im * (U 2 0).im / Real.sqrt 3 + (U 0 1).im * (U 2 1).im / Real.sqrt 3 + (-2) * ((U 0 2).im * (U 2 2).im) /
    Real.sqrt 3 + (U 0 0).re * (U 2 0).re / Real.sqrt 3 + (U 0 1).re * (U 2 1).re / Real.sqrt 3 + (-2) * ((U 0 2).re *
    (U 2 2).re) / Real.sqrt 3]

/-- Row 2 of `toAdjoint` for three colours, `ConvertLattice.h` 52-59. -/
def toAdjoint3Row2 (U : Mat 3) : Fin 8 → ℝ :=
  ![(U 1 1).im * (U 2 0).im + (U 1 0).im * (U 2 1).im + (U 1 1).re * (U 2 0).re + (U 1 0).re * (U 2 1).re,
    (U 1 2).im * (U 2 0).im + (U 1 0).im * (U 2 2).im + (U 1 2).re * (U 2 0).re + (U 1 0).re * (U 2 2).re,
    (U 1 2).im * (U 2 1).im + (U 1 1).im * (U 2 2).im + (U 1 2).re * (U 2 1).re + (U 1 1).re * (U 2 2).re,
    -((U 2 1).im * (U 1 0).re) + (U 2 0).im * (U 1 1).re - ((U 1 1).im * (U 2 0).re) + (U 1 0).im * (U 2 1).re,
    -((U 2 2).im * (U 1 0).re) + (U 2 0).im * (U 1 2).re - ((U 1 2).im * (U 2 0).re) + (U 1 0).im * (U 2 2).re,
    -((U 2 2).im * (U 1 1).re) + (U 2 1).im * (U 1 2).re - ((U 1 2).im * (U 2 1).re) + (U 1 1).im * (U 2 2).re,
    (U 1 0).im * (U 2 0).im - ((U 1 1).im * (U 2 1).im) + (U 1 0).re * (U 2 0).re - ((U 1 1).re * (U 2 1).re),
    (U 1 0).im * (U 2 0).im / Real.sqrt 3 + (U 1 1).im * (U 2 1).im / Real.sqrt 3 + (-2) * ((U 1 2).im * (U 2 2).im) /
    Real.sqrt 3 + (U 1 0).re * (U 2 0).re / Real.sqrt 3 + (U 1 1).re * (U 2 1).re / Real.sqrt 3 + (-2) * ((U 1 2).re *
    (U 2 2).re) / Real.sqrt 3]

/-- Row 3 of `toAdjoint` for three colours, `ConvertLattice.h` 60-67. -/
def toAdjoint3Row3 (U : Mat 3) : Fin 8 → ℝ :=
  ![(U 1 1).im * (U 0 0).re + (U 1 0).im * (U 0 1).re - ((U 0 1).im * (U 1 0).re) - ((U 0 0).im * (U 1 1).re),
    (U 1 2).im * (U 0 0).re + (U 1 0).im * (U 0 2).re - ((U 0 2).im * (U 1 0).re) - ((U 0 0).im * (U 1 2).re),
    (U 1 2).im * (U 0 1).re + (U 1 1).im * (U 0 2).re - ((U 0 2).im * (U 1 1).re) - ((U 0 1).im * (U 1 2).re),
    -((U 0 1).im * (U 1 0).im) + (U 0 0).im * (U 1 1).im - ((U 0 1).re * (U 1 0).re) + (U 0 0).re * (U 1 1).re,
    -((U 0 2).im * (U 1 0).im) + (U 0 0).im * (U 1 2).im - ((U 0 2).re * (U 1 0).re) + (U 0 0).re * (U 1 2).re,
    -((U 0 2).im * (U 1 1).im) + (U 0 1).im * (U 1 2).im - ((U 0 2).re * (U 1 1).re) + (U 0 1).re * (U 1 2).re,
    (U 1 0).im * (U 0 0).re - ((U 1 1).im * (U 0 1).re) - ((U 0 0).im * (U 1 0).re) + (U 0 1).im * (U 1 1).re,
    (U 1 0).im * (U 0 0).re / Real.sqrt 3 + (U 1 1).im * (U 0 1).re / Real.sqrt 3 + (-2) * ((U 1 2).im * (U 0 2).re) /
    Real.sqrt 3 - ((U 0 0).im * (U 1 0).re / Real.sqrt 3) - ((U 0 1).im * (U 1 1).re / Real.sqrt 3) + (2) * ((U 0 2).im
    * (U 1 2).re) / Real.sqrt 3]

/-- Row 4 of `toAdjoint` for three colours, `ConvertLattice.h` 68-75. -/
def toAdjoint3Row4 (U : Mat 3) : Fin 8 → ℝ :=
  ![(U 2 1).im * (U 0 0).re + (U 2 0).im * (U 0 1).re - ((U 0 1).im * (U 2 0).re) - ((U 0 0).im * (U 2 1).re),
    (U 2 2).im * (U 0 0).re + (U 2 0).im * (U 0 2).re - ((U 0 2).im * (U 2 0).re) - ((U 0 0).im * (U 2 2).re),
    (U 2 2).im * (U 0 1).re + (U 2 1).im * (U 0 2).re - ((U 0 2).im * (U 2 1).re) - ((U 0 1).im * (U 2 2).re),
    -((U 0 1).im * (U 2 0).im) + (U 0 0).im * (U 2 1).im - ((U 0 1).re * (U 2 0).re) + (U 0 0).re * (U 2 1).re,
    -((U 0 2).im * (U 2 0).im) + (U 0 0).im * (U 2 2).im - ((U 0 2).re * (U 2 0).re) + (U 0 0).re * (U 2 2).re,
    -((U 0 2).im * (U 2 1).im) + (U 0 1).im * (U 2 2).im - ((U 0 2).re * (U 2 1).re) + (U 0 1).re * (U 2 2).re,
    (U 2 0).im * (U 0 0).re - ((U 2 1).im * (U 0 1).re) - ((U 0 0).im * (U 2 0).re) + (U 0 1).im * (U 2 1).re,
    (U 2 0).im * (U 0 0).re / Real.sqrt 3 + (U 2 1).im * (U 0 1).re / Real.sqrt 3 + (-2) * ((U 2 2).im * (U 0 2).re) /
    Real.sqrt 3 - ((U 0 0).im * (U 2 0).re / Real.sqrt 3) - ((U 0 1).im * (U 2 1).re / Real.sqrt 3) + (2) * ((U 0 2).im
    * (U 2 2).re) / Real.sqrt 3]

/-- Row 5 of `toAdjoint` for three colours, `ConvertLattice.h` 76-83. -/
def toAdjoint3Row5 (U : Mat 3) : Fin 8 → ℝ :=
  ![(U 2 1).im * (U 1 0).re + (U 2 0).im * (U 1 1).re - ((U 1 1).im * (U 2 0).re) - ((U 1 0).im * (U 2 1).re),
    (U 2 2).im * (U 1 0).re + (U 2 0).im * (U 1 2).re - ((U 1 2).im * (U 2 0).re) - ((U 1 0).im * (U 2 2).re),
    (U 2 2).im * (U 1 1).re + (U 2 1).im * (U 1 2).re - ((U 1 2).im * (U 2 1).re) - ((U 1 1).im * (U 2 2).re),
    -((U 1 1).im * (U 2 0).im) + (U 1 0).im * (U 2 1).im - ((U 1 1).re * (U 2 0).re) + (U 1 0).re * (U 2 1).re,
    -((U 1 2).im * (U 2 0).im) + (U 1 0).im * (U 2 2).im - ((U 1 2).re * (U 2 0).re) + (U 1 0).re * (U 2 2).re,
    -((U 1 2).im * (U 2 1).im) + (U 1 1).im * (U 2 2).im - ((U 1 2).re * (U 2 1).re) + (U 1 1).re * (U 2 2).re,
    (U 2 0).im * (U 1 0).re - ((U 2 1).im * (U 1 1).re) - ((U 1 0).im * (U 2 0).re) + (U 1 1).im * (U 2 1).re,
    (U 2 0).im * (U 1 0).re / Real.sqrt 3 + (U 2 1).im * (U 1 1).re / Real.sqrt 3 + (-2) * ((U 2 2).im * (U 1 2).re) /
    Real.sqrt 3 - ((U 1 0).im * (U 2 0).re / Real.sqrt 3) - ((U 1 1).im * (U 2 1).re / Real.sqrt 3) + (2) * ((U 1 2).im
    * (U 2 2).re) / Real.sqrt 3]

/-- Row 6 of `toAdjoint` for three colours, `ConvertLattice.h` 84-91. -/
def toAdjoint3Row6 (U : Mat 3) : Fin 8 → ℝ :=
  ![(U 0 0).im * (U 0 1).im - ((U 1 0).im * (U 1 1).im) + (U 0 0).re * (U 0 1).re - ((U 1 0).re * (U 1 1).re),
    (U 0 0).im * (U 0 2).im - ((U 1 0).im * (U 1 2).im) + (U 0 0).re * (U 0 2).re - ((U 1 0).re * (U 1 2).re),
    (U 0 1).im * (U 0 2).im - ((U 1 1).im * (U 1 2).im) + (U 0 1).re * (U 0 2).re - ((U 1 1).re * (U 1 2).re),
    -((U 0 1).im * (U 0 0).re) + (U 0 0).im * (U 0 1).re + (U 1 1).im * (U 1 0).re - ((U 1 0).im * (U 1 1).re),
    -((U 0 2).im * (U 0 0).re) + (U 0 0).im * (U 0 2).re + (U 1 2).im * (U 1 0).re - ((U 1 0).im * (U 1 2).re),
    -((U 0 2).im * (U 0 1).re) + (U 0 1).im * (U 0 2).re + (U 1 2).im * (U 1 1).re - ((U 1 1).im * (U 1 2).re),
    0.5 * ((U 0 0).im * (U 0 0).im) + (-1 / 2) * ((U 0 1).im * (U 0 1).im) + (-1 / 2) * ((U 1 0).im * (U 1 0).im) + 0.5
    * ((U 1 1).im * (U 1 1).im) + 0.5 * ((U 0 0).re * (U 0 0).re) + (-1 / 2) * ((U 0 1).re * (U 0 1).re) + (-1 / 2) *
    ((U 1 0).re * (U 1 0).re) + 0.5 * ((U 1 1).re * (U 1 1).re),
    0.5 * ((U 0 0).im * (U 0 0).im / Real.sqrt 3) + 0.5 * ((U 0 1).im * (U 0 1).im / Real.sqrt 3) - ((U 0 2).im * (U 0
    2).im / Real.sqrt 3) + (-1 / 2) * ((U 1 0).im * (U 1 0).im) / Real.sqrt 3 + (-1 / 2) * ((U 1 1).im * (U 1 1).im) /
    Real.sqrt 3 + (U 1 2).im * (U 1 2).im / Real.sqrt 3 + 0.5 * ((U 0 0).re * (U 0 0).re / Real.sqrt 3) + 0.5 * ((U 0
    1).re * (U 0 1).re / Real.sqrt 3) - ((U 0 2).re * (U 0 2).re / Real.sqrt 3) + (-1 / 2) * ((U 1 0).re * (U 1 0).re) /
    Real.sqrt 3 + (-1 / 2) * ((U 1 1).re * (U 1 1).re) / Real.sqrt 3 + (U 1 2).re * (U 1 2).re / Real.sqrt 3]

/-- Row 7 of `toAdjoint` for three colours, `ConvertLattice.h` 92-99. -/
def toAdjoint3Row7 (U : Mat 3) : Fin 8 → ℝ :=
  ![(U 0 0).im * (U 0 1).im / Real.sqrt 3 + (U 1 0).im * (U 1 1).im / Real.sqrt 3 + (-2) * ((U 2 0).im * (U 2 1).im) /
    Real.sqrt 3 + (U 0 0).re * (U 0 1).re / Real.sqrt 3 + (U 1 0).re * (U 1 1).re / Real.sqrt 3 + (-2) * ((U 2 0).re *
    (U 2 1).re) / Real.sqrt 3,
    (U 0 0).im * (U 0 2).im / Real.sqrt 3 + (U 1 0).im * (U 1 2).im / Real.sqrt 3 + (-2) * ((U 2 0).im * (U 2 2).im) /
    Real.sqrt 3 + (U 0 0).re * (U 0 2).re / Real.sqrt 3 + (U 1 0).re * (U 1 2).re / Real.sqrt 3 + (-2) * ((U 2 0).re *
    (U 2 2).re) / Real.sqrt 3,
    (U 0 1).im * (U 0 2).im / Real.sqrt 3 + (U 1 1).im * (U 1 2).im / Real.sqrt 3 + (-2) * ((U 2 1).im * (U 2 2).im) /
    Real.sqrt 3 + (U 0 1).re * (U 0 2).re / Real.sqrt 3 + (U 1 1).re * (U 1 2).re / Real.sqrt 3 + (-2) * ((U 2 1).re *
    (U 2 2).re) / Real.sqrt 3,
    -((U 0 1).im * (U 0 0).re / Real.sqrt 3) + (U 0 0).im * (U 0 1).re / Real.sqrt 3 - ((U 1 1).im * (U 1 0).re /
    Real.sqrt 3) + (U 1 0).im * (U 1 1).re / Real.sqrt 3 + (2) * ((U 2 1).im * (U 2 0).re) / Real.sqrt 3 + (-2) * ((U 2
    0).im * (U 2 1).re) / Real.sqrt 3,
    -((U 0 2).im * (U 0 0).re / Real.sqrt 3) + (U 0 0).im * (U 0 2).re / Real.sqrt 3 - ((U 1 2).im * (U 1 0).re /
    Real.sqrt 3) + (U 1 0).im * (U 1 2).re / Real.sqrt 3 + (2) * ((U 2 2).im * (U 2 0).re) / Real.sqrt 3 + (-2) * ((U 2
    0).im * (U 2 2).re) / Real.sqrt 3,
    -((U 0 2).im * (U 0 1).re / Real.sqrt 3) + (U 0 1).im * (U 0 2).re / Real.sqrt 3 - ((U 1 2).im * (U 1 1).re /
    Real.sqrt 3) + (U 1 1).im * (U 1 2).re / Real.sqrt 3 + (2) * ((U 2 2).im * (U 2 1).re) / Real.sqrt 3 + (-2) * ((U 2
    1).im * (U 2 2).re) / Real.sqrt 3,
    0.5 * ((U 0 0).im * (U 0 0).im / Real.sqrt 3) + (-1 / 2) * ((U 0 1).im * (U 0 1).im) / Real.sqrt 3 + 0.5 * ((U 1
    0).im * (U 1 0).im / Real.sqrt 3) + (-1 / 2) * ((U 1 1).im * (U 1 1).im) / Real.sqrt 3 - ((U 2 0).im * (U 2 0).im /
    Real.sqrt 3) + (U 2 1).im * (U 2 1).im / Real.sqrt 3 + 0.5 * ((U 0 0).re * (U 0 0).re / Real.sqrt 3) + (-1 / 2) *
    ((U 0 1).re * (U 0 1).re) / Real.sqrt 3 + 0.5 * ((U 1 0).re * (U 1 0).re / Real.sqrt 3) + (-1 / 2) * ((U 1 1).re *
    (U 1 1).re) / Real.sqrt 3 - ((U 2 0).re * (U 2 0).re / Real.sqrt 3) + (U 2 1).re * (U 2 1).re / Real.sqrt 3,
    (1 / 6) * ((U 0 0).im * (U 0 0).im) + (1 / 6) * ((U 0 1).im * (U 0 1).im) + (-1 / 3) * ((U 0 2).im * (U 0 2).im) +
    (1 / 6) * ((U 1 0).im * (U 1 0).im) + (1 / 6) * ((U 1 1).im * (U 1 1).im) + (-1 / 3) * ((U 1 2).im * (U 1 2).im) +
    (-1 / 3) * ((U 2 0).im * (U 2 0).im) + (-1 / 3) * ((U 2 1).im * (U 2 1).im) + (2 / 3) * ((U 2 2).im * (U 2
    2).im) + (1 / 6) * ((U 0 0).re * (U 0 0).re) + (1 / 6) * ((U 0 1).re * (U 0 1).re) + (-1 / 3) * ((U 0 2).re * (U 0
    2).re) + (1 / 6) * ((U 1 0).re * (U 1 0).re) + (1 / 6) * ((U 1 1).re * (U 1 1).re) + (-1 / 3) * ((U 1 2).re * (U 1
    2).re) + (-1 / 3) * ((U 2 0).re * (U 2 0).re) + (-1 / 3) * ((U 2 1).re * (U 2 1).re) + (2 / 3) * ((U 2 2).re *
    (U 2 2).re)]

/-- `ConvertLattice::toAdjoint` for three colours. -/
def toAdjoint3 (U : Mat 3) : Matrix (Fin 8) (Fin 8) ℝ :=
  ![toAdjoint3Row0 U, toAdjoint3Row1 U, toAdjoint3Row2 U, toAdjoint3Row3 U, toAdjoint3Row4 U, toAdjoint3Row5 U,
    toAdjoint3Row6 U, toAdjoint3Row7 U]

end

end Leonard
