import Verif.Gauge.Model
import Mathlib.Analysis.SpecialFunctions.Pow.Real
import Mathlib.LinearAlgebra.Matrix.Notation

/-!
# Lie algebra generators and the adjoint representation

Sources: `/repo/source/utils/LieGenerators.h`, `/repo/source/utils/ConvertLattice.h`. Exact arithmetic. The table for
`toAdjoint` with three colours is in `Rep/AdjointThree.lean`.
-/

set_option autoImplicit false

namespace Leonard

open Matrix

noncomputable section

/-- The matrices built by the loops of `LieGenerators.h` 176-208, by loop and loop variables. -/
inductive GenLabel (N : ℕ) where
  | sym (i j : Fin N)
  | asym (i j : Fin N)
  | diag (i : Fin N)
deriving DecidableEq

/-- The pairs of the loops `for i, for j < i` (`LieGenerators.h` 177-178, 190-191), in order. -/
def lowerPairs (N : ℕ) : List (Fin N × Fin N) :=
  (List.finRange N).flatMap fun i => ((List.finRange N).filter fun j => j < i).map fun j => (i, j)

/-- The order of the loops: the counter `index` of `LieGenerators.h` 175-210 runs through this list. -/
def genLabels (N : ℕ) : List (GenLabel N) :=
  (lowerPairs N).map (fun p => .sym p.1 p.2) ++ (lowerPairs N).map (fun p => .asym p.1 p.2)
    ++ ((List.finRange N).filter fun i => 1 ≤ i.val).map .diag

/-- `sqrt(2./((i+1)*i))`. -/
def diagScale (i : ℕ) : ℝ := Real.sqrt (2 / ((i + 1) * i : ℕ))

/-- The assignments to `gen[index].at(m,n)`: `LieGenerators.h` 181-183, 194-196, 205-207. -/
def rawGenerator {N : ℕ} : GenLabel N → Mat N
  | .sym i j => fun m n => (if i = m ∧ j = n then 1 else 0) + (if i = n ∧ j = m then 1 else 0)
  | .asym i j => fun m n => (if i = m ∧ j = n then Complex.I else 0) - (if i = n ∧ j = m then Complex.I else 0)
  | .diag i => fun m n => (if m = n ∧ m ≤ i then (diagScale i : ℂ) else 0)
      - (if m = n ∧ m = i then (i.val + 1 : ℂ) * (diagScale i : ℂ) else 0)

/-- `LieGenerator<GaugeGroup>` for general `NUMCOLORS`, `LieGenerators.h` 172-222, with the division by two of 211. -/
def lieGenerators (N : ℕ) : List (Mat N) := (genLabels N).map fun l => (1 / 2 : ℂ) • rawGenerator l

/-- `LieGenerator<GaugeGroup>` for two colours, `LieGenerators.h` 16-24. -/
def lieGenerators2 : List (Mat 2) :=
  [!![0, 1; 1, 0], !![0, -Complex.I; Complex.I, 0], !![1, 0; 0, -1]].map fun g => (1 / 2 : ℂ) • g

/-- `LieGenerator<GaugeGroup>` for three colours, `LieGenerators.h` 121-133. -/
def lieGenerators3 : List (Mat 3) :=
  [!![0, 1, 0; 1, 0, 0; 0, 0, 0], !![0, 0, 1; 0, 0, 0; 1, 0, 0], !![0, 0, 0; 0, 0, 1; 0, 1, 0],
   !![0, -Complex.I, 0; Complex.I, 0, 0; 0, 0, 0], !![0, 0, -Complex.I; 0, 0, 0; Complex.I, 0, 0],
   !![0, 0, 0; 0, 0, -Complex.I; 0, Complex.I, 0], !![1, 0, 0; 0, -1, 0; 0, 0, 0],
   !![((1 / Real.sqrt 3 : ℝ) : ℂ), 0, 0; 0, ((1 / Real.sqrt 3 : ℝ) : ℂ), 0; 0, 0, ((-2 / Real.sqrt 3 : ℝ) : ℂ)]].map
    fun g => (1 / 2 : ℂ) • g

/-- `LieGenerator<AdjointGroup>` for general `NUMCOLORS`, `LieGenerators.h` 224-237, entry `(m, n)` of generator `i`. -/
def adjointGenerator {N : ℕ} {ι : Type} [DecidableEq ι] (T : ι → Mat N) (i : ι) : Matrix ι ι ℂ := fun m n =>
  if m ≠ n then -2 * trace ((T m * T n - T n * T m) * T i) else 0

/-- `LieGenerator<AdjointGroup>` for two colours, `LieGenerators.h` 73-76. -/
def adjointGenerators2 : Fin 3 → Matrix (Fin 3) (Fin 3) ℂ :=
  ![!![0, 0, 0; 0, 0, -Complex.I; 0, Complex.I, 0], !![0, 0, Complex.I; 0, 0, 0; -Complex.I, 0, 0],
    !![0, -Complex.I, 0; Complex.I, 0, 0; 0, 0, 0]]

/-- `ConvertLattice::toAdjoint` for general `NUMCOLORS`, `ConvertLattice.h` 99-104. -/
def toAdjoint {N : ℕ} {ι : Type} (T : ι → Mat N) (U : Mat N) : Matrix ι ι ℝ := fun i j =>
  2 * (trace (T i * U * T j * Uᴴ)).re

/-- `ConvertLattice::toAdjoint` for two colours, `ConvertLattice.h` 26-34. -/
def toAdjoint2 (U : Mat 2) : Matrix (Fin 3) (Fin 3) ℝ :=
  !![(U 0 1).im * (U 1 0).im + (U 0 0).im * (U 1 1).im + (U 0 1).re * (U 1 0).re + (U 0 0).re * (U 1 1).re,
     -((U 1 1).im * (U 0 0).re) + (U 1 0).im * (U 0 1).re - (U 0 1).im * (U 1 0).re + (U 0 0).im * (U 1 1).re,
     (U 0 0).im * (U 1 0).im - (U 0 1).im * (U 1 1).im + (U 0 0).re * (U 1 0).re - (U 0 1).re * (U 1 1).re;
     (U 1 1).im * (U 0 0).re + (U 1 0).im * (U 0 1).re - (U 0 1).im * (U 1 0).re - (U 0 0).im * (U 1 1).re,
     -((U 0 1).im * (U 1 0).im) + (U 0 0).im * (U 1 1).im - (U 0 1).re * (U 1 0).re + (U 0 0).re * (U 1 1).re,
     (U 1 0).im * (U 0 0).re - (U 1 1).im * (U 0 1).re - (U 0 0).im * (U 1 0).re + (U 0 1).im * (U 1 1).re;
     (U 0 0).im * (U 0 1).im - (U 1 0).im * (U 1 1).im + (U 0 0).re * (U 0 1).re - (U 1 0).re * (U 1 1).re,
     -((U 0 1).im * (U 0 0).re) + (U 0 0).im * (U 0 1).re + (U 1 1).im * (U 1 0).re - (U 1 0).im * (U 1 1).re,
     0.5 * ((U 0 0).im * (U 0 0).im - (U 0 1).im * (U 0 1).im - (U 1 0).im * (U 1 0).im + (U 1 1).im * (U 1 1).im
       + (U 0 0).re * (U 0 0).re - (U 0 1).re * (U 0 1).re - (U 1 0).re * (U 1 0).re + (U 1 1).re * (U 1 1).re)]

end

end Leonard
