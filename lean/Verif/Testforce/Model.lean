/-
The numerical test of the forces.

Modelled source: `/repo/source/hmc_forces/TestForce.cpp`: `testForce` (9-125, two colours) and `genericTestForce` (127-178), called in
builds with `DEBUGFORCE` by the hybrid Monte Carlo updaters.

Simplifications: exact real numbers; the printed numbers as functions of `epsilon` (the program uses 0.01, 0.001 and so on while
`epsilon > 0.00001`); the single-process view of the lattice, in which the output process owns the site (with several processes only
the link of the output process is changed).  The energy is any function of the links; the pseudofermions and the parameters are copied
with the environment and fixed.
-/
import Verif.Gauge.Path
import Mathlib.LinearAlgebra.Matrix.Notation
import Mathlib.Analysis.SpecialFunctions.Trigonometric.Basic
import Mathlib.Analysis.SpecialFunctions.Sqrt

set_option autoImplicit false

namespace Leonard

open Matrix

variable {S : Type} {N : ℕ}

/-- `component0plus - component0minus` for the two matrices `expm`, `TestForce.cpp:32-47` and `:146-167`: the link is multiplied from the left, the
energy is computed, the link is restored. -/
def energyChange [DecidableEq S] (energy : GField S N → ℝ) (U : GField S N) (site : S) (mu : Fin 4) (plus minus : Mat N) : ℝ :=
  energy (setLink U site mu (plus * U site mu)) - energy (setLink U site mu (minus * U site mu))

/-- `expm` of `genericTestForce`, `TestForce.cpp:140-143` for `σ = 1` and `:153-156` for `σ = -1`; `numberColors` is `N + 1`. -/
noncomputable def genericExpm (N : ℕ) (σ ε : ℝ) : Mat (N + 1) :=
  Matrix.diagonal fun i =>
    if i.val < N then ⟨Real.cos (√(2 / ((N + 1 : ℝ) * N)) * ε), σ * Real.sin (√(2 / ((N + 1 : ℝ) * N)) * ε)⟩
    else ⟨Real.cos (√(2 * N / (N + 1 : ℝ)) * ε), -σ * Real.sin (√(2 * N / (N + 1 : ℝ)) * ε)⟩

/-- The first number printed by `genericTestForce`, `TestForce.cpp:173`. -/
noncomputable def genericTestForce [DecidableEq S] (energy : GField S (N + 1) → ℝ) (U : GField S (N + 1)) (site : S) (mu : Fin 4) (ε : ℝ) : ℝ :=
  -√(2 * N / (N + 1 : ℝ)) * energyChange energy U site mu (genericExpm N 1 ε) (genericExpm N (-1) ε) / (8 * ε)

/-- `expm` of the three components of `testForce`, `TestForce.cpp:26-29`, `:55-58` and `:85-88` for `σ = 1`, `:37-40`, `:66-69` and `:96-99` for `σ = -1`. -/
noncomputable def su2Expm (a : Fin 3) (σ ε : ℝ) : Mat 2 :=
  ![!![(⟨Real.cos ε, 0⟩ : ℂ), ⟨0, σ * Real.sin ε⟩; ⟨0, σ * Real.sin ε⟩, ⟨Real.cos ε, 0⟩],
    !![(⟨Real.cos ε, 0⟩ : ℂ), ⟨σ * Real.sin ε, 0⟩; ⟨-σ * Real.sin ε, 0⟩, ⟨Real.cos ε, 0⟩],
    !![(⟨Real.cos ε, σ * Real.sin ε⟩ : ℂ), 0; 0, ⟨Real.cos ε, -σ * Real.sin ε⟩]] a

/-- `raw_force` of `testForce`, `TestForce.cpp:17-22`, `:45-48`, `:74-77` and `:104-107`. -/
noncomputable def su2TestForce [DecidableEq S] (energy : GField S 2 → ℝ) (U : GField S 2) (site : S) (mu : Fin 4) (ε : ℝ) : Mat 2 :=
  let d := fun a => energyChange energy U site mu (su2Expm a 1 ε) (su2Expm a (-1) ε) / (8 * ε)
  !![(⟨0, d 2⟩ : ℂ), ⟨d 1, d 0⟩; ⟨-d 1, d 0⟩, ⟨0, -d 2⟩]

end Leonard
