import Verif.Meson.Model
import Mathlib.Analysis.SpecialFunctions.Trigonometric.Basic

/-!
# Vertex functions for the renormalisation of quark bilinears

Model of `fermion_measurements/NPRVertex.cpp` and of `StochasticEstimator::generateMomentumSource` on the global lattice, with exact numbers. The sums over
threads and processes are sums over the sites. `N` is `diracVectorLength`; the rows and columns of the matrices are numbered `c*4 + alpha`.
-/

set_option autoImplicit false

namespace Leonard

open Matrix

noncomputable section

variable {S : Type} {N : ℕ}

/-- The spin `alpha` of the index `c*4 + alpha`, `NPRVertex.cpp:87-91`. -/
def spinOf (i : Fin (N * 4)) : Fin 4 := ⟨i.val % 4, Nat.mod_lt _ (by decide)⟩

/-- The colour `c` of the index `c*4 + alpha`, `NPRVertex.cpp:87-91`. -/
def colourOf (i : Fin (N * 4)) : Fin N := ⟨i.val / 4, Nat.div_lt_of_lt_mul (by have := i.isLt; omega)⟩

/-- `momentum[mu]*2.*PI/Layout::glob_mu`, `NPRVertex.cpp:82-85`. -/
def nprMomentum (T : Torus S) (m : Fin 4 → ℝ) (μ : Fin 4) : ℝ := m μ * 2 * Real.pi / T.ext μ

/-- `phase`, `StochasticEstimator.cpp:119`. -/
def sourcePhase (T : Torus S) (p : Fin 4 → ℝ) (x : S) : ℝ :=
  T.coord x 0 * p 0 + T.coord x 1 * p 1 + T.coord x 2 * p 2 + T.coord x 3 * p 3

/-- `StochasticEstimator::generateMomentumSource`, `StochasticEstimator.cpp:114-124`. -/
def momentumSource (T : Torus S) (p : Fin 4 → ℝ) (α : Fin 4) (c : Fin N) : SField S N := fun x => Matrix.of fun mu n =>
  if mu = α ∧ n = c then ⟨Real.cos (sourcePhase T p x), Real.sin (sourcePhase T p x)⟩ else 0

/-- `source[i]`, `NPRVertex.cpp:87-89`, for the parameter `NPRVertex::momentum`. -/
def nprSource (T : Torus S) (m : Fin 4 → ℝ) (i : Fin (N * 4)) : SField S N :=
  momentumSource T (nprMomentum T m) (spinOf i) (colourOf i)

/-- `propagator`, `NPRVertex.cpp:105-113`. `solve b` is what the inverter returns for the source `b`. -/
def nprPropagator [Fintype S] (T : Torus S) (κ : ℝ) (solve : SField S N → SField S N) (m : Fin 4 → ℝ) : Matrix (Fin (N * 4)) (Fin (N * 4)) ℂ :=
  Matrix.of fun i j => 2 * κ * latticeDot (nprSource T m i) (solve (nprSource T m j)) / Fintype.card S

/-- The matrix `S` of one site, `NPRVertex.cpp:144-156`. -/
def nprLocal (T : Torus S) (solve : SField S N → SField S N) (m : Fin 4 → ℝ) (x : S) : Matrix (Fin (N * 4)) (Fin (N * 4)) ℂ :=
  Matrix.of fun i j => ∑ mu, ∑ n, starRingEnd ℂ (nprSource T m i x mu n) * solve (nprSource T m j) x mu n

/-- `result`, `NPRVertex.cpp:159`; `gamma5()` is `gammaChroma[15]`, `Gamma.h:44-46`. -/
def nprResult (T : Torus S) (solve : SField S N → SField S N) (m : Fin 4 → ℝ) (v : Fin 16) (x : S) : Matrix (Fin (N * 4)) (Fin (N * 4)) ℂ :=
  colourBlocks N (tabChroma 15) * (nprLocal T solve m x)ᴴ * colourBlocks N (tabChroma 15) * colourBlocks N (tabChroma v) * nprLocal T solve m x

/-- `vertex[v]`, `NPRVertex.cpp:115-204`. -/
def nprVertex [Fintype S] (T : Torus S) (κ : ℝ) (solve : SField S N → SField S N) (m : Fin 4 → ℝ) (v : Fin 16) : Matrix (Fin (N * 4)) (Fin (N * 4)) ℂ :=
  Matrix.of fun i j => 2 * κ * (2 * κ) * (∑ x, nprResult T solve m v x i j) / Fintype.card S

end

end Leonard
