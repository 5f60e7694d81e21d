import Verif.Xspace.Mean

/-!
# C96: connected correlators of points from noise, model

Model of the part of `fermion_measurements/XSpaceCorrelators.cpp` which writes the connected correlators of the noise vectors, on the global lattice with exact
numbers. The sums over threads and processes are sums over the sites. The terms which the program skips because an element of a matrix is zero are kept: they are zero.
-/

set_option autoImplicit false

namespace Leonard

open Matrix

noncomputable section

variable {S : Type} {N : ℕ}

/-- `grh`, `XSpaceCorrelators.cpp:179`. -/
def xspaceAdjoint (v : Fin 16) : SpinMat := tabChroma 8 * (tabChroma v)ᴴ * tabChroma 8

/-- The number of one site, `XSpaceCorrelators.cpp:184-203`: `η`, `ψ` are the noise and the solution at the site, `η'`, `ψ'` the translated ones. -/
def xspaceNoisySite (v : Fin 16) (η ψ η' ψ' : Matrix (Fin 4) (Fin N) ℂ) : ℂ :=
  ∑ mu, ∑ nu, ∑ α, ∑ β, ∑ c1, ∑ c2, tabChroma v mu nu * starRingEnd ℂ (η' α c2) * ψ nu c1 * xspaceAdjoint v α β * starRingEnd ℂ (η mu c1) * ψ' β c2

/-- `result_connected[v][step]` for the noise `r` of the step, `XSpaceCorrelators.cpp:154-211`. -/
def xspaceNoisy [Fintype S] (T : Torus S) (Q solveSq : SField S N → SField S N) (r : Noise S N) (c : Fin 4 → ℕ) (v : Fin 16) : ℂ :=
  let η := randomNoise r
  let ψ := xspaceInverse Q solveSq η
  ∑ x, xspaceNoisySite v (η x) (ψ x) (η (xspaceShift T c x)) (ψ (xspaceShift T c x))

/-- What is written under `meson_correlator_v`, `XSpaceCorrelators.cpp:148-270`: for each point, for each of the sixteen matrices, one number for each noise vector. -/
def xspaceStochastic [Fintype S] {n : ℕ} (T : Torus S) (κ : ℝ) (Q solveSq : SField S N → SField S N) (rs : Fin n → Noise S N) :
    List ((Fin 4 → ℕ) × List (List ℂ)) :=
  xspacePoints.map fun c => (c, (List.finRange 16).map fun v => (List.finRange n).map fun k => 4 * κ * κ * xspaceNoisy T Q solveSq (rs k) c v)

end

end Leonard
