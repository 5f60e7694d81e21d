import Verif.Singlet.Model

/-!
# Correlators of points

Model of `fermion_measurements/XSpaceCorrelators.cpp` and `utils/Translate.h` on the global lattice with exact numbers: the inversions, the disconnected part and
the part called exact. The connected part from noise (lines 154-211) is in `Verif/Xspace/Noisy.lean`. The sums over threads and processes are sums over the sites.
-/

set_option autoImplicit false

namespace Leonard

open Matrix

noncomputable section

variable {S : Type} {N : ℕ}

/-- The solution for the source `b`, `XSpaceCorrelators.cpp:95-98, 325-328`: `Q` is the operator with γ₅, `solveSq` the inverter for its square. -/
def xspaceInverse (Q solveSq : SField S N → SField S N) (b : SField S N) : SField S N := solveSq (Q (latticeGamma5 b))

/-- `coordinates`, `XSpaceCorrelators.cpp:29-80`. -/
def xspacePoints : List (Fin 4 → ℕ) :=
  ![0, 0, 0, 0] :: (List.range' 1 3).flatMap fun d => [![d, 0, 0, 0], ![0, d, 0, 0], ![0, 0, 0, d], ![d, d, 0, 0], ![d, d, d, 0], ![d, d, d, d]]

/-- The site which is `c` steps from `x`; `Layout::getGlobalCoordinate` of `c` for `x` the origin, `LocalLayout.h:149-155`, and the site from which
`translate` takes its value, `Translate.h:6-54`. -/
def xspaceShift (T : Torus S) (c : Fin 4 → ℕ) (x : S) : S :=
  (T.sup 3)^[c 3] ((T.sup 2)^[c 2] ((T.sup 1)^[c 1] ((T.sup 0)^[c 0] x)))

/-- `sign`, `XSpaceCorrelators.cpp:372-374`. -/
def xspaceSign (α mu : Fin 4) : ℂ :=
  let s := if α.val < 2 then -1 else 1
  if mu.val < 2 then -s else s

/-- `result_connected[gamma_index]`, `XSpaceCorrelators.cpp:357-383`; `F α c` is `inverseFull[c*4 + alpha]`. -/
def xspaceConnected (F : Fin 4 → Fin N → SField S N) (v : Fin 16) (x : S) : ℂ :=
  ∑ ρ, ∑ c, ∑ α, ∑ mu, ∑ nu, ∑ d, xspaceSign α mu * tabChroma v ρ α * starRingEnd ℂ (F α c x mu d) * tabChroma v mu nu * F nu d x ρ c

/-- What is written under `meson_correlator_exact_v`, `XSpaceCorrelators.cpp:318-414`: for each point the numbers of the sixteen matrices. -/
def xspaceExact (T : Torus S) (κ : ℝ) (Q solveSq : SField S N → SField S N) (o : S) : List ((Fin 4 → ℕ) × List ℂ) :=
  let F := fun α c => xspaceInverse Q solveSq (pointSource T α c)
  xspacePoints.map fun c => (c, (List.finRange 16).map fun v => 4 * κ * κ * xspaceConnected F v (xspaceShift T c o))

/-- `traceInverse`, `XSpaceCorrelators.cpp:84-121`, for the noise `rs` of the `n` passes. -/
def xspaceTrace {n : ℕ} (Q solveSq : SField S N → SField S N) (rs : Fin n → Noise S N) : SField S N := fun x => Matrix.of fun mu c =>
  (∑ k, starRingEnd ℂ (randomNoise (rs k) x mu c) * xspaceInverse Q solveSq (randomNoise (rs k)) x mu c) / n

/-- `disconnectedx`, `XSpaceCorrelators.cpp:219-234`. -/
def xspaceLoop (t : SField S N) (v : Fin 16) (x : S) : ℂ := ∑ mu, ∑ c, gammaApply v t x mu c

/-- What is written under `meson_correlator_disconnected_v`, `XSpaceCorrelators.cpp:213-290`. -/
def xspaceDisconnected [Fintype S] {n : ℕ} (T : Torus S) (κ : ℝ) (Q solveSq : SField S N → SField S N) (rs : Fin n → Noise S N) : List ((Fin 4 → ℕ) × List ℂ) :=
  let t := xspaceTrace Q solveSq rs
  xspacePoints.map fun c => (c, (List.finRange 16).map fun v => 4 * κ * κ * ∑ x, xspaceLoop t v x * xspaceLoop (fun y => t (xspaceShift T c y)) v x)

end

end Leonard
