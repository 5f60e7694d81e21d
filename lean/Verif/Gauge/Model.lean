import Verif.Gauge.Torus
import Mathlib.LinearAlgebra.UnitaryGroup
import Mathlib.LinearAlgebra.Matrix.Trace
import Mathlib.Data.Complex.Basic
import Mathlib.Data.Complex.BigOperators
import Mathlib.Algebra.BigOperators.Fin

/-!
# Gauge fields: actions, forces, loops

Real and complex arithmetic is exact; rounding is not modelled. Sums over the sites of all processes (`reduceAllSum`)
are sums over the lattice (C08 justifies this). `htrans` is the conjugate transpose.
-/

set_option autoImplicit false

namespace Leonard

open Matrix

/-- `GaugeGroup` of `MatrixTypedef.h`: an `N × N` complex matrix. -/
abbrev Mat (N : ℕ) := Matrix (Fin N) (Fin N) ℂ

/-- `extended_gauge_lattice_t`: four matrices on each site. -/
abbrev GField (S : Type) (N : ℕ) := S → Fin 4 → Mat N

section
variable {S : Type} {N : ℕ}

/-- `RandomGaugeTransformation.cpp` 65-72: the gauge transform of a configuration by the matrices `ω`. The update is in
place, but each link is read only to write itself. -/
def gaugeTransform (T : Torus S) (ω : S → Mat N) (U : GField S N) : GField S N :=
  fun s μ => ω s * U s μ * (ω (T.sup μ s))ᴴ

/-- The first product of `staple` in `WilsonGaugeAction.cpp` 15. -/
def stapleUp (T : Torus S) (U : GField S N) (s : S) (μ ν : Fin 4) : Mat N :=
  U (T.sup μ s) ν * (U (T.sup ν s) μ)ᴴ * (U s ν)ᴴ

/-- The second product of `staple` in `WilsonGaugeAction.cpp` 16. -/
def stapleDown (T : Torus S) (U : GField S N) (s : S) (μ ν : Fin 4) : Mat N :=
  (U (T.sup μ (T.sdn ν s)) ν)ᴴ * (U (T.sdn ν s) μ)ᴴ * U (T.sdn ν s) ν

/-- `WilsonGaugeAction::staple`, `WilsonGaugeAction.cpp` 9-20. -/
def wilsonStaple (T : Torus S) (U : GField S N) (s : S) (μ : Fin 4) : Mat N :=
  ∑ ν, if ν ≠ μ then stapleUp T U s μ ν + stapleDown T U s μ ν else 0

/-- The six rectangle products of `ImprovedGaugeAction.cpp` 18-23, in the order of the source. -/
def rectStaple (T : Torus S) (U : GField S N) (s : S) (μ ν : Fin 4) : Mat N :=
  U (T.sup μ s) μ * U (T.sup μ (T.sup μ s)) ν * (U (T.sup ν (T.sup μ s)) μ)ᴴ * (U (T.sup ν s) μ)ᴴ * (U s ν)ᴴ
  + U (T.sup μ s) ν * (U (T.sup ν s) μ)ᴴ * (U (T.sup ν (T.sdn μ s)) μ)ᴴ * (U (T.sdn μ s) ν)ᴴ * U (T.sdn μ s) μ
  + U (T.sup μ s) μ * (U (T.sdn ν (T.sup μ (T.sup μ s))) ν)ᴴ * (U (T.sup μ (T.sdn ν s)) μ)ᴴ * (U (T.sdn ν s) μ)ᴴ
      * U (T.sdn ν s) ν
  + (U (T.sup μ (T.sdn ν s)) ν)ᴴ * (U (T.sdn ν s) μ)ᴴ * (U (T.sdn ν (T.sdn μ s)) μ)ᴴ * U (T.sdn ν (T.sdn μ s)) ν
      * U (T.sdn μ s) μ
  + U (T.sup μ s) ν * U (T.sup ν (T.sup μ s)) ν * (U (T.sup ν (T.sup ν s)) μ)ᴴ * (U (T.sup ν s) ν)ᴴ * (U s ν)ᴴ
  + (U (T.sup μ (T.sdn ν s)) ν)ᴴ * (U (T.sup μ (T.sdn ν (T.sdn ν s))) ν)ᴴ * (U (T.sdn ν (T.sdn ν s)) μ)ᴴ
      * U (T.sdn ν (T.sdn ν s)) ν * U (T.sdn ν s) ν

/-- `ImprovedGaugeAction::staple`, `ImprovedGaugeAction.cpp` 9-28. -/
noncomputable def improvedStaple (u0 : ℝ) (T : Torus S) (U : GField S N) (s : S) (μ : Fin 4) : Mat N :=
  ∑ ν, if ν ≠ μ then
    ((5 / 3 : ℝ) : ℂ) • (stapleUp T U s μ ν + stapleDown T U s μ ν)
      - ((1 / (12 * u0 * u0) : ℝ) : ℂ) • rectStaple T U s μ ν
  else 0

/-- `WilsonGaugeAction.cpp` 33-49. -/
noncomputable def wilsonEnergy [Fintype S] (β : ℝ) (T : Torus S) (U : GField S N) : ℝ :=
  ∑ s, ∑ μ, -(β / N) * (trace (U s μ * ∑ ν, if μ < ν then stapleUp T U s μ ν else 0)).re

/-- `ImprovedGaugeAction.cpp` 42-62. -/
noncomputable def improvedEnergy [Fintype S] (u0 β : ℝ) (T : Torus S) (U : GField S N) : ℝ :=
  ∑ s, ∑ μ, -(β / N) * (trace (U s μ * ∑ ν, if μ < ν then
    ((5 / 3 : ℝ) : ℂ) • stapleUp T U s μ ν
      - ((1 / (12 * u0 * u0) : ℝ) : ℂ) •
        (U (T.sup μ s) μ * U (T.sup μ (T.sup μ s)) ν * (U (T.sup ν (T.sup μ s)) μ)ᴴ * (U (T.sup ν s) μ)ᴴ * (U s ν)ᴴ)
      - ((1 / (12 * u0 * u0) : ℝ) : ℂ) •
        (U (T.sup μ s) ν * U (T.sup ν (T.sup μ s)) ν * (U (T.sup ν (T.sup ν s)) μ)ᴴ * (U (T.sup ν s) ν)ᴴ * (U s ν)ᴴ)
    else 0)).re

/-- `deltaAction`, `WilsonGaugeAction.cpp` 51-55 and `ImprovedGaugeAction.cpp` 64-68 (the same text). -/
noncomputable def deltaAction (β : ℝ) (U : GField S N) (trial staple : Mat N) (s : S) (μ : Fin 4) : ℝ :=
  -β * ((trace (trial * staple)).re - (trace (U s μ * staple)).re) / N

/-- `force`, `WilsonGaugeAction.cpp` 22-31 and `ImprovedGaugeAction.cpp` 30-40 (the same text). -/
noncomputable def gaugeForce (β : ℝ) (U : GField S N) (staple : Mat N) (s : S) (μ : Fin 4) : Mat N :=
  let plaquette := U s μ * staple
  let force := (-((0.25 * β / N : ℝ) : ℂ)) • (plaquetteᴴ - plaquette)
  force - (⟨(trace force).re / N, (trace force).im / N⟩ : ℂ) • (1 : Mat N)

/-- The three sums of `Plaquette.cpp` 11-33 divided as in 40-43: total, spatial, temporal. -/
noncomputable def plaquetteSums [Fintype S] (T : Torus S) (U : GField S N) : ℝ × ℝ × ℝ :=
  let tmp := fun s μ ν => (trace (U s μ * U (T.sup μ s) ν * (U (T.sup ν s) μ)ᴴ * (U s ν)ᴴ)).re
  let V : ℝ := Fintype.card S
  ((∑ s, ∑ μ, ∑ ν, if μ < ν then tmp s μ ν else 0) / (6 * N * V),
   (∑ s, ∑ μ, ∑ ν, if μ < ν then (if μ = 3 ∨ ν = 3 then 0 else tmp s μ ν) else 0) / (3 * N * V),
   (∑ s, ∑ μ, ∑ ν, if μ < ν then (if μ = 3 ∨ ν = 3 then tmp s μ ν else 0) else 0) / (3 * N * V))

/-! ### Wilson loops -/

/-- The state of the loops `WilsonLoop.cpp` 77-99 after `n` passes: the line of `n + 1` links and the shifted links. -/
def wilsonLine (T : Torus S) (U : GField S N) (μ : Fin 4) : ℕ → (S → Mat N) × (S → Mat N)
  | 0 => (fun s => U s μ, fun s => U s μ)
  | n + 1 =>
    let p := wilsonLine T U μ n
    (fun s => p.1 s * p.2 (T.sup μ s), fun s => p.2 (T.sup μ s))

/-- `WilsonLoop.cpp` 101-119: the `n` times shifted copy of a field. -/
def shiftField {A : Type} (T : Torus S) (μ : Fin 4) (f : S → A) : ℕ → S → A
  | 0 => f
  | n + 1 => fun s => shiftField T μ f n (T.sup μ s)

/-- `WilsonLoop.cpp` 121-132: the loop written with label `(R + 1, T + 1)`; `td` is the time direction, `xd` the
direction 0. -/
noncomputable def wilsonLoopOf [Fintype S] (T : Torus S) (U : GField S N) (xd td : Fin 4) (r t : ℕ) : ℝ :=
  (∑ s, (trace ((wilsonLine T U xd r).1 s * shiftField T xd (wilsonLine T U td t).1 (r + 1) s
      * (shiftField T td (wilsonLine T U xd r).1 (t + 1) s)ᴴ * ((wilsonLine T U td t).1 s)ᴴ)).re)
    / (N * Fintype.card S)

/-! ### Polyakov loops -/

/-- `PolyakovLoop.cpp` 33-53: `(tmp, polyakov)` after `t` passes; `polyakov` is multiplied only on the slice with
coordinate 0. -/
def polyakovState (T : Torus S) (U : GField S N) (ν : Fin 4) : ℕ → GField S N × (S → Mat N)
  | 0 => (U, fun _ => 1)
  | n + 1 =>
    let p := polyakovState T U ν n
    (fun s μ => p.1 (T.sup ν s) μ, fun s => if T.coord s ν = 0 then p.2 s * p.1 s ν else p.2 s)

/-- `PolyakovLoop.cpp` 55-74: sum of the traces on the slice, before division. -/
noncomputable def polyakovSum [Fintype S] (T : Torus S) (U : GField S N) (ν : Fin 4) : ℂ :=
  ∑ s, if T.coord s ν = 0 then trace ((polyakovState T U ν (T.ext ν)).2 s) else 0

/-- What is written for direction `ν`: division by `numberColors*glob_spatial_volume`, whatever `ν`
(`PolyakovLoop.cpp` 66, 74). -/
noncomputable def polyakovLoop [Fintype S] (T : Torus S) (U : GField S N) (ν : Fin 4) : ℂ :=
  polyakovSum T U ν / ((N * (T.ext 0 * T.ext 1 * T.ext 2) : ℕ) : ℂ)

/-- The kinetic energy of the momenta, `HMCUpdater.cpp` 130-140. -/
noncomputable def momentaEnergy [Fintype S] (P : GField S N) : ℝ := ∑ s, ∑ μ, -(trace (P s μ * P s μ)).re

end

end Leonard
