import Verif.Hmc.Model
import Mathlib.Analysis.Calculus.Deriv.Basic

/-!
# What is expected of the order of an integrator
-/

set_option autoImplicit false

namespace Leonard

/-- The order that the name of an integrator promises. -/
def integratorOrder : String → Option ℕ
  | "second_order" => some 2
  | "omelyan" => some 2
  | "fourth_order" => some 4
  | "fourth_omelyan" => some 4
  | "sixth_order" => some 6
  | _ => none

variable {S : Type} [Fintype S] {N : ℕ}

/-- The energy of the Metropolis test: momenta and links. -/
noncomputable def totalEnergy (energy : GField S N → ℝ) (x : GField S N × GField S N) : ℝ := momentaEnergy x.2 + energy x.1

/-- The pair `U`, `P` solves the equations of motion for the force `F` near time zero. -/
def SolvesMotion (F : GField S N → GField S N) (U P : ℝ → GField S N) : Prop :=
  ∀ᶠ t in nhds (0 : ℝ), ∀ s μ, (P t s μ).conjTranspose = -P t s μ ∧ (P t s μ).trace = 0 ∧ ∀ i j,
    HasDerivAt (fun t => U t s μ i j) ((P t s μ * U t s μ) i j) t ∧ HasDerivAt (fun t => P t s μ i j) (-F (U t) s μ i j) t

end Leonard
