import Verif.Overlap.Sign
import Verif.Meson.Model

/-!
# Chiral rotations with the overlap operator

Model of `/repo/source/fermion_measurements/OverlapChiralRotation.cpp`: the two rotations and the condensates of one source.  The links
are those that the operator was given (smearing and the shift of the origin are C69 and C60); the sums over sites run over one process.
`Propagator::constructPropagator` is the one of C60.
-/

set_option autoImplicit false

namespace Leonard

open Matrix

noncomputable section

variable {S : Type} {M : ℕ}

/-- One step of `chiral_rotation_psi`, `OverlapChiralRotation.cpp:26-38`, with `t = theta/steps`. -/
def psiStep (D : SField S M → SField S M) (t : ℂ) (output : SField S M) : SField S M := fun x => Matrix.of fun mu i =>
  if mu.val < 2 then output x mu i + (t * output x mu i - t * D output x mu i)
  else output x mu i + (-t * output x mu i + t * D output x mu i)

/-- `OverlapChiralRotation::chiral_rotation_psi`, `OverlapChiralRotation.cpp:21-40`. -/
def psiRotation (D : SField S M → SField S M) (steps : ℕ) (theta : ℂ) (input : SField S M) : SField S M :=
  (psiStep D (theta / steps))^[steps] input

/-- One step of `chiral_rotation_psibar`, `OverlapChiralRotation.cpp:46-57`. -/
def psibarStep (D : SField S M → SField S M) (t : ℂ) (output : SField S M) : SField S M := fun x => Matrix.of fun mu i =>
  output x mu i + (t * gamma5Field output x mu i - t * D (gamma5Field output) x mu i)

/-- `OverlapChiralRotation::chiral_rotation_psibar`, `OverlapChiralRotation.cpp:42-59`. -/
def psibarRotation (D : SField S M → SField S M) (steps : ℕ) (theta : ℂ) (input : SField S M) : SField S M :=
  (psibarStep D (theta / steps))^[steps] input

/-- The two condensates of one source, `OverlapChiralRotation.cpp:119-140`; `D` is the operator with its mass, `D0` the same with mass
zero, `inverse` what the inverter returned. -/
def rotatedCondensates [Fintype S] (D D0 : SField S M → SField S M) (steps : ℕ) (noise inverse : SField S M) : ℂ × ℂ :=
  (latticeDot noise (constructPropagator (some D0) inverse),
    latticeDot noise (psibarRotation D steps ⟨0, Real.pi / 2⟩
      (constructPropagator (some D0) (psiRotation D steps ⟨0, Real.pi / 2⟩ inverse))))

/-- The operator with gamma5 switched off (`OverlapChiralRotation.cpp:108`), `Overlap` or `ExactOverlap`. -/
def overlapVariant [Fintype S] (exact : Bool) (T : Torus S) (κ mass : ℝ) (scaling : ℂ) (roots : List ℂ) (old : SField S M)
    (eigs : List (ℝ × SField S M)) (L : GField S M) (v : SField S M) : Outcome (SField S M) :=
  if exact then exactOverlapMul T κ mass scaling roots old eigs false L v else overlapMul T κ mass scaling roots old false L v

end

end Leonard
