/-
The textbook Dirac operators, for comparison with the kernels.

Nothing here follows the program: the operators are written with the gamma matrices of
`Verif/Dirac/Gamma.lean` (whose algebra is C32) and with products of links along paths.
-/
import Verif.Dirac.Model
import Verif.Gauge.Path

set_option autoImplicit false

namespace Leonard

open Matrix

variable {S : Type} {N : ℕ}

/-- The hopping term `Σ_μ (1-γ_μ) U_μ(x) ψ(x+μ) + (1+γ_μ) U_μ(x-μ)† ψ(x-μ)`.  A spinor is a matrix
with the spin index as row and the colour index as column, so a colour matrix `U` acts as `v * Uᵀ`. -/
noncomputable def hoppingSpec (T : Torus S) (U : GField S N) (v : SField S N) : SField S N := fun x =>
  ∑ μ, ((1 - tabGamma μ) * (v (T.sup μ x) * (U x μ)ᵀ)
    + (1 + tabGamma μ) * (v (T.sdn μ x) * ((U (T.sdn μ x) μ)ᴴ)ᵀ))

/-- The Wilson operator `ψ - κ H ψ`. -/
noncomputable def wilsonSpec (T : Torus S) (U : GField S N) (κ : ℝ) (v : SField S N) : SField S N := fun x =>
  v x - (κ : ℂ) • hoppingSpec T U v x

/-- `γ₅ ψ`. -/
noncomputable def gamma5Field (v : SField S N) : SField S N := fun x => tabGamma5 * v x

/-- An operator with gamma5 in front of it when the flag is set. -/
noncomputable def withGamma5 (g5 : Bool) (v : SField S N) : SField S N := if g5 then gamma5Field v else v

/-- The clover `Q_{μν}(x)`: the sum of the four plaquettes in the plane that start and end at `x`
and run around it in the same sense. -/
noncomputable def cloverQ (T : Torus S) (U : GField S N) (μ ν : Fin 4) (x : S) : Mat N :=
  holo T U x [(μ, true), (ν, true), (μ, false), (ν, false)]
  + holo T U x [(ν, true), (μ, false), (ν, false), (μ, true)]
  + holo T U x [(μ, false), (ν, false), (μ, true), (ν, true)]
  + holo T U x [(ν, false), (μ, true), (ν, true), (μ, false)]

/-- The lattice field strength `F_{μν} = (Q_{μν} - Q_{μν}†)/8`. -/
noncomputable def cloverF (T : Torus S) (U : GField S N) (μ ν : Fin 4) (x : S) : Mat N :=
  (1 / 8 : ℂ) • (cloverQ T U μ ν x - (cloverQ T U μ ν x)ᴴ)

/-- The clover improved Wilson operator `ψ - κ H ψ + κ c_sw Σ_{μ<ν} i σ_{μν} F_{μν} ψ`. -/
noncomputable def improvedSpec (T : Torus S) (U : GField S N) (κ csw : ℝ) (v : SField S N) : SField S N := fun x =>
  wilsonSpec T U κ v x + ((κ * csw : ℝ) : ℂ) • ∑ μ, ∑ ν,
    if μ < ν then Complex.I • (tabSigma μ ν * (v x * (cloverF T U μ ν x)ᵀ)) else 0

/-- The links kept by the restriction to blocks: those between two sites of the blocks. -/
def blockLinks (T : Torus S) (idx : S → Bool) (U : GField S N) : GField S N := fun x μ =>
  if idx x && idx (T.sup μ x) then U x μ else 0

/-- The site-diagonal part of the clover operator. -/
noncomputable def diagSite (T : Torus S) (U : GField S N) (κ csw : ℝ) (x : S) (w : Matrix (Fin 4) (Fin N) ℂ) :
    Matrix (Fin 4) (Fin N) ℂ :=
  w + ((κ * csw : ℝ) : ℂ) • ∑ μ, ∑ ν, if μ < ν then Complex.I • (tabSigma μ ν * (w * (cloverF T U μ ν x)ᵀ)) else 0

/-- All extents are even. -/
def EvenExtents (T : Torus S) : Prop := ∀ μ, T.ext μ % 2 = 0

end Leonard
