import Verif.Force.Model

/-!
# The force of clover improved fermions

Source: `/repo/source/hmc_forces/ImprovedFermionForce.cpp`, with the conventions of `Verif/Force/Model.lean`: exact complex numbers, loops over
sites written pointwise, entries of the tables that are zero are added rather than skipped.  `setLattice` is called at the start of every
`updateForce` (`NFlavorFermionAction.cpp` 79, `TwoFlavorFermionAction.cpp` 23) with the links that are handed to `derivative`, so the stored
products of links are written as functions of these links.
-/

set_option autoImplicit false

namespace Leonard

open Matrix

noncomputable section
variable {S : Type} {M : ℕ}

/-- One of the eight terms of the force for a link and a second direction: its sign, the site whose spinors enter, and the matrices stored in
`latticeForcesRight` and `latticeForcesLeft`. -/
structure CloverTerm (S : Type) (M : ℕ) where
  sign : ℂ
  site : S
  right : Mat M
  left : Mat M

/-- The signs and sites of `ImprovedFermionForce.cpp` 39-219 with the matrices of `ImprovedFermionForce::setLattice`, 225-268.  The first term
has no matrix on the right and the fifth none on the left. -/
def cloverTerms (T : Torus S) (L : GField S M) (s : S) (μ ν : Fin 4) : List (CloverTerm S M) :=
  [⟨1, s, 1, L (T.sup μ s) ν * (L (T.sup ν s) μ)ᴴ * (L s ν)ᴴ⟩,
   ⟨-1, s, L s μ * (L (T.sdn ν (T.sup μ s)) ν)ᴴ * (L (T.sdn ν s) μ)ᴴ * L (T.sdn ν s) ν, (L s μ)ᴴ⟩,
   ⟨1, T.sup ν s, L s ν, L (T.sup μ s) ν * (L (T.sup ν s) μ)ᴴ⟩,
   ⟨-1, T.sdn ν s, L s μ * (L (T.sdn ν (T.sup μ s)) ν)ᴴ * (L (T.sdn ν s) μ)ᴴ, (L s μ)ᴴ * (L (T.sdn ν s) ν)ᴴ⟩,
   ⟨1, T.sup μ s, L s ν * L (T.sup ν s) μ * (L (T.sup μ s) ν)ᴴ, 1⟩,
   ⟨-1, T.sup μ s, L s μ, (L s μ)ᴴ * (L (T.sdn ν s) ν)ᴴ * L (T.sdn ν s) μ * L (T.sdn ν (T.sup μ s)) ν⟩,
   ⟨1, T.sup ν (T.sup μ s), L s ν * L (T.sup ν s) μ, L (T.sup μ s) ν⟩,
   ⟨-1, T.sdn ν (T.sup μ s), L s μ * (L (T.sdn ν (T.sup μ s)) ν)ᴴ, (L s μ)ᴴ * (L (T.sdn ν s) ν)ᴴ * L (T.sdn ν s) μ⟩]

/-- The tensor products of one term: the loops over `alpha`, with the projected spinors `Σ_β i κ c_sw (γ₅σ_{μν})_{αβ} Y_β`. -/
def cloverTensor (κ csw : ℝ) (μ ν : Fin 4) (c : CloverTerm S M) (X Y : SField S M) : Mat M :=
  ∑ α, tensor (c.right *ᵥ X c.site α) (c.left *ᵥ ∑ β, (Complex.I * κ * csw * tabGamma5Sigma μ ν α β) • Y c.site β)

/-- `ImprovedFermionForce::derivative`, `ImprovedFermionForce.cpp` 12-222. -/
def improvedDerivative (T : Torus S) (κ csw : ℝ) (L : GField S M) (X Y : SField S M) (s : S) (μ : Fin 4) : Mat M :=
  (1 / 4 : ℂ) • (∑ ν, if ν ≠ μ then
      ((cloverTerms T L s μ ν).map fun c => c.sign • (cloverTensor κ csw μ ν c X Y + cloverTensor κ csw μ ν c Y X)).sum else 0)
    + wilsonDerivative T κ L X Y s μ

end

end Leonard
