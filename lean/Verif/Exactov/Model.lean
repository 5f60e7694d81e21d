import Verif.Overlap.Model

/-!
# The eigenvectors kept by the exact overlap operator

`ExactOverlapOperator.cpp`: `computeEigenvalues`, `checkEigenvalues`, `setKappa`, `setLattice`, and the use of the pairs in `multiply`.

Left out: printing; the eigenvalue solver, which is a function of the lattice, the hopping parameter and the gamma5 flag of the squared operator
(the Arnoldi solver is the subject of C74, C89); `multiplyAdd`, which prepares the pairs in the same way; copies of the operator; the null pointer
to the solver left by the constructor with arguments (line 10), with which `computeEigenvalues` is undefined: the operators of the program are
made with the default constructor.
-/

set_option autoImplicit false

namespace Leonard

variable {S : Type} {M : ℕ}

/-- The fields of the operator which matter here; `inner5` is the gamma5 flag of the two Wilson operators inside. -/
structure ExactOverlap (S : Type) (M : ℕ) where
  lattice : GField S M
  kappa : ℝ
  inner5 : Bool
  recompute : Bool
  eigs : List (ℝ × SField S M)

/-- `ExactOverlapOperator.cpp:8` with `DiracOperator.cpp:14`: the default constructor. -/
def ExactOverlap.fresh (L : GField S M) : ExactOverlap S M := ⟨L, 0, true, true, []⟩

/-- `ExactOverlapOperator.cpp:123-126`: the square root of the eigenvalue of the square, with the sign of the expectation value of the operator. -/
noncomputable def signedRoot [Fintype S] (Q : SField S M → SField S M) (p : ℂ × SField S M) : ℝ :=
  if (latticeDot p.2 (Q p.2)).re < 0 then -√p.1.re else √p.1.re

/-- `ExactOverlapOperator.cpp:152-165`: the sum of the moduli of the components of `Q u - λ u`. -/
noncomputable def eigenDeviation [Fintype S] (Q : SField S M → SField S M) (e : ℝ × SField S M) : ℝ :=
  ∑ x, ∑ mu, ∑ c, ‖Q e.2 x mu c - (e.1 : ℂ) * e.2 x mu c‖

/-- `ExactOverlapOperator::checkEigenvalues`, `ExactOverlapOperator.cpp:148-175`. -/
def checkEigenvalues [Fintype S] (Q : SField S M → SField S M) (tol : ℝ) (eigs : List (ℝ × SField S M)) : Prop :=
  eigs ≠ [] ∧ ∀ e ∈ eigs, ¬ tol < eigenDeviation Q e

open Classical in
/-- `ExactOverlapOperator::computeEigenvalues`, `ExactOverlapOperator.cpp:114-146`; the flag is cleared only when the pairs are computed anew. -/
noncomputable def computeEigenvalues [Fintype S] (T : Torus S) (solve : GField S M → ℝ → Bool → List (ℂ × SField S M)) (tol : ℝ)
    (st : ExactOverlap S M) : ExactOverlap S M :=
  let Q := optMul T st.lattice st.kappa st.inner5
  if checkEigenvalues Q tol st.eigs then st
  else { st with eigs := (solve st.lattice st.kappa st.inner5).map fun p => (signedRoot Q p, p.2), recompute := false }

/-- The first lines of `multiply`, `ExactOverlapOperator.cpp:19-21`. -/
noncomputable def exactPrepare [Fintype S] (T : Torus S) (solve : GField S M → ℝ → Bool → List (ℂ × SField S M)) (tol : ℝ) (st : ExactOverlap S M) :
    ExactOverlap S M :=
  { (if st.recompute then computeEigenvalues T solve tol st else st) with inner5 := true }

/-- The calls. -/
inductive ExactCall (S : Type) (M : ℕ) where
  | setLattice (L : GField S M)
  | setKappa (κ : ℝ)
  | multiply

/-- `ExactOverlapOperator.cpp:177-189` and `19-21`. -/
noncomputable def exactCall [Fintype S] (T : Torus S) (solve : GField S M → ℝ → Bool → List (ℂ × SField S M)) (tol : ℝ) (st : ExactOverlap S M) :
    ExactCall S M → ExactOverlap S M
  | .setLattice L => { st with lattice := L, recompute := true }
  | .setKappa κ => { st with kappa := κ, recompute := true }
  | .multiply => exactPrepare T solve tol st

end Leonard
