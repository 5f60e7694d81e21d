import Verif.Fixing.Model
import Verif.Gauge.Deriv
import Verif.Gauge.Props

/-!
# What gauge fixing should do
-/

set_option autoImplicit false

namespace Leonard

open Matrix

variable {S : Type} {N : ℕ}

/-- `V` is the gauge transform of `U` by matrices of the group `G`. -/
def GaugeEquiv (G : Submonoid (Mat N)) (T : Torus S) (U V : GField S N) : Prop :=
  ∃ g : S → Mat N, (∀ s, g s ∈ G) ∧ V = gaugeTransform T g U

/-- The decomposition of Hermitian matrices is correct: `A = V diag(d) V†` with unitary `V`. -/
def EigenSolver.CorrectHerm (eig : EigenSolver N) : Prop :=
  ∀ A : Mat N, Aᴴ = A → (eig A).2 ∈ unitaryGroup (Fin N) ℂ ∧ A = (eig A).2 * Matrix.diagonal (eig A).1 * (eig A).2ᴴ

/-- `U` is a stationary point of the functional `F` on its gauge orbit: along every one-parameter family of gauge transformations
`exp(t X(s))` through the identity the derivative of `F` vanishes. -/
def GaugeStationary (F : GField S N → ℝ) (T : Torus S) (U : GField S N) : Prop :=
  ∀ X : S → Mat N, (∀ s, IsLie (X s)) → HasDerivAt (fun t : ℝ => F (gaugeTransform T (fun s => NormedSpace.exp (t • X s)) U)) 0 0

end Leonard
