/-
Notions used in the statements of C35.
-/
import Verif.Dirac.EvenOdd
import Verif.Dirac.Spec

set_option autoImplicit false

namespace Leonard

variable {S : Type}

/-- The site-diagonal part can be inverted at every even site. -/
def EvenRegular (T : Torus S) (U : GField S 3) (κ csw : ℝ) : Prop :=
  ∀ x, siteParity T x = 0 → ∀ w, diagSite T U κ csw x w = 0 → w = 0

/-- A list that visits every site once. -/
def Visits (order : List S) : Prop := (∀ x, x ∈ order) ∧ order.Nodup

end Leonard
