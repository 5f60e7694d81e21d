import Verif.Gauge.Updates
import Verif.Gauge.Path
import Verif.Gauge.Checkerboard

/-!
# A sweep of the overrelaxation

`PureGaugeOverrelaxation::execute`, `PureGaugeOverrelaxation.cpp` 66-93 without `ENABLE_MPI`: the links are updated one after the other, in place.
-/

set_option autoImplicit false

namespace Leonard

variable {S : Type} [DecidableEq S] {N : ℕ}

/-- The sweep for two colours, with the `updateLink` of `PureGaugeOverrelaxation.cpp` 162-174; `links` is the order of the links. -/
noncomputable def overSweep2 (stap : GField S 2 → S → Fin 4 → Mat 2) (links : List (Link S)) (U : GField S 2) : GField S 2 :=
  links.foldl (fun U l => setLink U l.1 l.2 (overrelax2 (U l.1 l.2) (stap U l.1 l.2))) U

/-- The sweep for more than two colours, with the `updateLink` of `PureGaugeOverrelaxation.cpp` 133-159. `qr` is the factor `Q` that the linear algebra
library computes from a matrix, `ξ` the uniform number of every link (drawn by the program only when it is needed). -/
noncomputable def overSweep (β : ℝ) (stap : GField S N → S → Fin 4 → Mat N) (qr : Mat N → Mat N) (links : List (Link S)) (ξ : Link S → ℝ)
    (U : GField S N) : GField S N :=
  links.foldl (fun U l => setLink U l.1 l.2 (overrelaxN (qr (stap U l.1 l.2)) (U l.1 l.2)
    (deltaAction β U (overrelaxTrial (qr (stap U l.1 l.2)) (U l.1 l.2)) (stap U l.1 l.2) l.1 l.2) (ξ l))) U

end Leonard
