import Verif.Gauge.Updates
import Verif.Gauge.Path
import Verif.Gauge.Checkerboard

/-!
# A sweep of the heat bath

`PureGaugeUpdater::execute`, `PureGaugeUpdater.cpp` 50-80 without `ENABLE_MPI`: the links are updated one after the other, in place. The random
numbers of every step are an argument; `none` stands for a division by zero or a loop of `generate_radius` that has not ended with the given attempts.
-/

set_option autoImplicit false

namespace Leonard

variable {S : Type} [DecidableEq S] {N : ℕ}

/-- The sweep for more than two colours, with the `updateLink` of `PureGaugeUpdater.cpp` 169-211. `links` is the order of the links, `draw` the random
numbers of every link and subgroup. -/
noncomputable def heatSweep (β : ℝ) (stap : GField S N → S → Fin 4 → Mat N) (links : List (Link S)) (draw : Link S × Fin N × Fin N → HeatBathDraw)
    (U : GField S N) : Option (GField S N) :=
  links.foldlM (fun U l => (heatBathN β (U l.1 l.2) (stap U l.1 l.2) fun kl => draw (l, kl)).map (setLink U l.1 l.2)) U

/-- The sweep for two colours, with the `updateLink` of `PureGaugeUpdater.cpp` 213-228. -/
noncomputable def heatSweep2 (β : ℝ) (stap : GField S 2 → S → Fin 4 → Mat 2) (links : List (Link S)) (draw : Link S → HeatBathDraw) (U : GField S 2) :
    Option (GField S 2) :=
  links.foldlM (fun U l => (heatBath2 β (stap U l.1 l.2) (draw l)).map (setLink U l.1 l.2)) U

end Leonard
