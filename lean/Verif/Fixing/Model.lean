import Verif.Hmc.Model
import Verif.Rep.Model
import Verif.Gauge.Path
import Mathlib.Analysis.SpecialFunctions.Pow.Complex

/-!
# Gauge fixing

Model of `/repo/source/gauge_fixing/GaugeFixing.cpp`, `LandauGaugeFixing.cpp`, `MaximalAbelianGaugeFixing.cpp` on one process, with
exact arithmetic; NaN is `none`.  The random numbers are arguments: a stream is read where the program draws (a number that the program
would not draw, because a decision does not need it, is not used here either).  Printed lines and the counters of acceptances are left
out.
-/

set_option autoImplicit false

namespace Leonard

open Matrix

noncomputable section

variable {S : Type} {N : ℕ}

/-! ### `GaugeFixing.cpp` -/

/-- The normal random numbers of one site. -/
structure GaugeDraw (N : ℕ) where
  re : Fin N → Fin N → ℝ
  im : Fin N → Fin N → ℝ
  diag : Fin N → ℝ

/-- `GaugeFixing.cpp:52-82`: the algebra element of one site. The loops are those of `randomMomenta` with `epsilon*randomNormal()` for
`randomNormal()`; with threads the factor is missing in the diagonal part (line 76). -/
def gaugeAlgebra (threads : Bool) (ε : ℝ) (d : GaugeDraw N) : Mat N :=
  randomMomentum (fun i j => ε * d.re i j) (fun i j => ε * d.im i j) (fun i => if threads then d.diag i else ε * d.diag i)

/-- `GaugeFixing::generateRandomGaugeTransformation`, `GaugeFixing.cpp:47-88`; `E` is `ExponentialMap::exp`. -/
def randomGauge (E : Mat N → Option (Mat N)) (threads : Bool) (ε : ℝ) (d : S → GaugeDraw N) : S → Option (Mat N) :=
  fun s => E (gaugeAlgebra threads ε (d s))

open Classical in
/-- `GaugeFixing::transform`, `GaugeFixing.cpp:90-99`. If the matrix of a site is NaN, so are links of the result, and its functional;
such a result is `none`. -/
def fixTransform (T : Torus S) (ω : S → Option (Mat N)) (U : GField S N) : Option (GField S N) :=
  if ∀ s, (ω s).isSome then some fun s μ => (ω s).getD 0 * U s μ * ((ω (T.sup μ s)).getD 0)ᴴ else none

/-- `GaugeFixing::getLieAlgebraField`, `GaugeFixing.cpp:101-117`, for one link. -/
def lieField (U : Mat N) : Mat N :=
  let A := (1 / (2 * Complex.I)) • (U - Uᴴ)
  A - (trace A / N) • 1

/-- `GaugeFixing::metropolis`, `GaugeFixing.cpp:119-131`; all comparisons with NaN are false. -/
def fixMetropolis (delta : Option ℝ) (u : ℝ) : Bool :=
  match delta with
  | none => false
  | some d => if d < -50 then false else if 0 ≤ d then true else if u < Real.exp d then true else false

/-! ### The parallel tempering shared by both gauges -/

/-- A configuration and the value of the functional stored with it. -/
structure Replica (S : Type) (N : ℕ) where
  conf : GField S N
  value : ℝ

/-- Three replicas and the best configuration so far. -/
structure Tempering (S : Type) (N : ℕ) where
  r1 : Replica S N
  r2 : Replica S N
  r3 : Replica S N
  best : Replica S N

/-- `gaugeFixed`, `functionalValue`: accept or keep, `LandauGaugeFixing.cpp:142-146`. -/
def acceptReplica (F : GField S N → ℝ) (β : ℝ) (tmp : Option (GField S N)) (u : ℝ) (r : Replica S N) : Replica S N :=
  match tmp with
  | none => if fixMetropolis none u then r else r
  | some V => if fixMetropolis (some (β * (F V - r.value))) u then ⟨V, F V⟩ else r

/-- `maximum`, `maximalFunctionalValue`, `LandauGaugeFixing.cpp:147-150`. -/
def improveBest (F : GField S N → ℝ) (tmp : Option (GField S N)) (best : Replica S N) : Replica S N :=
  match tmp with
  | none => best
  | some V => if best.value < F V then ⟨V, F V⟩ else best

/-- The random numbers of one step of parallel tempering. -/
structure TemperDraw (S : Type) (N : ℕ) where
  g1 : S → GaugeDraw N
  g2 : S → GaugeDraw N
  g3 : S → GaugeDraw N
  u1 : ℝ
  u2 : ℝ
  u3 : ℝ
  u4 : ℝ
  u5 : ℝ

/-- The parameters `epsilon1`…`beta3`. -/
structure TemperPars where
  ε1 : ℝ
  ε2 : ℝ
  ε3 : ℝ
  β1 : ℝ
  β2 : ℝ
  β3 : ℝ

/-- One step, `LandauGaugeFixing.cpp:136-211` and `MaximalAbelianGaugeFixing.cpp:44-119`: a trial for each replica, then the exchanges. -/
def temperStep (T : Torus S) (E : Mat N → Option (Mat N)) (threads : Bool) (F : GField S N → ℝ) (p : TemperPars) (d : TemperDraw S N)
    (x : Tempering S N) : Tempering S N :=
  let tmp := fixTransform T (randomGauge E threads p.ε1 d.g1) x.r1.conf
  let r1 := acceptReplica F p.β1 tmp d.u1 x.r1
  let best := improveBest F tmp x.best
  let tmp := fixTransform T (randomGauge E threads p.ε2 d.g2) x.r2.conf
  let r2 := acceptReplica F p.β2 tmp d.u2 x.r2
  let best := improveBest F tmp best
  let tmp := fixTransform T (randomGauge E threads p.ε3 d.g3) x.r3.conf
  let r3 := acceptReplica F p.β3 tmp d.u3 x.r3
  let best := improveBest F tmp best
  let swap23 := fixMetropolis (some ((p.β2 - p.β3) * (r2.value - r3.value))) d.u4
  let (r2, r3) := if swap23 then (r3, r2) else (r2, r3)
  let swap12 := fixMetropolis (some ((p.β1 - p.β2) * (r1.value - r2.value))) d.u5
  let (r1, r2) := if swap12 then (r2, r1) else (r1, r2)
  ⟨r1, r2, r3, best⟩

/-- The loop over the steps, `LandauGaugeFixing.cpp:121-211`, `MaximalAbelianGaugeFixing.cpp:29-119`. -/
def temper (T : Torus S) (E : Mat N → Option (Mat N)) (threads : Bool) (F : GField S N → ℝ) (p : TemperPars) (d : ℕ → TemperDraw S N)
    (U : GField S N) : ℕ → Tempering S N
  | 0 => ⟨⟨U, F U⟩, ⟨U, F U⟩, ⟨U, F U⟩, ⟨U, F U⟩⟩
  | n + 1 => temperStep T E threads F p (d n) (temper T E threads F p d U n)

/-! ### `LandauGaugeFixing.cpp` -/

/-- `LandauGaugeFixing::functional`, `LandauGaugeFixing.cpp:246-258`. -/
def landauFunctional [Fintype S] (U : GField S N) : ℝ := ∑ s, ∑ μ, (trace (U s μ)).re

/-- `LandauGaugeFixing.cpp:19-24`. -/
def landauStaple (T : Torus S) (U : GField S N) (s : S) : Mat N := ∑ μ, (U s μ + (U (T.sdn μ s) μ)ᴴ)

/-- Two colours, `LandauGaugeFixing.cpp:52-60`: the matrix divided by the square root of its determinant, conjugated. -/
def landauSite2 (M : Mat 2) : Option (Mat 2) :=
  if M.det = 0 then none else some (Matrix.of fun i j => M i j / M.det ^ (1 / 2 : ℂ))ᴴ

/-- `LandauGaugeFixing.cpp:29-34`: the identity with four entries of the staple. -/
def subMatrix (k l : Fin N) (M : Mat N) : Mat N :=
  Matrix.of fun i j => if (i = k ∨ i = l) ∧ (j = k ∨ j = l) then M i j else (1 : Mat N) i j

/-- `LandauGaugeFixing.cpp:35-41`: `Q` times the inverse square root of `Q†Q`, from the eigenvalues of a library. -/
def polarFactor (eig : EigenSolver N) (Q : Mat N) : Option (Mat N) :=
  let es := eig (Qᴴ * Q)
  open Classical in
  if ∃ i, es.1 i = 0 then none
  else some (Q * es.2 * Matrix.diagonal (fun i => 1 / es.1 i ^ (1 / 2 : ℂ)) * es.2ᴴ)

/-- One pair of colours, `LandauGaugeFixing.cpp:29-47`. The comparison with NaN is false, so that NaN is not skipped. -/
def landauPair (eig : EigenSolver N) (kl : Fin N × Fin N) (x : Option (Mat N × Mat N)) : Option (Mat N × Mat N) :=
  match x with
  | none => none
  | some (g, M) =>
    match polarFactor eig (subMatrix kl.1 kl.2 M) with
    | none => none
    | some ω => if 1e-10 < ‖trace (ωᴴ * ω) - N‖ then some (g, M) else some (ωᴴ * g, ωᴴ * M)

/-- The pairs of the loops of `LandauGaugeFixing.cpp:27-28`. -/
def colourPairs (N : ℕ) : List (Fin N × Fin N) :=
  (List.finRange N).flatMap fun k => ((List.finRange N).filter fun l => k < l).map fun l => (k, l)

/-- More than two colours, `LandauGaugeFixing.cpp:26-49`. -/
def landauSiteN (eig : EigenSolver N) (M : Mat N) : Option (Mat N) :=
  ((colourPairs N).foldl (fun x kl => landauPair eig kl x) (some (1, M))).map Prod.fst

/-- `LandauGaugeFixing::generateOverrelaxationTransformation`, `LandauGaugeFixing.cpp:12-69`; `site` is the part that depends on the number
of colours. -/
def landauOverrelax (site : Mat N → Option (Mat N)) (T : Torus S) (U : GField S N) (d : ℕ) : S → Option (Mat N) := fun s =>
  if (T.coord s 0 + T.coord s 1 + T.coord s 2 + T.coord s 3) % 2 = d % 2 then site (landauStaple T U s) else some 1

/-- The loop over the local steps, `LandauGaugeFixing.cpp:220-240`, with `left` steps to go; `convergence` is the gain since the last check. -/
def landauLocal [Fintype S] (site : Mat N → Option (Mat N)) (T : Torus S) (localSteps outputSteps : ℕ) (precision : ℝ) :
    ℕ → ℝ → Replica S N → Outcome (Replica S N)
  | 0, _, best => .ok best
  | left + 1, convergence, best =>
    let i := localSteps - (left + 1)
    if outputSteps = 0 ∨ localSteps / outputSteps = 0 then .ub
    else if i % (localSteps / outputSteps) = 0 ∧ |convergence| < precision ∧ 0 < i then .ok best
    else
      let convergence := if i % (localSteps / outputSteps) = 0 then 0 else convergence
      match fixTransform T (landauOverrelax site T best.conf i) best.conf with
      | none => landauLocal site T localSteps outputSteps precision left convergence best
      | some V =>
        if 0 < landauFunctional V - best.value then
          landauLocal site T localSteps outputSteps precision left (convergence + (landauFunctional V - best.value)) ⟨V, landauFunctional V⟩
        else landauLocal site T localSteps outputSteps precision left convergence best

/-- `LandauGaugeFixing::gaugeFixing`, `LandauGaugeFixing.cpp:115-244`: the new configuration and the returned value. -/
def landauFix [Fintype S] (E site : Mat N → Option (Mat N)) (threads : Bool) (T : Torus S) (p : TemperPars) (steps localSteps outputSteps : ℕ)
    (precision : ℝ) (d : ℕ → TemperDraw S N) (U : GField S N) : Outcome (Replica S N) :=
  landauLocal site T localSteps outputSteps precision localSteps 0 (temper T E threads landauFunctional p d U steps).best

/-- The options of the Landau gauge fixing. -/
structure LandauPars where
  temper : TemperPars
  steps : ℕ
  localSteps : ℕ
  finalSteps : ℕ
  outputSteps : ℕ
  copies : ℕ
  precision : ℝ

/-- The copies, `LandauGaugeFixing.cpp:89-95`. -/
def landauCopies [Fintype S] (E site : Mat N → Option (Mat N)) (threads : Bool) (T : Torus S) (o : LandauPars) (d : ℕ → ℕ → TemperDraw S N)
    (U : GField S N) : ℕ → Outcome (List (Replica S N))
  | 0 => .ok []
  | n + 1 => do
    let l ← landauCopies E site threads T o d U n
    let r ← landauFix E site threads T o.temper o.steps o.localSteps o.outputSteps o.precision (d n) U
    .ok (l ++ [r])

/-- `LandauGaugeFixing.cpp:97-104`: the index of the largest value, from 0. The pair is (`maximum`, `i_maximum`). -/
def landauSelect (l : List (Replica S N)) : ℝ × ℕ :=
  l.zipIdx.foldl (fun m r => if m.1 < r.1.value then (r.1.value, r.2) else m) (0, 0)

/-- `LandauGaugeFixing::execute`, `LandauGaugeFixing.cpp:70-113`; `d i` are the random numbers of copy `i`, and `d copies` those of the last
call. Without copies the index 0 is outside of the vector. -/
def landauExecute [Fintype S] (E site : Mat N → Option (Mat N)) (threads : Bool) (T : Torus S) (o : LandauPars) (d : ℕ → ℕ → TemperDraw S N)
    (U : GField S N) : Outcome (GField S N) := do
  let l ← landauCopies E site threads T o d U o.copies
  match l[(landauSelect l).2]? with
  | none => .ub
  | some r =>
    let final ← landauFix E site threads T o.temper o.steps o.finalSteps o.outputSteps o.precision (d o.copies) r.conf
    .ok final.conf

/-- `LandauGaugeFixing::deviation`, `LandauGaugeFixing.cpp:260-281`. -/
def landauDeviation [Fintype S] (T : Torus S) (U : GField S N) : ℝ :=
  (∑ s, (trace ((∑ μ, (lieField (U s μ) - lieField (U (T.sdn μ s) μ))) * (∑ μ, (lieField (U s μ) - lieField (U (T.sdn μ s) μ)))ᴴ)).re)
    / Fintype.card S

/-! ### `MaximalAbelianGaugeFixing.cpp`, for two colours -/

/-- `lieGenerator.get(2)`. -/
def abelianGenerator : Mat 2 := lieGenerators2.getD 2 0

/-- The term of one link. -/
def abelianTerm (U : Mat 2) : ℝ := (trace (U * abelianGenerator * Uᴴ * abelianGenerator)).re

/-- `MaximalAbelianGaugeFixing::functional`, `MaximalAbelianGaugeFixing.cpp:309-325`. -/
def abelianFunctional [Fintype S] (U : GField S 2) : ℝ := ∑ s, ∑ μ, abelianTerm (U s μ)

/-- `MaximalAbelianGaugeFixing.cpp:150-153`, for one direction: the link of the site, then the link that ends in it. -/
def abelianMove [DecidableEq S] (T : Torus S) (g : Mat 2) (s : S) (U : GField S 2) (μ : Fin 4) : GField S 2 :=
  let U := setLink U s μ (gᴴ * U s μ)
  setLink U (T.sdn μ s) μ (U (T.sdn μ s) μ * g)

/-- `MaximalAbelianGaugeFixing.cpp:142-148`, `:155-159`. -/
def abelianLocal (T : Torus S) (s : S) (U : GField S 2) : ℝ :=
  ∑ μ, (abelianTerm (U s μ) + abelianTerm (U (T.sdn μ s) μ))

/-- `MaximalAbelianGaugeFixing.cpp:162-165`, for one direction. -/
def abelianRestore [DecidableEq S] (T : Torus S) (s : S) (old : GField S 2) (U : GField S 2) (μ : Fin 4) : GField S 2 :=
  setLink (setLink U s μ (old s μ)) (T.sdn μ s) μ (old (T.sdn μ s) μ)

/-- One site of the local phase, `MaximalAbelianGaugeFixing.cpp:140-167`; a NaN is not restored. -/
def abelianSite [DecidableEq S] (T : Torus S) (ω : S → Option (Mat 2)) (U : Option (GField S 2)) (s : S) : Option (GField S 2) :=
  match U, ω s with
  | some U, some g =>
    let V := (List.finRange 4).foldl (abelianMove T g s) U
    some (if abelianLocal T s V < abelianLocal T s U then (List.finRange 4).foldl (abelianRestore T s U) V else V)
  | _, _ => none

/-- One local step, `MaximalAbelianGaugeFixing.cpp:131-214` and `:218-301`, on one process; `order` are the sites in the order of the loop. The
pair of states is (`gaugeFixed1`, `maximum`). -/
def abelianStep [Fintype S] [DecidableEq S] (E : Mat 2 → Option (Mat 2)) (threads : Bool) (T : Torus S) (order : List S) (ε β : ℝ)
    (g : S → GaugeDraw 2) (u : ℝ) (x : Replica S 2 × Replica S 2) : Replica S 2 × Replica S 2 :=
  let tmp := order.foldl (abelianSite T (randomGauge E threads ε g)) (some x.1.conf)
  (acceptReplica abelianFunctional β tmp u x.1, improveBest abelianFunctional tmp x.2)

/-- The loop over local steps; its first line divides by `local_steps/10`. -/
def abelianPhase [Fintype S] [DecidableEq S] (E : Mat 2 → Option (Mat 2)) (threads : Bool) (T : Torus S) (order : List S) (ε β : ℝ)
    (d : ℕ → (S → GaugeDraw 2) × ℝ) (n : ℕ) (x : Replica S 2 × Replica S 2) : Outcome (Replica S 2 × Replica S 2) :=
  if 0 < n ∧ n / 10 = 0 then .ub
  else .ok ((List.range n).foldl (fun x i => abelianStep E threads T order ε β (d i).1 (d i).2 x) x)

/-- `MaximalAbelianGaugeFixing::execute`, `MaximalAbelianGaugeFixing.cpp:12-307`, for two colours (for other numbers it does nothing). -/
def abelianExecute [Fintype S] [DecidableEq S] (E : Mat 2 → Option (Mat 2)) (threads : Bool) (T : Torus S) (order : List S) (p : TemperPars)
    (steps steps1 steps2 : ℕ) (d : ℕ → TemperDraw S 2) (d1 d2 : ℕ → (S → GaugeDraw 2) × ℝ) (U : GField S 2) : Outcome (GField S 2) := do
  let x := temper T E threads abelianFunctional p d U steps
  let y ← abelianPhase E threads T order p.ε1 p.β1 d1 steps1 (x.r1, x.best)
  let z ← abelianPhase E threads T order p.ε2 p.β1 d2 steps2 y
  .ok z.2.conf

/-- `MaximalAbelianProjection::execute`, `MaximalAbelianProjection.cpp:12-28`, for one link. -/
def abelianProject (U : Mat N) : Mat N := Matrix.of fun i j => if i = j then U i j else 0

end

end Leonard
