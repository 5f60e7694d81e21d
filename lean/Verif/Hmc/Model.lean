/-
Molecular dynamics and the accept/reject step: `/repo/source/hmc_integrators/*.cpp`, `/repo/source/hmc_updaters/HMCUpdater.cpp`,
`/repo/source/hmc_updaters/PureGaugeHMCUpdater.cpp`.

The control flow of an integrator does not depend on the fields.  An integrator is therefore modelled by the sequence of the updates it
performs, a `List (MdOp ι)` in the order of time, where `ι` names the forces; `mdRun` performs them.  Real arithmetic is exact.
-/
import Verif.Base.Outcome
import Verif.Smear.Model

set_option autoImplicit false

namespace Leonard

open Matrix

/-- One update performed by an integrator.  `link ε`: `updateLinkConfiguration(links, momenta, ε)`, followed by `updateHalo` and
`synchronize`.  `mom i ε`: `force[i]->updateForce(forceLattice, env)` followed by `updateMomenta(momenta, forceLattice, ε)`. -/
inductive MdOp (ι : Type) where
  | link (ε : ℝ)
  | mom (i : ι) (ε : ℝ)

noncomputable section
variable {ι : Type}

/-! ### The integrators with several time scales -/

/-- `LeapFrog::integrate`, `LeapFrog.cpp:47-90`.  The lists are the forces and the numbers of steps from `forceIndex` on: reading
`force[forceIndex]` or `numberSteps[forceIndex]` outside the vectors is undefined, and so is the division by zero steps (line 49). -/
def leapFrog : List ι → List ℕ → ℝ → Outcome (List (MdOp ι))
  | [], _, _ => .ub
  | _ :: _, [], _ => .ub
  | f :: fs, n :: ns, t =>
    if n = 0 then .ub
    else
      let step := t / n
      (if fs.isEmpty then .ok [.link step] else leapFrog fs ns step) >>= fun inner =>
        .ok ([.mom f (step / 2)] ++ (List.replicate (n - 1) (inner ++ [.mom f step])).flatten ++ inner ++ [.mom f (step / 2)])

/-- The constant of `OmelyanLeapFrog.cpp:12`, `:77`. -/
def omelyanLambda : ℝ := 0.19318332275037863

/-- `OmelyanLeapFrog::integrate`, `OmelyanLeapFrog.cpp:74-156`. -/
def omelyan : List ι → List ℕ → ℝ → Outcome (List (MdOp ι))
  | [], _, _ => .ub
  | _ :: _, [], _ => .ub
  | f :: fs, n :: ns, t =>
    if n = 0 then .ub
    else
      let step := t / n
      let lambda := omelyanLambda
      (if fs.isEmpty then .ok [.link (step / 2)] else omelyan fs ns (step / 2)) >>= fun inner =>
        .ok ([.mom f (lambda * step)] ++ inner ++ [.mom f ((1 - 2 * lambda) * step)] ++ inner ++
          (List.replicate (n - 1) ([.mom f (2 * lambda * step)] ++ inner ++ [.mom f ((1 - 2 * lambda) * step)] ++ inner)).flatten ++
          [.mom f (lambda * step)])

/-- The constants of `FourthOmelyanLeapFrog.cpp:85-88`. -/
def fourthTheta : ℝ := 0.083983152628
@[inherit_doc fourthTheta] def fourthRho : ℝ := 0.2539785108410595
@[inherit_doc fourthTheta] def fourthMu : ℝ := -0.03230286765269967
@[inherit_doc fourthTheta] def fourthLambda : ℝ := 0.6822365335719091

/-- `FourthOmelyanLeapFrog::integrate`, `FourthOmelyanLeapFrog.cpp:82-183`.  With zero steps the division of line 84 is by zero; on
machines where that gives an infinity, which is then not used, nothing is updated. -/
def fourthOmelyan : List ι → List ℕ → ℝ → Outcome (List (MdOp ι))
  | [], _, _ => .ub
  | _ :: _, [], _ => .ub
  | f :: fs, n :: ns, t =>
    if n = 0 then .ub
    else
      let step := t / n
      let theta := fourthTheta
      let rho := fourthRho
      let mu := fourthMu
      let lambda := fourthLambda
      (if fs.isEmpty then .ok [.link (theta * step)] else fourthOmelyan fs ns (theta * step)) >>= fun inner1 =>
      (if fs.isEmpty then .ok [.link (lambda * step)] else fourthOmelyan fs ns (lambda * step)) >>= fun inner2 =>
      (if fs.isEmpty then .ok [.link ((1 - 2 * (lambda + theta)) * step / 2)]
        else fourthOmelyan fs ns ((1 - 2 * (lambda + theta)) * step / 2)) >>= fun inner3 =>
        .ok (List.replicate n (inner1 ++ [.mom f (rho * step)] ++ inner2 ++ [.mom f (mu * step)] ++ inner3 ++
          [.mom f ((1 - 2 * (mu + rho)) * step)] ++ inner3 ++ [.mom f (mu * step)] ++ inner2 ++ [.mom f (rho * step)] ++ inner1)).flatten

/-- `FourthOrderLeapFrog::integrate`, `FourthOrderLeapFrog.cpp:17-23`. -/
def fourthOrder (fs : List ι) (ns : List ℕ) (t : ℝ) : Outcome (List (MdOp ι)) :=
  let b1 : ℝ := 1 / (2 - (2 : ℝ) ^ ((1 : ℝ) / 3))
  let b2 : ℝ := -(2 : ℝ) ^ ((1 : ℝ) / 3) / (2 - (2 : ℝ) ^ ((1 : ℝ) / 3))
  leapFrog fs ns (b1 * t) >>= fun x => leapFrog fs ns (b2 * t) >>= fun y => leapFrog fs ns (b1 * t) >>= fun z => .ok (x ++ y ++ z)

/-- `SixthOrderLeapFrog::integrate`, `SixthOrderLeapFrog.cpp:17-23`. -/
def sixthOrder (fs : List ι) (ns : List ℕ) (t : ℝ) : Outcome (List (MdOp ι)) :=
  let b1 : ℝ := 1 / (2 - (2 : ℝ) ^ ((1 : ℝ) / 5))
  let b2 : ℝ := -(2 : ℝ) ^ ((1 : ℝ) / 5) / (2 - (2 : ℝ) ^ ((1 : ℝ) / 5))
  fourthOrder fs ns (b1 * t) >>= fun x => fourthOrder fs ns (b2 * t) >>= fun y => fourthOrder fs ns (b1 * t) >>= fun z => .ok (x ++ y ++ z)

/-- `Integrate::getInstance(name)` and `integrate(env, momenta, force, numberSteps, t_length)`, `Integrate.cpp:55-70`. -/
def mdIntegrate (name : String) (fs : List ι) (ns : List ℕ) (t : ℝ) : Outcome (List (MdOp ι)) :=
  if name = "second_order" then leapFrog fs ns t
  else if name = "fourth_order" then fourthOrder fs ns t
  else if name = "sixth_order" then sixthOrder fs ns t
  else if name = "omelyan" then omelyan fs ns t
  else if name = "fourth_omelyan" then fourthOmelyan fs ns t
  else .exit 1

/-! ### The integrators for one force -/

/-- `LeapFrog::integrate(env, momenta, force, numberSteps, step)`, `LeapFrog.cpp:9-41`: the last argument is the length of one step. -/
def leapFrogSingle (f : ι) (n : ℤ) (step : ℝ) : List (MdOp ι) :=
  [.mom f (step / 2)] ++ (List.replicate (n - 1).toNat [.link step, .mom f step]).flatten ++ [.link step, .mom f (step / 2)]

/-- Conversion of a real number to `int`: the fraction is dropped. -/
def truncInt (x : ℝ) : ℤ := if 0 ≤ x then ⌊x⌋ else ⌈x⌉

/-- `OmelyanLeapFrog::integrate(env, momenta, force, numberSteps, t_length)`, `OmelyanLeapFrog.cpp:9-68`: the step is an `int` (line 11).
The number of steps is positive here (the counter of the loop is unsigned). -/
def omelyanSingle (f : ι) (n : ℕ) (t : ℝ) : List (MdOp ι) :=
  let step : ℝ := (truncInt (t / n) : ℝ)
  let lambda := omelyanLambda
  [.mom f (lambda * step), .link (step / 2), .mom f ((1 - 2 * lambda) * step), .link (step / 2)] ++
    (List.replicate (n - 1) [.mom f (2 * lambda * step), .link (step / 2), .mom f ((1 - 2 * lambda) * step), .link (step / 2)]).flatten ++
    [.mom f (lambda * step)]

/-! ### The updates -/

variable {S : Type} {N : ℕ}

/-- The two updates of an integrator, `Integrate.cpp:20-53` and `:72-80`, with the links and the momenta as state.  `E ε P U` is the
update of one link, `F i U` is the field of forces number `i`; the fermion links and halos are functions of the links. -/
def mdStep (E : ℝ → Mat N → Mat N → Mat N) (F : ι → GField S N → GField S N) : MdOp ι → GField S N × GField S N → GField S N × GField S N
  | .link ε, x => (fun s μ => E ε (x.2 s μ) (x.1 s μ), x.2)
  | .mom i ε, x => (x.1, fun s μ => x.2 s μ - (ε : ℂ) • F i x.1 s μ)

/-- All updates in order. -/
def mdRun (E : ℝ → Mat N → Mat N → Mat N) (F : ι → GField S N → GField S N) (l : List (MdOp ι)) (x : GField S N × GField S N) :
    GField S N × GField S N :=
  l.foldl (fun x o => mdStep E F o x) x

/-- The update of a link with the eigenvalue decomposition of a library, `Integrate.cpp:24-45`. -/
def eigenLink (eig : EigenSolver N) (ε : ℝ) (P U : Mat N) : Mat N := mdLinkUpdate ε (eig P).1 (eig P).2 U

/-- `matrix_exp`, `MatrixToolkit.h:559-579`. -/
def matrixExp2 (A : Mat 2) : Mat 2 :=
  let n1 : ℝ := (A 0 0).im
  let n2 : ℝ := (A 0 1).im
  let n3 : ℝ := (A 0 1).re
  let norm : ℝ := Real.sqrt (n1 * n1 + n2 * n2 + n3 * n3)
  if norm < 0.0000001 then
    !![⟨1 - norm * norm / 2, n1 * (1 - norm * norm / 6)⟩, ⟨n3 * (1 - norm * norm / 6), n2 * (1 - norm * norm / 6)⟩;
       ⟨-n3 * (1 - norm * norm / 6), n2 * (1 - norm * norm / 6)⟩, ⟨1 - norm * norm / 2, -n1 * (1 - norm * norm / 6)⟩]
  else
    !![⟨Real.cos norm, n1 * Real.sin norm / norm⟩, ⟨n3 * Real.sin norm / norm, n2 * Real.sin norm / norm⟩;
       ⟨-n3 * Real.sin norm / norm, n2 * Real.sin norm / norm⟩, ⟨Real.cos norm, -n1 * Real.sin norm / norm⟩]

/-- The update of a link without library, `Integrate.cpp:46-49`. -/
def toolkitLink (ε : ℝ) (P U : Mat 2) : Mat 2 := matrixExp2 ((ε : ℂ) • P) * U

/-! ### Momenta -/

/-- `HMCUpdater::randomMomenta` for one link, `HMCUpdater.cpp:37-66`.  `re i j`, `im i j` (for `i < j`) and `c i` (for `1 ≤ i`) are the
numbers drawn; the loop over the diagonal generators is written as a sum. -/
def randomMomentum (re im : Fin N → Fin N → ℝ) (c : Fin N → ℝ) : Mat N :=
  Matrix.of fun k l =>
    if k < l then ⟨re k l / 2, im k l / 2⟩
    else if l < k then ⟨-(re l k / 2), im l k / 2⟩
    else ∑ i : Fin N, if (i : ℕ) = 0 then 0
      else if k < i then (⟨0, c i / 2 / Real.sqrt ((i : ℝ) * ((i : ℝ) + 1) / 2)⟩ : ℂ)
      else if k = i then ⟨0, -(c i / 2) * i * Real.sqrt (2 / ((i : ℝ) * ((i : ℝ) + 1)))⟩
      else 0

/-! ### Accept/reject -/

/-- The decision of the output process, `HMCUpdater.cpp:77-89`; `none` is NaN, for which both comparisons are false. -/
def metropolisLocal (energyOld energyNew : Option ℝ) (u : ℝ) : Bool :=
  match energyOld, energyNew with
  | some a, some b =>
    let delta := b - a
    if delta < 0 then true else if u < Real.exp (-delta) then true else false
  | _, _ => false

/-- `HMCUpdater::metropolis(energyOld, energyNew)` on process `rank`, `HMCUpdater.cpp:73-102`: the output process (rank 0) decides, and
its decision is broadcast; before, the decision of the others is 0. -/
def metropolisRank {R : Type} [DecidableEq R] (root : R) (energyOld energyNew : R → Option ℝ) (u : R → ℝ) (rank : R) : Bool :=
  let decision : R → Bool := fun r => if r = root then metropolisLocal (energyOld r) (energyNew r) (u r) else false
  let received : R → Bool := fun _ => decision root
  received rank

/-- `HMCUpdater::metropolis(value)`, `HMCUpdater.cpp:104-128`, on the output process. -/
def metropolisValue (value : Option ℝ) (u : ℝ) : Bool :=
  match value with
  | some v => if 1 < v then true else if u < v then true else false
  | none => false

/-- `PureGaugeHMCUpdater::execute`, `PureGaugeHMCUpdater.cpp:17-87`: the momenta `P` have been drawn; `numbers_steps.resize(1)` keeps the
first number or adds a zero.  `energy` is the gauge energy, `force` its force.  The result is the configuration after the sweep. -/
def pureGaugeExecute [Fintype S] (E : ℝ → Mat N → Mat N → Mat N) (energy : GField S N → ℝ) (force : GField S N → GField S N)
    (integrator : String) (steps : List ℕ) (t : ℝ) (P U : GField S N) (u : ℝ) : Outcome (GField S N) :=
  mdIntegrate integrator [()] [steps.headD 0] t >>= fun l =>
    let new := mdRun E (fun _ => force) l (U, P)
    .ok (if metropolisLocal (some (momentaEnergy P + energy U)) (some (momentaEnergy new.2 + energy new.1)) u then new.1 else U)

/-- The forces of `TwoFlavorHMCUpdater`: the sum (`TwoFlavorAction::updateForce`) and its two parts. -/
inductive TwoFlavorForce where
  | action
  | fermion
  | gauge
  deriving DecidableEq

/-- The forces and numbers of steps of `TwoFlavorHMCUpdater.cpp:79-94`; `resize(1)` keeps the first number or adds a zero. -/
def twoFlavorForces : List ℕ → List TwoFlavorForce × List ℕ
  | [n] => ([.action], [n])
  | [m, n] => ([.fermion, .gauge], [m, n])
  | ns => ([.action], [ns.headD 0])

/-- The field of a force, for the pseudofermion field `φ`: `TwoFlavorQCDAction.cpp:17-28`, `TwoFlavorFermionAction.cpp:21-42`,
`GaugeAction.cpp`. -/
def twoFlavorForce {V : Type} (fermionForce : V → GField S N → GField S N) (gaugeForce : GField S N → GField S N) (φ : V) :
    TwoFlavorForce → GField S N → GField S N
  | .action, U => fun s μ => fermionForce φ U s μ + gaugeForce U s μ
  | .fermion, U => fermionForce φ U
  | .gauge, U => gaugeForce U

/-- `AlgebraUtils::squaredNorm` of a fermion field with components labelled by `κ`. -/
def fermionNormSq {κ : Type} [Fintype κ] (v : κ → ℂ) : ℝ := ∑ k, Complex.normSq (v k)

/-- `TwoFlavorHMCUpdater::execute`, `TwoFlavorHMCUpdater.cpp:24-124`, on objects made for this call.  The momenta `P`, the Gaussian field `η`
and the random number `u` have been drawn.  `D U` is the Dirac operator on the links `U`, `solve U` the solution of the solver. -/
def twoFlavorExecute [Fintype S] {κ : Type} [Fintype κ] (E : ℝ → Mat N → Mat N → Mat N) (D solve : GField S N → (κ → ℂ) → κ → ℂ)
    (energy : GField S N → ℝ) (fermionForce : (κ → ℂ) → GField S N → GField S N) (gaugeForce : GField S N → GField S N)
    (integrator : String) (steps : List ℕ) (t : ℝ) (P : GField S N) (η : κ → ℂ) (U : GField S N) (u : ℝ) : Outcome (GField S N) :=
  let φ := D U η
  mdIntegrate integrator (twoFlavorForces steps).1 (twoFlavorForces steps).2 t >>= fun l =>
    let new := mdRun E (twoFlavorForce fermionForce gaugeForce φ) l (U, P)
    .ok (if metropolisLocal (some (momentaEnergy P + energy U + fermionNormSq η))
        (some (momentaEnergy new.2 + energy new.1 + fermionNormSq (solve new.1 φ))) u then new.1 else U)

end

end Leonard
