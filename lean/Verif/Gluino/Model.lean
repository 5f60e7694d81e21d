import Verif.Meson.Model
import Verif.Force.Model
import Verif.Smear.Model

/-!
# The correlator of the gluino-glue particle

Model of `correlators/GluinoGlue.cpp` and of `StochasticEstimator::smearSource` on the global lattice with exact numbers, for fermions in the adjoint
representation; without the flag `ADJOINT` the measurement only prints a message. The sums over threads and processes are sums over the sites. Not modelled:
neither the source nor the propagator has its halo updated before it is smeared, so that with several processes the first level of the smearing reads
old values; the model is that of one process. The links of the fermions are those of the gauge field without smearing of the action.
-/

set_option autoImplicit false

namespace Leonard

open Matrix

noncomputable section

variable {S : Type} {N M : ℕ}

/-- `GluinoGlue::cloverPlaquette`, `GluinoGlue.cpp:167-182`. -/
def gluinoClover (T : Torus S) (U : GField S N) (s : S) (μ ν : Fin 4) : Mat N :=
  let result := if μ ≠ ν then
      U s μ * U (T.sup μ s) ν * (U (T.sup ν s) μ)ᴴ * (U s ν)ᴴ
      + (U (T.sdn ν s) ν)ᴴ * U (T.sdn ν s) μ * U (T.sdn ν (T.sup μ s)) ν * (U s μ)ᴴ
      + U s ν * (U (T.sdn μ (T.sup ν s)) μ)ᴴ * (U (T.sdn μ s) ν)ᴴ * U (T.sdn μ s) μ
      + (U (T.sdn μ s) μ)ᴴ * (U (T.sdn ν (T.sdn μ s)) ν)ᴴ * U (T.sdn ν (T.sdn μ s)) μ * U (T.sdn ν s) ν
    else 0
  (⟨0, -1 / 8⟩ : ℂ) • (result - resultᴴ)

/-- One level of `StochasticEstimator::smearSource`, `StochasticEstimator.cpp:131-141`; `α` is the weight of the neighbours and `K` the factor. -/
def smearStep (T : Torus S) (L : GField S M) (α K : ℝ) (noSmear : ℕ) (v : SField S M) : SField S M := fun x =>
  (K : ℂ) • (v x + ∑ ν : Fin 4, if ν.val ≠ noSmear then
    (α : ℂ) • (v (T.sup ν x) * (L x ν)ᵀ) + (α : ℂ) • (v (T.sdn ν x) * ((L (T.sdn ν x) ν)ᴴ)ᵀ) else 0)

/-- `StochasticEstimator::smearSource`, `StochasticEstimator.cpp:126-146`. -/
def smearSource (T : Torus S) (L : GField S M) (α K : ℝ) (noSmear : ℕ) : ℕ → SField S M → SField S M
  | 0, v => v
  | n + 1, v => smearSource T L α K noSmear n (smearStep T L α K noSmear v)

/-- The values of `no_smear_dir` and `K` when they are not given, `StochasticEstimator.h:46`. -/
def smearDefault (T : Torus S) (L : GField S M) (α : ℝ) (levels : ℕ) (v : SField S M) : SField S M := smearSource T L α 0.9 3 levels v

/-- The source, `GluinoGlue.cpp:84-101`, on the links `V`. Entries of σ which are zero are skipped by the program; here they are added. -/
def gluinoSource (T : Torus S) (V : GField S N) (t0 : ℕ) (α ρ : Fin 4) (b : Fin (lieGenerators N).length) : SField S (lieGenerators N).length := fun x =>
  Matrix.of fun ρ' b' => if ρ' = ρ ∧ b' = b ∧ T.coord x 3 = t0 then
    ∑ k : Fin 3, ∑ l : Fin 3, tabSigma k.castSucc l.castSucc ρ α * trace (gluinoClover T V x k.castSucc l.castSucc * gens N b) else 0

/-- `psi[diracVectorLength*rho+b]`, `GluinoGlue.cpp:103-108`; `Ls` are the links of the smearing. The operator is not an overlap operator. -/
def gluinoPsi (T : Torus S) (V : GField S N) (Ls : GField S (lieGenerators N).length) (rho : ℝ) (levels : ℕ)
    (solve : SField S (lieGenerators N).length → SField S (lieGenerators N).length) (t0 : ℕ) (α ρ : Fin 4) (b : Fin (lieGenerators N).length) :
    SField S (lieGenerators N).length :=
  smearDefault T Ls rho levels (constructPropagator none (solve (smearDefault T Ls rho levels (gluinoSource T V t0 α ρ b))))

/-- What is written for the source time `t0` and the distance `t`, `GluinoGlue.cpp:72-155`. -/
def gluinoCorrelator [Fintype S] (T : Torus S) (V : GField S N) (Ls : GField S (lieGenerators N).length) (rho : ℝ) (levels : ℕ)
    (solve : SField S (lieGenerators N).length → SField S (lieGenerators N).length) (t0 t : ℕ) : ℝ :=
  -(∑ α, ∑ x, if (2 * T.ext 3 + T.coord x 3 - t0) % T.ext 3 = t then
    ∑ ρ, ∑ β, ∑ i : Fin 3, ∑ j : Fin 3, ∑ a, ∑ b, (tabSigma i.castSucc j.castSucc α β * trace (gluinoClover T V x i.castSucc j.castSucc * gens N a)
      * gluinoPsi T V Ls rho levels solve t0 α ρ b x β a).re else 0) / 4

/-- The loop over the source times, `GluinoGlue.cpp:64`, from `t0`: `none` when it has not ended after `fuel` rounds. -/
def gluinoStarts (extT delta : ℕ) : ℕ → ℕ → Option (List ℕ)
  | 0, _ => none
  | fuel + 1, t0 => if t0 < extT then (gluinoStarts extT delta fuel (t0 + delta)).map (t0 :: ·) else some []

/-- `delta_t`, `GluinoGlue.cpp:53-58`. -/
def gluinoDelta (extT sources : ℕ) : ℕ := if sources > 0 then extT / sources else extT

/-- `GluinoGlue::execute`, `GluinoGlue.cpp:24-165`: the correlators for the source times `starts`. `none`: the smearing of the links failed. -/
def gluinoExecute [Fintype S] (E : Mat N → Option (Mat N)) (T : Torus S) (bc : String) (stoutLevels : ℕ) (stoutRho rho : ℝ) (levels : ℕ)
    (solve : GField S (lieGenerators N).length → SField S (lieGenerators N).length → SField S (lieGenerators N).length) (U : GField S N) (starts : List ℕ) :
    Option (List (List ℝ)) :=
  let L := fermionLinks (adjointRep N) T bc U
  let run := fun V Ls => starts.map fun t0 => (List.range (T.ext 3)).map (gluinoCorrelator T V Ls rho levels (solve L) t0)
  if stoutLevels > 0 then (spatialSmearing E T stoutRho stoutLevels U).map fun V => run V fun s μ => (adjointRep N).link (V s μ)
  else some (run U L)

end

end Leonard
