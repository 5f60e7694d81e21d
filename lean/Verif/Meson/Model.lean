import Verif.Dirac.HermModel
import Verif.Dirac.GammaProps

/-!
# Meson correlators and stochastic estimators

Model of `correlators/MesonCorrelator.cpp`, `fermion_measurements/StochasticEstimator.{h,cpp}`, `fermion_measurements/ChiralCondensate.cpp`
and `dirac_operators/Propagator.cpp` on the global lattice. Sums over threads and processes are sums over the sites, and numbers are exact. `N` is
`diracVectorLength`, the dimension of the representation of the fermions; the links are those of the fermions, with their boundary conditions.
-/

set_option autoImplicit false

namespace Leonard

open Matrix

noncomputable section

variable {S : Type} {N : ℕ}

/-- `StochasticEstimator::generateSource`, `StochasticEstimator.cpp` 99-111. -/
def pointSource (T : Torus S) (α : Fin 4) (c : Fin N) : SField S N := fun x => Matrix.of fun mu i =>
  if T.coord x 0 = 0 ∧ T.coord x 1 = 0 ∧ T.coord x 2 = 0 ∧ T.coord x 3 = 0 then (if mu = α ∧ i = c then 1 else 0) else 0

/-- The loop which moves the links for `t_source_origin`, `MesonCorrelator.cpp` 49-66, run `n` times. -/
def rotateLinks (T : Torus S) : ℕ → GField S N → GField S N
  | 0, U => U
  | n + 1, U => rotateLinks T n fun x mu => U (T.sup 3 x) mu

/-- `Propagator::constructPropagator`, `Propagator.cpp` 34-59. For the overlap operators `overlap` is their product with mass zero; for the
others there is none. -/
def constructPropagator (overlap : Option (SField S N → SField S N)) (source : SField S N) : SField S N :=
  match overlap with
  | some D => source - D source
  | none => source

/-- `pionOperator[t]`, `MesonCorrelator.cpp` 104-118. `P α c` is `propagator[c*4 + alpha]`. -/
def pionOperator [Fintype S] (T : Torus S) (P : Fin 4 → Fin N → SField S N) (t : ℕ) : ℝ :=
  ∑ α, ∑ c, ∑ x, if T.coord x 3 = t then ∑ mu, ∑ d, (starRingEnd ℂ (P α c x mu d) * P α c x mu d).re else 0

/-- `scalarOperator[t]`, `MesonCorrelator.cpp` 120-136. -/
def scalarOperator [Fintype S] (T : Torus S) (P : Fin 4 → Fin N → SField S N) (t : ℕ) : ℝ :=
  ∑ α, ∑ β, ∑ c, ∑ x, if T.coord x 3 = t then ∑ mu, ∑ nu, ∑ d,
    (tabGamma5Gamma 3 mu nu * tabGamma5Gamma 3 α β * starRingEnd ℂ (P α c x mu d) * P β c x nu d).re else 0

/-- `PSOperator[t]`, `MesonCorrelator.cpp` 138-157. -/
def psOperator [Fintype S] (T : Torus S) (P : Fin 4 → Fin N → SField S N) (t : ℕ) : ℝ :=
  ∑ α, ∑ β, ∑ c, ∑ x, if T.coord x 3 = t then ∑ mu, ∑ d,
    (0 - tabGamma 3 α β * starRingEnd ℂ (P α c x mu d) * P β c x mu d
      + tabGamma 3 α β * starRingEnd ℂ (P mu c x α d) * P mu c x β d).re else 0

/-- What is written, `MesonCorrelator.cpp` 166-206. -/
structure MesonOutput where
  pion : List ℝ
  scalar : List ℝ
  ps : List ℝ
  /-- `none` where the divisor is zero. -/
  pcac : List (Option ℝ)

/-- `MesonCorrelator.cpp` 166-206, with the hopping parameter `κ` of the operator. -/
def mesonOutput [Fintype S] (T : Torus S) (κ : ℝ) (P : Fin 4 → Fin N → SField S N) : MesonOutput :=
  let factor := 4 * κ * κ
  { pion := (List.range (T.ext 3)).map fun t => factor * pionOperator T P t
    scalar := (List.range (T.ext 3)).map fun t => factor * scalarOperator T P t
    ps := (List.range (T.ext 3)).map fun t => factor * psOperator T P t
    pcac := (List.range (T.ext 3)).map fun t =>
      let mindex := if t = 0 then T.ext 3 - 1 else t - 1
      let pindex := if t = T.ext 3 - 1 then 0 else t + 1
      if 4 * pionOperator T P t = 0 then none
      else some ((psOperator T P mindex - psOperator T P pindex) / (4 * pionOperator T P t)) }

/-- The connected part of `MesonCorrelator::execute`, `MesonCorrelator.cpp` 22-206, without smearing. `solve U b` is what the inverter returns for
the operator on the links `U` and the source `b`; `overlap U` belongs to `constructPropagator`. -/
def mesonExecute [Fintype S] (T : Torus S) (κ : ℝ) (solve : GField S N → SField S N → SField S N)
    (overlap : GField S N → Option (SField S N → SField S N)) (origin : ℕ) (U : GField S N) : MesonOutput :=
  let V := rotateLinks T origin U
  mesonOutput T κ fun α c => constructPropagator (overlap V) (solve V (pointSource T α c))

/-! ### Noise -/

/-- The random integers of one noise vector, in the places where they are used. -/
abbrev Noise (S : Type) (N : ℕ) := S → Fin 4 → Fin N → Bool

/-- `StochasticEstimator::generateRandomNoise`, `StochasticEstimator.h` 18-35: `false` is the integer 0. -/
def randomNoise (r : Noise S N) : SField S N := fun x => Matrix.of fun mu i => if r x mu i = false then -1 else 1

/-- One pass of the loop of `ChiralCondensate::execute`, `ChiralCondensate.cpp` 85-119: the condensate, its pseudoscalar partner, the norm of the
pion and the connected susceptibility, for an operator that is not one of the overlap operators. `solve` is the inverter. -/
def condensatePass [Fintype S] (solve : SField S N → SField S N) (r : Noise S N) : ℂ × ℂ × ℂ × ℂ :=
  let noise := randomNoise r
  let tmp := solve noise
  (latticeDot noise tmp / Fintype.card S, latticeGamma5Dot noise tmp / Fintype.card S, latticeDot tmp tmp / Fintype.card S,
    latticeDot noise (solve tmp) / Fintype.card S)

/-- `StochasticEstimator::mean`, `StochasticEstimator.h` 52-59: `none` for the quotient 0/0. -/
def listMean (v : List ℂ) : Option ℂ := if v.length = 0 then none else some (v.foldl (· + ·) 0 / v.length)

/-- What `ChiralCondensate` writes, real and imaginary part as one number, `ChiralCondensate.cpp` 84-160, for the random numbers `rs` of the
passes. -/
def condensateExecute [Fintype S] (solve : SField S N → SField S N) (rs : List (Noise S N)) : Option ℂ × Option ℂ × Option ℂ × Option ℂ :=
  let passes := rs.map (condensatePass solve)
  (listMean (passes.map fun p => p.1), listMean (passes.map fun p => p.2.1), listMean (passes.map fun p => p.2.2.1),
    listMean (passes.map fun p => p.2.2.2))

/-- One pass of the disconnected part of `MesonCorrelator::execute`, `MesonCorrelator.cpp` 219-241, at time `t`: eta and scalar. -/
def disconnectedOperator [Fintype S] (T : Torus S) (solve : SField S N → SField S N) (r : Fin 4 → Noise S N) (t : ℕ) : ℂ × ℂ :=
  (∑ x, if T.coord x 3 = t then ∑ mu, ∑ nu : Fin 4,
      (if nu.val < 2 then ∑ c, starRingEnd ℂ (randomNoise (r mu) x nu c) * solve (randomNoise (r mu)) x nu c
        else -∑ c, starRingEnd ℂ (randomNoise (r mu) x nu c) * solve (randomNoise (r mu)) x nu c) else 0,
   ∑ x, if T.coord x 3 = t then ∑ mu, ∑ nu : Fin 4, ∑ c, starRingEnd ℂ (randomNoise (r mu) x nu c) * solve (randomNoise (r mu)) x nu c else 0)

/-- What is written for one pass of the disconnected part, `MesonCorrelator.cpp` 244-264: the times from 1 on. -/
def disconnectedOutput [Fintype S] (T : Torus S) (κ : ℝ) (solve : SField S N → SField S N) (r : Fin 4 → Noise S N) : List ℂ × List ℂ :=
  ((List.range' 1 (T.ext 3 - 1)).map fun t => 2 * κ * (disconnectedOperator T solve r t).1 / ((T.ext 0 * T.ext 1 * T.ext 2 : ℕ) : ℂ),
   (List.range' 1 (T.ext 3 - 1)).map fun t => 2 * κ * (disconnectedOperator T solve r t).2 / ((T.ext 0 * T.ext 1 * T.ext 2 : ℕ) : ℂ))

end

end Leonard
