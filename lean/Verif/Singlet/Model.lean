import Verif.Meson.Model

/-!
# The operators of the singlet mesons

Model of `fermion_measurements/SingletOperators.cpp`, `dirac_operators/HoppingOperator.cpp` and `dirac_operators/GammaOperators.cpp` on the global lattice with
exact numbers. The sums over threads and processes are sums over the sites.
-/

set_option autoImplicit false

namespace Leonard

open Matrix

noncomputable section

variable {S : Type} {N : ℕ}

/-- `HoppingOperator::apply`, `HoppingOperator.cpp:7-16`. -/
def hoppingApply (D : SField S N → SField S N) (input : SField S N) : SField S N := fun x => Matrix.of fun mu n => D input x mu n - input x mu n

/-- `GammaOperators::multiply`, `GammaOperators.cpp:5-15`. -/
def gammaApply (v : Fin 16) (input : SField S N) : SField S N := fun x => Matrix.of fun mu n => ∑ nu, tabChroma v mu nu * input x nu n

/-- `inverseRandomSources[i]` before pass `hopping` of the loop, `SingletOperators.cpp:51-54, 120-123`. -/
def hoppedInverse (D solve : SField S N → SField S N) (r : Noise S N) : ℕ → SField S N
  | 0 => solve (randomNoise r)
  | h + 1 => hoppingApply D (hoppedInverse D solve r h)

/-- `disconnectedResults[source][v]` in pass `hopping`, `SingletOperators.cpp:62-71`. -/
def singletResult [Fintype S] (D solve : SField S N → SField S N) (κ : ℝ) (h : ℕ) (v : Fin 16) (r : Noise S N) : ℂ :=
  latticeDot (randomNoise r) (gammaApply v (hoppedInverse D solve r h)) * (2 * κ)

/-- What is written under `disconnected_operators` (first entry) and `disconnected_operators_hopping_h_dirac_inverse`: for each of the nine passes and
sixteen matrices the results of the sources, `SingletOperators.cpp:59-118`. -/
def singletInverseOutput [Fintype S] (D solve : SField S N → SField S N) (κ : ℝ) (rs : List (Noise S N)) : List (List (List ℂ)) :=
  (List.range 9).map fun h => (List.finRange 16).map fun v => rs.map (singletResult D solve κ h v)

/-- `previous` before pass `hopping = k + 1` of the loop, `SingletOperators.cpp:148-152`. -/
def hoppedSource (D : SField S N → SField S N) (r : Noise S N) : ℕ → SField S N
  | 0 => randomNoise r
  | k + 1 => hoppingApply D (hoppedSource D r k)

/-- `result`, `SingletOperators.cpp:162-168`. -/
def hoppingResult [Fintype S] (D : SField S N → SField S N) (κ : ℝ) (k : ℕ) (v : Fin 16) (r : Noise S N) : ℂ :=
  2 * κ * latticeDot (randomNoise r) (gammaApply v (hoppedSource D r k))

/-- What is written under `disconnected_operators_hopping_k` for `k` from 1 to 7: for each source the sixteen results, `SingletOperators.cpp:127-202`. -/
def singletHoppingOutput [Fintype S] (D : SField S N → SField S N) (κ : ℝ) (rs : List (Noise S N)) : List (List (List ℂ)) :=
  (List.range' 1 7).map fun k => rs.map fun r => (List.finRange 16).map fun v => hoppingResult D κ k v r

end

end Leonard
