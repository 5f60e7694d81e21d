import Verif.Rep.Props
import Verif.Hmc.Model

/-!
# Scalar fields

Sources: `/repo/source/actions/ScalarAction.cpp`, `MultiScalarAction.cpp`,
`/repo/source/scalar_updaters/MetropolisScalarUpdater.cpp`, `/repo/source/hmc_updaters/HiggsGaugeHMCUpdater.cpp`.

Exact arithmetic; the lattice of all processes is one lattice (C06, C08). The links of the adjoint representation are those of
`ConvertLattice` for the gauge links, as `Environment::synchronize` sets them; with open boundary conditions they differ from this after the first
call, which is not modelled. The numbers of fields are the natural numbers `nA` and `nF`.
-/

set_option autoImplicit false

namespace Leonard

open Matrix

noncomputable section

variable {S : Type} {N nA nF : ℕ}

/-- `AdjointRealVector`: one real number for each generator. -/
abbrev AdjVec (N : ℕ) := Fin (lieGenerators N).length → ℝ

/-- `FundamentalVector`. -/
abbrev FundVec (N : ℕ) := Fin N → ℂ

/-- `environment.adjoint_scalar_fields` and `environment.fundamental_scalar_fields`. -/
abbrev Scalars (S : Type) (N nA nF : ℕ) := (Fin nA → S → AdjVec N) × (Fin nF → S → FundVec N)

/-- The members of `ScalarAction`, `ScalarAction.cpp` 7. -/
structure ScalarCouplings where
  massAdjoint : ℝ
  massFundamental : ℝ
  lambdaFundamental : ℝ
  lambdaAdjoint : ℝ
  lambdaMixed : ℝ
  lambda8 : ℝ

/-- `vector_dot` for real vectors. -/
def realDot {ι : Type} [Fintype ι] (v w : ι → ℝ) : ℝ := ∑ c, v c * w c

/-- `vector_dot` for complex vectors, the first argument conjugated. -/
def complexDot {ι : Type} [Fintype ι] (v w : ι → ℂ) : ℂ := ∑ c, starRingEnd ℂ (v c) * w c

/-- A real vector where a complex one is expected. -/
def ofRealVec {ι : Type} (v : ι → ℝ) : ι → ℂ := fun c => (v c : ℂ)

/-- `getAdjointLattice()`. -/
def adjointLinks (U : GField S N) (s : S) (μ : Fin 4) : Matrix (Fin (lieGenerators N).length) (Fin (lieGenerators N).length) ℝ :=
  toAdjoint (gens N) (U s μ)

/-- `getKineticCoupling` for adjoint fields, `ScalarAction.cpp` 11-22. -/
def adjointCoupling (T : Torus S) (U : GField S N) (φ : S → AdjVec N) (s : S) : AdjVec N :=
  ∑ μ, (-(adjointLinks U s μ *ᵥ φ (T.sup μ s)) - (adjointLinks U (T.sdn μ s) μ)ᵀ *ᵥ φ (T.sdn μ s))

/-- `getKineticCoupling` for fundamental fields, `ScalarAction.cpp` 24-35. -/
def fundamentalCoupling (T : Torus S) (U : GField S N) (φ : S → FundVec N) (s : S) : FundVec N :=
  ∑ μ, (-(U s μ *ᵥ φ (T.sup μ s)) - (U (T.sdn μ s) μ)ᴴ *ᵥ φ (T.sdn μ s))

/-- `potentialEnergy`, `ScalarAction.cpp` 53-77 and 95-119 (the same text). -/
def potentialEnergy (c : ScalarCouplings) (a : Fin nA → AdjVec N) (f : Fin nF → FundVec N) : ℝ :=
  let squareFundamental := ∑ i, (complexDot (f i) (f i)).re
  let squareAdjoint := ∑ i, realDot (a i) (a i)
  let quarticTraced := ∑ j, (c.lambda8 / 24) * (∑ i, (complexDot (ofRealVec (a i)) (adjointGenerator (gens N) j *ᵥ ofRealVec (a i))).re)
    * (∑ i, (complexDot (ofRealVec (a i)) (adjointGenerator (gens N) j *ᵥ ofRealVec (a i))).re)
  let massTerm := (c.massAdjoint / 2 - 8) * squareAdjoint + (c.massFundamental / 2 - 8) * squareFundamental
  massTerm + quarticTraced + (c.lambdaFundamental / 24) * squareFundamental * squareFundamental
    + (c.lambdaAdjoint / 24) * squareAdjoint * squareAdjoint + (c.lambdaMixed / 24) * squareAdjoint * squareFundamental

/-- `energy` at a site with the coupling of an adjoint field, `ScalarAction.cpp` 37-43 and 79-85. -/
def siteEnergyAdjoint (c : ScalarCouplings) (a : Fin nA → AdjVec N) (f : Fin nF → FundVec N) (coupling : AdjVec N) (i : Fin nA) : ℝ :=
  -realDot coupling (a i) + potentialEnergy c a f

/-- `energy` at a site with the coupling of a fundamental field, `ScalarAction.cpp` 45-51 and 87-93. -/
def siteEnergyFundamental (c : ScalarCouplings) (a : Fin nA → AdjVec N) (f : Fin nF → FundVec N) (coupling : FundVec N) (i : Fin nF) : ℝ :=
  -(complexDot coupling (f i)).re + potentialEnergy c a f

/-- `scalarFieldsAtSite`, `ScalarAction.cpp` 168-206. -/
def atSite {A : Type} {n : ℕ} (φ : Fin n → S → A) (s : S) : Fin n → A := fun i => φ i s

/-- `energy(env)`, `ScalarAction.cpp` 121-166. -/
def scalarEnergy [Fintype S] (c : ScalarCouplings) (T : Torus S) (U : GField S N) (Φ : Scalars S N nA nF) : ℝ :=
  (∑ i, ∑ μ, ∑ s, ∑ k, Φ.1 i s k * (adjointLinks U s μ *ᵥ Φ.1 i (T.sup μ s)) k)
  + (∑ i, ∑ μ, ∑ s, ∑ k, (starRingEnd ℂ (Φ.2 i s k) * (U s μ *ᵥ Φ.2 i (T.sup μ s)) k).re)
  + ∑ s, potentialEnergy c (atSite Φ.1 s) (atSite Φ.2 s)

/-- `updateForce`, `ScalarAction.cpp` 208-259. -/
def scalarUpdateForce (T : Torus S) (Φ : Scalars S N nA nF) (U : GField S N) : GField S N := fun s μ =>
  0 + (∑ j, ∑ i, (⟨0, (complexDot (ofRealVec (Φ.1 j (T.sup μ s)))
      ((((adjointLinks U s μ).map (fun x : ℝ => (x : ℂ)))ᴴ * adjointGenerator (gens N) i) *ᵥ ofRealVec (Φ.1 j s))).im⟩ : ℂ) • gens N i)
    + ∑ j, ∑ i, ((0.5 * complexDot (Φ.2 j (T.sup μ s)) (((U s μ)ᴴ * gens N i) *ᵥ Φ.2 j s)) • gens N i
      - (0.5 * complexDot (Φ.2 j s) ((gens N i * U s μ) *ᵥ Φ.2 j (T.sup μ s))) • gens N i)

/-- `force`, `ScalarAction.cpp` 261-294. -/
def scalarForce (T : Torus S) (Φ : Scalars S N nA nF) (U : GField S N) (s : S) (μ : Fin 4) : Mat N :=
  0 + (∑ j, ∑ i, ((0.5 * complexDot (ofRealVec (Φ.1 j (T.sup μ s)))
        ((((adjointLinks U s μ).map (fun x : ℝ => (x : ℂ)))ᴴ * adjointGenerator (gens N) i) *ᵥ ofRealVec (Φ.1 j s))) • gens N i
      - (0.5 * complexDot (ofRealVec (Φ.1 j s))
        ((adjointGenerator (gens N) i * (adjointLinks U s μ).map (fun x : ℝ => (x : ℂ))) *ᵥ ofRealVec (Φ.1 j (T.sup μ s)))) • gens N i))
    + ∑ j, ∑ i, ((0.5 * complexDot (Φ.2 j (T.sup μ s)) (((U s μ)ᴴ * gens N i) *ᵥ Φ.2 j s)) • gens N i
      - (0.5 * complexDot (Φ.2 j s) ((gens N i * U s μ) *ᵥ Φ.2 j (T.sup μ s))) • gens N i)

/-! ### The Metropolis updater -/

/-- The random numbers of one hit: two normal numbers of variance one half and a number uniform in `[0,1)`. An adjoint hit uses only the first of
the normal numbers; the uniform number is not drawn when the energy decreases. All numbers are independent, so which of them are drawn without being
used does not matter. -/
abbrev HitDraw := (ℝ × ℝ) × ℝ

/-- A hit of the loops `MetropolisScalarUpdater.cpp` 100-187: site, field, trial and component. -/
inductive Hit (S : Type) (N nA nF trials : ℕ) where
  | adjoint (s : S) (i : Fin nA) (trial : Fin trials) (k : Fin (lieGenerators N).length)
  | fundamental (s : S) (i : Fin nF) (trial : Fin trials) (k : Fin N)
deriving DecidableEq, Fintype

variable {trials : ℕ}

/-- `(*adjoint_scalar_fields_on_site[i])[k] += x`. -/
def addAdjoint [DecidableEq S] (Φ : Scalars S N nA nF) (i : Fin nA) (s : S) (k : Fin (lieGenerators N).length) (x : ℝ) : Scalars S N nA nF :=
  (fun i' s' k' => if i' = i ∧ s' = s ∧ k' = k then Φ.1 i' s' k' + x else Φ.1 i' s' k', Φ.2)

/-- `(*fundamental_scalar_fields_on_site[i])[k] += x`. -/
def addFundamental [DecidableEq S] (Φ : Scalars S N nA nF) (i : Fin nF) (s : S) (k : Fin N) (x : ℂ) : Scalars S N nA nF :=
  (Φ.1, fun i' s' k' => if i' = i ∧ s' = s ∧ k' = k then Φ.2 i' s' k' + x else Φ.2 i' s' k')

/-- The body of the loops `MetropolisScalarUpdater.cpp` 112-142. -/
def adjointHit [DecidableEq S] (c : ScalarCouplings) (epsilon : ℝ) (coupling : AdjVec N) (s : S) (i : Fin nA)
    (k : Fin (lieGenerators N).length) (d : HitDraw) (Φ : Scalars S N nA nF) : Scalars S N nA nF :=
  let proposal := epsilon * d.1.1
  let oldAction := siteEnergyAdjoint c (atSite Φ.1 s) (atSite Φ.2 s) coupling i
  let Φ' := addAdjoint Φ i s k proposal
  let newAction := siteEnergyAdjoint c (atSite Φ'.1 s) (atSite Φ'.2 s) coupling i
  if newAction - oldAction < 0 then Φ'
  else if d.2 < Real.exp (-(newAction - oldAction)) then Φ'
  else addAdjoint Φ' i s k (-proposal)

/-- The body of the loops `MetropolisScalarUpdater.cpp` 154-184. -/
def fundamentalHit [DecidableEq S] (c : ScalarCouplings) (epsilon : ℝ) (coupling : FundVec N) (s : S) (i : Fin nF) (k : Fin N)
    (d : HitDraw) (Φ : Scalars S N nA nF) : Scalars S N nA nF :=
  let proposal := (epsilon : ℂ) * ⟨d.1.1, d.1.2⟩
  let oldAction := siteEnergyFundamental c (atSite Φ.1 s) (atSite Φ.2 s) coupling i
  let Φ' := addFundamental Φ i s k proposal
  let newAction := siteEnergyFundamental c (atSite Φ'.1 s) (atSite Φ'.2 s) coupling i
  if newAction - oldAction < 0 then Φ'
  else if d.2 < Real.exp (-(newAction - oldAction)) then Φ'
  else addFundamental Φ' i s k (-proposal)

/-- `for field_index < aNf`, `MetropolisScalarUpdater.cpp` 105-145: the coupling is computed once, before the trials. -/
def updateAdjointAt [DecidableEq S] (c : ScalarCouplings) (epsilon : ℝ) (T : Torus S) (U : GField S N) (d : Hit S N nA nF trials → HitDraw)
    (s : S) (i : Fin nA) (Φ : Scalars S N nA nF) : Scalars S N nA nF :=
  let coupling := adjointCoupling T U (Φ.1 i) s
  (List.finRange trials).foldl (fun Φ trial => (List.finRange (lieGenerators N).length).foldl
    (fun Φ k => adjointHit c epsilon coupling s i k (d (.adjoint s i trial k)) Φ) Φ) Φ

/-- `for field_index < fNf`, `MetropolisScalarUpdater.cpp` 147-187. -/
def updateFundamentalAt [DecidableEq S] (c : ScalarCouplings) (epsilon : ℝ) (T : Torus S) (U : GField S N) (d : Hit S N nA nF trials → HitDraw)
    (s : S) (i : Fin nF) (Φ : Scalars S N nA nF) : Scalars S N nA nF :=
  let coupling := fundamentalCoupling T U (Φ.2 i) s
  (List.finRange trials).foldl (fun Φ trial => (List.finRange N).foldl
    (fun Φ k => fundamentalHit c epsilon coupling s i k (d (.fundamental s i trial k)) Φ) Φ) Φ

/-- The body of the loop over the sites, `MetropolisScalarUpdater.cpp` 104-188. -/
def updateSite [DecidableEq S] (c : ScalarCouplings) (epsilon : ℝ) (T : Torus S) (U : GField S N) (d : Hit S N nA nF trials → HitDraw)
    (Φ : Scalars S N nA nF) (s : S) : Scalars S N nA nF :=
  (List.finRange nF).foldl (fun Φ i => updateFundamentalAt c epsilon T U d s i Φ)
    ((List.finRange nA).foldl (fun Φ i => updateAdjointAt c epsilon T U d s i Φ) Φ)

/-- `globalIndexX + globalIndexY + globalIndexZ + globalIndexT`. -/
def coordSum (T : Torus S) (s : S) : ℕ := T.coord s 0 + T.coord s 1 + T.coord s 2 + T.coord s 3

/-- The sweep of `MetropolisScalarUpdater.cpp` 100-196; `sites` is the order in which the loop visits the sites. -/
def scalarSweep [DecidableEq S] (c : ScalarCouplings) (epsilon : ℝ) (T : Torus S) (U : GField S N) (sites : List S)
    (d : Hit S N nA nF trials → HitDraw) (Φ : Scalars S N nA nF) : Scalars S N nA nF :=
  [0, 1].foldl (fun Φ block => sites.foldl (fun Φ s => if coordSum T s % 2 = block then updateSite c epsilon T U d Φ s else Φ) Φ) Φ

/-- `execute`, `MetropolisScalarUpdater.cpp` 58-203, with the numbers of fields of the options; the numbers of fields of the environment are `nA` and
`nF`. The acceptance rate that is printed is not modelled. -/
def scalarExecute [DecidableEq S] (optA optF : ℕ) (c : ScalarCouplings) (epsilon : ℝ) (T : Torus S) (U : GField S N) (sites : List S)
    (d : Hit S N nA nF trials → HitDraw) (Φ : Scalars S N nA nF) : Outcome (Scalars S N nA nF) :=
  if optA ≠ nA then .exit 109
  else if optF ≠ nF then .exit 107
  else .ok (scalarSweep c epsilon T U sites d Φ)

/-! ### Hybrid Monte Carlo with scalar fields -/

/-- The forces of `HiggsGaugeHMCUpdater.cpp` 82-84, in this order. -/
inductive HiggsForce where
  | scalar
  | gauge
  deriving DecidableEq

/-- The field of a force; the scalar fields do not change. -/
def higgsForce (T : Torus S) (Φ : Scalars S N nA nF) (gaugeForce : GField S N → GField S N) : HiggsForce → GField S N → GField S N
  | .scalar, U => scalarUpdateForce T Φ U
  | .gauge, U => gaugeForce U

/-- The numbers of steps of `HiggsGaugeHMCUpdater.cpp` 71-77; `resize(2)` keeps the first numbers and adds zeros. -/
def higgsSteps (steps : List ℕ) : List ℕ :=
  if steps.length ≠ 2 then
    [if steps.getD 0 0 = 0 then 1 else steps.getD 0 0, if steps.getD 1 0 = 0 then 1 else steps.getD 1 0]
  else steps

/-- `HiggsGaugeHMCUpdater::execute`, `HiggsGaugeHMCUpdater.cpp` 21-148, with the couplings `c` of the first call and the numbers of fields of the
options; the momenta `P` have been drawn. The result is the configuration after the sweep. -/
def higgsGaugeExecute [Fintype S] (E : ℝ → Mat N → Mat N → Mat N) (optA optF : ℕ) (c : ScalarCouplings) (T : Torus S)
    (gaugeEnergy : GField S N → ℝ) (gaugeForce : GField S N → GField S N) (integrator : String) (steps : List ℕ) (t : ℝ)
    (Φ : Scalars S N nA nF) (P U : GField S N) (u : ℝ) : Outcome (GField S N) :=
  if optA ≠ nA then .exit 97
  else if optF ≠ nF then .exit 97
  else mdIntegrate integrator [HiggsForce.scalar, HiggsForce.gauge] (higgsSteps steps) t >>= fun l =>
    let new := mdRun E (higgsForce T Φ gaugeForce) l (U, P)
    .ok (if metropolisLocal (some (momentaEnergy P + gaugeEnergy U + scalarEnergy c T U Φ))
      (some (momentaEnergy new.2 + gaugeEnergy new.1 + scalarEnergy c T new.1 Φ)) u then new.1 else U)

end

end Leonard
