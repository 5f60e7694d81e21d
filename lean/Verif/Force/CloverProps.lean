import Verif.Force.CloverForce
import Verif.Force.OrderProps

/-!
# C68: the force of clover improved fermions is the gradient of their energy
-/

set_option autoImplicit false

namespace Leonard

open Matrix Filter Asymptotics
open scoped ContDiff Topology Matrix.Norms.Operator

variable {S : Type} [Fintype S] {N M : ℕ}

/-- The change of a matrix element of a Dirac operator along a curve of links. -/
theorem IsDirac.hasDerivAt_rdot {mul : GField S M → SField S M → SField S M} {A : GField S M → Op (SField S M)} (hA : IsDirac mul A)
    {c : ℝ → GField S M} {V : GField S M} (hc : HasDerivAt c V 0) (X Y : SField S M) :
    HasDerivAt (fun ε : ℝ => (latticeDot X (mul (c ε) Y)).re) (rdot X (fderiv ℝ A (c 0) V Y)) 0 := by
  have h1 := (hA.family.hasFDerivAt (c 0)).comp_hasDerivAt (0 : ℝ) hc
  have h2 := h1.clm_apply (hasDerivAt_const (0 : ℝ) Y)
  have h3 := (rdotL X).hasFDerivAt.comp_hasDerivAt (0 : ℝ) h2
  rw [map_zero, add_zero] at h3
  have e : (fun ε : ℝ => (latticeDot X (mul (c ε) Y)).re) = fun ε => rdotL X (A (c ε) Y) := by
    funext ε
    rw [hA.apply, rdotL_apply]
    rfl
  rw [e]
  exact h3

/-- **C68**, the operator: the derivative of `ImprovedFermionForce` is the change of the clover improved operator with one link.  For all
fields `X`, `Y`, all links that are unitary or cut, all hopping and clover coefficients and all lattices, moving the link along the Hermitian
generator `t` changes `Re ⟨X, Q Y⟩` at a rate that is minus half the imaginary part of `tr(D t U)`, `D` being the matrix of the program. -/
theorem C68_operator [DecidableEq S] (T : Torus S) (κ csw : ℝ) (L : GField S M) (X Y : SField S M) (s : S) (μ : Fin 4) (t : Mat M)
    (hL : ∀ s μ, L s μ * (L s μ)ᴴ = 1 ∨ L s μ = 0) (ht : tᴴ = t) :
    HasDerivAt (fun ε : ℝ => (latticeDot X (improvedMul T
        (setLink L s μ (NormedSpace.exp (ε • (Complex.I • t)) * L s μ)) κ csw true Y)).re)
      (-(1 / 2) * (trace (improvedDerivative T κ csw L X Y s μ * t * L s μ)).im) 0 := by
  have hd := clover_isLinkDerivative T κ csw L X Y s μ t hL ht
  have hline : HasDerivAt (fun ε : ℝ => setLink L s μ (NormedSpace.exp (ε • (Complex.I • t)) * L s μ))
      (oneLink s μ (Complex.I • (t * L s μ))) 0 := by
    refine hasDerivAt_pi.2 fun s' => hasDerivAt_pi.2 fun μ' => ?_
    by_cases h : s' = s ∧ μ' = μ
    · obtain ⟨rfl, rfl⟩ := h
      rw [oneLink_same]
      simp only [setLink, and_self, if_true]
      refine HasDerivAt.congr_deriv ((hasDerivAt_exp_smul_const (𝕂 := ℝ) (Complex.I • t) 0).mul_const (L s' μ')) ?_
      simp [Matrix.smul_mul]
    · rw [oneLink_ne _ h]
      simp only [setLink, h, if_false]
      exact hasDerivAt_const _ _
  have h0 : setLink L s μ (NormedSpace.exp ((0 : ℝ) • (Complex.I • t)) * L s μ) = L := by
    funext s' μ'
    unfold setLink
    split
    · rename_i h
      rw [h.1, h.2, zero_smul, NormedSpace.exp_zero, one_mul]
    · rfl
  refine HasDerivAt.congr_deriv ((clover_isDirac (M := M) T κ csw).hasDerivAt_rdot hline X Y) ?_
  rw [h0, hd]
  ring

/-- **C68**, any number of flavours: with exact solutions of the shifted equations and positive shifts, the energy of the pseudofermions of
the clover improved operator plus that of the momenta does not change along the force of the program, for all boundary conditions, at all
links that are unitary or cut and for all momenta; and the force is in the Lie algebra. -/
theorem C68_nflavor (ρ : FermionRep N M) (hρ : ρ.Lawful) (T : Torus S) (κ csw : ℝ) (bc : String)
    (solveShift : GField S M → ℝ → SField S M → SField S M) (ps : List (PseudoFermion S M))
    (hs : ∀ p ∈ ps, ∀ β ∈ p.betas, 0 < β ∧
      ∀ L, improvedMul T L κ csw true (improvedMul T L κ csw true (solveShift L β p.φ)) + β • solveShift L β p.φ = p.φ)
    (U P : GField S N) (hU : ∀ s μ, U s μ * (U s μ)ᴴ = 1 ∨ U s μ = 0) (hopen : bc = "open" → switchOpenBc T.ext T.coord U = U)
    (hP : ∀ s μ, IsLie (P s μ)) :
    HasDerivAt (fun t : ℝ => totalEnergy (fun U => nFlavorFermionEnergy solveShift (fermionLinks ρ T bc U) ps)
      (fun s μ => NormedSpace.exp (t • P s μ) * U s μ, fun s μ => P s μ - (t : ℂ) •
        nFlavorUpdateForce ρ T (fun L => improvedMul T L κ csw true) (improvedDerivative T κ csw) solveShift bc (fermionLinks ρ T bc U) U ps s μ)) 0 0 ∧
    ∀ s μ, IsLie (nFlavorUpdateForce ρ T (fun L => improvedMul T L κ csw true) (improvedDerivative T κ csw) solveShift bc
      (fermionLinks ρ T bc U) U ps s μ) :=
  nFlavor_conserves ρ hρ T bc (clover_isDirac T κ csw) (clover_isLinkDerivative T κ csw) solveShift ps hs U P ⟨hU, hopen⟩ hP

/-- **C68**, two flavours with periodic or open boundary conditions, where the clover improved operator is invertible.  Missing: the boundary
conditions with signs, for which it is already false without the clover term (`C55_two_flavor_counterexample`). -/
theorem C68_two_flavor_partial (ρ : FermionRep N M) (hρ : ρ.Lawful) (T : Torus S) (κ csw : ℝ) (bc : String)
    (hbc : bc = "fermion_periodic" ∨ bc = "open") (solve : GField S M → SField S M → SField S M)
    (hs : ∀ L v, Function.Injective (improvedMul T L κ csw true) → improvedMul T L κ csw true (solve L v) = v) (φ : SField S M)
    (U P : GField S N) (hU : ∀ s μ, U s μ * (U s μ)ᴴ = 1 ∨ U s μ = 0) (hopen : bc = "open" → switchOpenBc T.ext T.coord U = U)
    (hinj : Function.Injective (improvedMul T (fermionLinks ρ T bc U) κ csw true)) (hP : ∀ s μ, IsLie (P s μ)) :
    HasDerivAt (fun t : ℝ => totalEnergy (fun U => twoFlavorFermionEnergy solve (fermionLinks ρ T bc U) φ)
      (fun s μ => NormedSpace.exp (t • P s μ) * U s μ, fun s μ => P s μ - (t : ℂ) •
        twoFlavorUpdateForce ρ (improvedDerivative T κ csw) solve (fermionLinks ρ T bc U) U φ s μ)) 0 0 ∧
    ∀ s μ, IsLie (twoFlavorUpdateForce ρ (improvedDerivative T κ csw) solve (fermionLinks ρ T bc U) U φ s μ) := by
  have hf : ∀ s μ, forceFactor T bc s μ = 1 := by
    intro s μ
    rcases hbc with rfl | rfl
    · rfl
    · rfl
  have h := twoFlavor_deriv ρ hρ T bc (clover_isDirac T κ csw) (clover_isLinkDerivative T κ csw) solve hs φ U P ⟨hU, hopen⟩ hinj hP
  refine ⟨HasDerivAt.congr_deriv h (Finset.sum_eq_zero fun s _ => Finset.sum_eq_zero fun μ _ => by rw [hf]; ring), fun s μ => ?_⟩
  rw [twoFlavor_force_eq ρ hρ T bc (clover_isDirac T κ csw) (clover_isLinkDerivative T κ csw) solve φ U hU hopen hinj (fun v => hs _ v hinj), hf, one_smul]
  exact isLie_gradField ρ _ _ s μ

/-- **C68**, the order of the integrator with any number of flavours: the forces on the time scales chosen by the program, one pseudofermion
action per level, belong to the gauge energy plus the energies of the levels used; the energy error of a trajectory is of the order of the
integrator. -/
theorem C68_nflavor_order (eig : EigenSolver N) (he : eig.Correct) (ρ : FermionRep N M) (hρ : ρ.Lawful) (T : Torus S) (κ csw : ℝ) (bc : String)
    (solveShift : GField S M → ℝ → SField S M → SField S M) (ps : ℕ → List (PseudoFermion S M))
    (hs : ∀ k, ∀ p ∈ ps k, ∀ β ∈ p.betas, 0 < β ∧
      ∀ L, improvedMul T L κ csw true (improvedMul T L κ csw true (solveShift L β p.φ)) + β • solveShift L β p.φ = p.φ)
    (gaugeEnergy : GField S N → ℝ) (gaugeForce : GField S N → GField S N)
    (hg : Conservative Set.univ gaugeEnergy (fun _ : Unit => gaugeForce) [()])
    (name : String) (p : ℕ) (hname : integratorOrder name = some p) (h4 : name ≠ "fourth_omelyan") (levels : ℕ) (steps : List ℕ)
    (fs : List NFlavorForce × List ℕ) (hfs : nFlavorForces levels steps = .ok fs) (l : ℝ → List (MdOp NFlavorForce))
    (hl : ∀ t, mdIntegrate name fs.1 fs.2 t = .ok (l t)) (U P : GField S N) (hU : ∀ s μ, U s μ * (U s μ)ᴴ = 1 ∨ U s μ = 0)
    (hopen : bc = "open" → switchOpenBc T.ext T.coord U = U) (hP : ∀ s μ, IsLie (P s μ)) :
    let energy := fun U => gaugeEnergy U + ∑ k ∈ Finset.range (levelsUsed steps.length),
      nFlavorFermionEnergy solveShift (fermionLinks ρ T bc U) (ps k)
    let force := nFlavorForce (fun k U => nFlavorUpdateForce ρ T (fun L => improvedMul T L κ csw true) (improvedDerivative T κ csw) solveShift bc
      (fermionLinks ρ T bc U) U (ps k)) gaugeForce
    (fun t : ℝ => totalEnergy energy (mdRun (eigenLink eig) force (l t) (U, P)) - totalEnergy energy (U, P)) =O[𝓝 0] fun t => t ^ (p + 1) :=
  nFlavor_order eig he ρ hρ T (clover_isDirac T κ csw) (clover_isLinkDerivative T κ csw) bc solveShift ps hs gaugeEnergy gaugeForce hg name p hname h4 levels
    steps fs hfs l hl U P hU hopen hP

/-- **C68**, the order of the integrator with two flavours, periodic or open boundary conditions and an invertible clover improved operator at the start.
Missing: the boundary conditions with signs (`C55_two_flavor_counterexample`). -/
theorem C68_two_flavor_order_partial (eig : EigenSolver N) (he : eig.Correct) (ρ : FermionRep N M) (hρ : ρ.Lawful) (T : Torus S) (κ csw : ℝ)
    (bc : String) (hbc : bc = "fermion_periodic" ∨ bc = "open") (solve : GField S M → SField S M → SField S M)
    (hs : ∀ L v, Function.Injective (improvedMul T L κ csw true) → improvedMul T L κ csw true (solve L v) = v) (φ : SField S M)
    (gaugeEnergy : GField S N → ℝ) (gaugeForce : GField S N → GField S N)
    (hg : Conservative Set.univ gaugeEnergy (fun _ : Unit => gaugeForce) [()])
    (name : String) (p : ℕ) (hname : integratorOrder name = some p) (h4 : name ≠ "fourth_omelyan") (steps : List ℕ)
    (l : ℝ → List (MdOp TwoFlavorForce)) (hl : ∀ t, mdIntegrate name (twoFlavorForces steps).1 (twoFlavorForces steps).2 t = .ok (l t))
    (U P : GField S N) (hU : ∀ s μ, U s μ * (U s μ)ᴴ = 1 ∨ U s μ = 0) (hopen : bc = "open" → switchOpenBc T.ext T.coord U = U)
    (hinj : Function.Injective (improvedMul T (fermionLinks ρ T bc U) κ csw true)) (hP : ∀ s μ, IsLie (P s μ)) :
    let energy := fun U => gaugeEnergy U + twoFlavorFermionEnergy solve (fermionLinks ρ T bc U) φ
    let force := twoFlavorForce (fun φ U => twoFlavorUpdateForce ρ (improvedDerivative T κ csw) solve (fermionLinks ρ T bc U) U φ) gaugeForce φ
    (fun t : ℝ => totalEnergy energy (mdRun (eigenLink eig) force (l t) (U, P)) - totalEnergy energy (U, P)) =O[𝓝 0] fun t => t ^ (p + 1) :=
  twoFlavor_order eig he ρ hρ T (clover_isDirac T κ csw) (clover_isLinkDerivative T κ csw) bc hbc solve hs φ gaugeEnergy gaugeForce hg name p hname h4 steps
    l hl U P hU hopen hinj hP

/-! ### The hypotheses can be met -/

/-- Exact solutions of the shifted equations exist for every clover coefficient and all positive shifts. -/
example (T : Torus S) (κ csw : ℝ) (ps : List (PseudoFermion S M)) (hb : ∀ p ∈ ps, ∀ β ∈ p.betas, 0 < β) :
    ∃ solveShift : GField S M → ℝ → SField S M → SField S M, ∀ p ∈ ps, ∀ β ∈ p.betas, 0 < β ∧
      ∀ L, improvedMul T L κ csw true (improvedMul T L κ csw true (solveShift L β p.φ)) + β • solveShift L β p.φ = p.φ := by
  have hA := clover_isDirac (M := M) T κ csw
  refine ⟨fun L β φ => Ring.inverse (shiftOp (cloverFamily T κ csw L) β) φ, fun p hp β hβ => ⟨hb p hp β hβ, fun L => ?_⟩⟩
  have h := Ring.mul_inverse_cancel _ (isUnit_shift hA.family L (hb p hp β hβ))
  have h1 := congrArg (fun B : Op (SField S M) => B p.φ) h
  have e : ∀ v, shiftOp (cloverFamily T κ csw L) β v = improvedMul T L κ csw true (improvedMul T L κ csw true v) + β • v := by
    intro v
    rw [← hA.apply, ← hA.apply]
    rfl
  rw [← e]
  exact h1

/-- An exact solver exists, and for some hopping parameter that is not zero the operator is invertible. -/
example (T : Torus S) (csw : ℝ) (L : GField S N) : ∃ κ : ℝ, κ ≠ 0 ∧ Function.Injective (improvedMul T L κ csw true) ∧
    ∃ solve : GField S N → SField S N → SField S N, ∀ L v, Function.Injective (improvedMul T L κ csw true) →
      improvedMul T L κ csw true (solve L v) = v := by
  have happ : ∀ (κ : ℝ) (v : SField S N), cloverFamily T κ csw L v = gamma5Field v + κ • (cloverFamily T 1 csw L v - gamma5Field v) := by
    intro κ v
    rw [(clover_isDirac T κ csw).apply, (clover_isDirac T 1 csw).apply, C33_improved, C33_improved, improvedSpec_eq, improvedSpec_eq]
    simp only [withGamma5, if_true, gamma5Field_add, gamma5Field_smul]
    funext x
    simp only [Pi.add_apply, Pi.smul_apply, Pi.sub_apply, ← Complex.coe_smul]
    push_cast
    module
  have h0 : IsUnit (cloverFamily T 0 csw L) := by
    refine isUnit_of_injective _ fun v w e => ?_
    rw [happ 0 v, happ 0 w, zero_smul, zero_smul, add_zero, add_zero] at e
    rw [← gamma5Field_gamma5Field v, e, gamma5Field_gamma5Field]
  have hc : Continuous fun κ : ℝ => cloverFamily T κ csw L := by
    have e : (fun κ : ℝ => cloverFamily T κ csw L) = fun κ => cloverFamily T 0 csw L + κ • (cloverFamily T 1 csw L - cloverFamily T 0 csw L) := by
      funext κ
      refine ContinuousLinearMap.ext fun v => ?_
      change cloverFamily T κ csw L v = cloverFamily T 0 csw L v + κ • (cloverFamily T 1 csw L v - cloverFamily T 0 csw L v)
      rw [happ κ, happ 0, zero_smul, add_zero]
    rw [e]
    fun_prop
  have hu : ∀ᶠ κ in 𝓝 (0 : ℝ), IsUnit (cloverFamily T κ csw L) := hc.continuousAt.eventually_mem (Units.isOpen.mem_nhds h0)
  have h2 : ∀ᶠ κ : ℝ in 𝓝[≠] 0, κ ≠ 0 := eventually_mem_nhdsWithin
  obtain ⟨κ, h0, hu⟩ := (h2.and (hu.filter_mono nhdsWithin_le_nhds)).exists
  have hA := clover_isDirac (M := N) T κ csw
  refine ⟨κ, h0, (injective_iff_isUnit hA _).2 hu, fun L v => Ring.inverse (cloverFamily T κ csw L) v, fun L v hi => ?_⟩
  have h := Ring.mul_inverse_cancel _ ((injective_iff_isUnit hA L).1 hi)
  rw [← hA.apply]
  exact congrArg (fun B : Op (SField S N) => B v) h

/-- A lattice with links that are not the identity. -/
example : ∀ s μ, (fun _ _ => Complex.I • 1 : GField (BoxSite exExt) 2) s μ * ((fun _ _ => Complex.I • 1 : GField (BoxSite exExt) 2) s μ)ᴴ = 1 := by
  intro s μ
  simp [conjTranspose_smul, smul_smul]

end Leonard
