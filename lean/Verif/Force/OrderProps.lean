import Verif.Force.CounterProps

/-!
# C55: the order of the integrators with fermions
-/

set_option autoImplicit false

namespace Leonard

open Matrix Filter Asymptotics
open scoped ContDiff Topology Matrix.Norms.Operator

variable {S : Type} [Fintype S] {N M : ℕ}

theorem IsGrad.sum {E : ℕ → GField S N → ℝ} {G : ℕ → GField S N → GField S N} (h : ∀ k, IsGrad Set.univ (E k) (G k)) {E0 : GField S N → ℝ}
    {G0 : GField S N → GField S N} (h0 : IsGrad Set.univ E0 G0) (n : ℕ) :
    IsGrad Set.univ (fun U => E0 U + ∑ k ∈ Finset.range n, E k U) (fun U s μ => G0 U s μ + ∑ k ∈ Finset.range n, G k U s μ) := by
  induction n with
  | zero => simpa using h0
  | succ n ih =>
    have := ih.add (h n)
    simpa only [Set.univ_inter, Finset.sum_range_succ, ← add_assoc] using this

/-- The number of levels of the force that take part in the motion, by the number of time scales. -/
def levelsUsed : ℕ → ℕ
  | 3 => 2
  | 4 => 3
  | _ => 1

theorem nFlavorForces_sum {levels : ℕ} {steps : List ℕ} {fs : List NFlavorForce × List ℕ} (h : nFlavorForces levels steps = .ok fs)
    (f : ℕ → GField S N → GField S N) (g : GField S N → GField S N) (U : GField S N) (s : S) (μ : Fin 4) :
    (fs.1.map fun i => nFlavorForce f g i U s μ).sum = g U s μ + ∑ k ∈ Finset.range (levelsUsed steps.length), f k U s μ := by
  unfold nFlavorForces at h
  split at h
  · cases h
  split at h
  · cases h
    simp [nFlavorForce, levelsUsed, add_comm]
  · cases h
    simp [nFlavorForce, levelsUsed, add_comm]
  · split at h
    · cases h
      simp only [nFlavorForce, levelsUsed, List.map_cons, List.map_nil, List.sum_cons, List.sum_nil, List.length_cons, List.length_nil,
        Nat.reduceAdd, Finset.sum_range_succ, Finset.sum_range_zero]
      abel
    · cases h
  · split at h
    · cases h
      simp only [nFlavorForce, levelsUsed, List.map_cons, List.map_nil, List.sum_cons, List.sum_nil, List.length_cons, List.length_nil,
        Nat.reduceAdd, Finset.sum_range_succ, Finset.sum_range_zero]
      abel
    · cases h
  · rename_i h1 h2 h3 h4
    cases h
    have hl : levelsUsed steps.length = 1 := by
      unfold levelsUsed
      split
      · rename_i he
        obtain ⟨a, b, c, rfl⟩ := List.length_eq_three.1 he
        exact absurd rfl (h3 a b c)
      · rename_i he
        match steps, he with
        | [a, b, c, d], _ => exact absurd rfl (h4 a b c d)
      · rfl
    rw [hl]
    simp [nFlavorForce, add_comm]

section
variable {mul : GField S M → SField S M → SField S M} {A : GField S M → Op (SField S M)}
  {deriv : GField S M → SField S M → SField S M → S → Fin 4 → Mat M}

/-- The order of the integrator with any number of flavours, for any Dirac operator with its force. -/
theorem nFlavor_order (eig : EigenSolver N) (he : eig.Correct) (ρ : FermionRep N M) (hρ : ρ.Lawful) (T : Torus S) (hA : IsDirac mul A) (hd : IsLinkDerivative A deriv) (bc : String)
    (solveShift : GField S M → ℝ → SField S M → SField S M) (ps : ℕ → List (PseudoFermion S M))
    (hs : ∀ k, ∀ p ∈ ps k, ∀ β ∈ p.betas, 0 < β ∧
      ∀ L, mul L (mul L (solveShift L β p.φ)) + β • solveShift L β p.φ = p.φ)
    (gaugeEnergy : GField S N → ℝ) (gaugeForce : GField S N → GField S N)
    (hg : Conservative Set.univ gaugeEnergy (fun _ : Unit => gaugeForce) [()])
    (name : String) (p : ℕ) (hname : integratorOrder name = some p) (h4 : name ≠ "fourth_omelyan") (levels : ℕ) (steps : List ℕ)
    (fs : List NFlavorForce × List ℕ) (hfs : nFlavorForces levels steps = .ok fs) (l : ℝ → List (MdOp NFlavorForce))
    (hl : ∀ t, mdIntegrate name fs.1 fs.2 t = .ok (l t)) (U P : GField S N) (hU : ∀ s μ, U s μ * (U s μ)ᴴ = 1 ∨ U s μ = 0)
    (hopen : bc = "open" → switchOpenBc T.ext T.coord U = U) (hP : ∀ s μ, IsLie (P s μ)) :
    let energy := fun U => gaugeEnergy U + ∑ k ∈ Finset.range (levelsUsed steps.length),
      nFlavorFermionEnergy solveShift (fermionLinks ρ T bc U) (ps k)
    let force := nFlavorForce (fun k U => nFlavorUpdateForce ρ T mul deriv solveShift bc
      (fermionLinks ρ T bc U) U (ps k)) gaugeForce
    (fun t : ℝ => totalEnergy energy (mdRun (eigenLink eig) force (l t) (U, P)) - totalEnergy energy (U, P)) =O[𝓝 0] fun t => t ^ (p + 1) := by
  intro energy force
  have hG := hg.isGrad
  have hK := fun k => nFlavor_isGrad ρ hρ T bc hA solveShift (ps k) (hs k) (N := N)
  have hsum := IsGrad.sum hK hG (levelsUsed steps.length)
  have hc : Conservative Set.univ energy (nFlavorForce (fun k U => gradField ρ (fermionLinks ρ T bc U)
      (nFlavorForm A (shiftTerms (ps k)) (fermionLinks ρ T bc U))) gaugeForce) fs.1 := by
    refine hsum.conservative fs.1 ?_ ?_ fun U s μ => nFlavorForces_sum hfs _ _ U s μ
    · intro i
      cases i with
      | action => exact (hK 0).smooth_force.add hG.smooth_force
      | fermion k => exact (hK k).smooth_force
      | gauge => exact hG.smooth_force
    · intro i U s μ
      cases i with
      | action => exact isLie_add ((hK 0).lie U s μ) (hG.lie U s μ)
      | fermion k => exact (hK k).lie U s μ
      | gauge => exact hG.lie U s μ
  refine energy_order_valid eig he hc (validLinks_stable T bc) ?_ (fun _ _ _ => rfl) hname h4 l hl U P trivial ⟨hU, hopen⟩ hP
  intro i U _ hU
  have e := fun k => nFlavor_force_eq ρ hρ T bc hA hd solveShift (ps k) (hs k) U hU.1 hU.2
  cases i with
  | action =>
    funext s μ
    change nFlavorUpdateForce _ _ _ _ _ _ _ _ _ s μ + _ = _
    rw [e 0]; rfl
  | fermion k => funext s μ; exact e k s μ
  | gauge => rfl

/-- The order of the integrator with two flavours, for any Dirac operator with its force. -/
theorem twoFlavor_order (eig : EigenSolver N) (he : eig.Correct) (ρ : FermionRep N M) (hρ : ρ.Lawful) (T : Torus S) (hA : IsDirac mul A) (hd : IsLinkDerivative A deriv)
    (bc : String) (hbc : bc = "fermion_periodic" ∨ bc = "open") (solve : GField S M → SField S M → SField S M)
    (hs : ∀ L v, Function.Injective (mul L) → mul L (solve L v) = v) (φ : SField S M)
    (gaugeEnergy : GField S N → ℝ) (gaugeForce : GField S N → GField S N)
    (hg : Conservative Set.univ gaugeEnergy (fun _ : Unit => gaugeForce) [()])
    (name : String) (p : ℕ) (hname : integratorOrder name = some p) (h4 : name ≠ "fourth_omelyan") (steps : List ℕ)
    (l : ℝ → List (MdOp TwoFlavorForce)) (hl : ∀ t, mdIntegrate name (twoFlavorForces steps).1 (twoFlavorForces steps).2 t = .ok (l t))
    (U P : GField S N) (hU : ∀ s μ, U s μ * (U s μ)ᴴ = 1 ∨ U s μ = 0) (hopen : bc = "open" → switchOpenBc T.ext T.coord U = U)
    (hinj : Function.Injective (mul (fermionLinks ρ T bc U))) (hP : ∀ s μ, IsLie (P s μ)) :
    let energy := fun U => gaugeEnergy U + twoFlavorFermionEnergy solve (fermionLinks ρ T bc U) φ
    let force := twoFlavorForce (fun φ U => twoFlavorUpdateForce ρ deriv solve (fermionLinks ρ T bc U) U φ) gaugeForce φ
    (fun t : ℝ => totalEnergy energy (mdRun (eigenLink eig) force (l t) (U, P)) - totalEnergy energy (U, P)) =O[𝓝 0] fun t => t ^ (p + 1) := by
  intro energy force
  have hG := hg.isGrad
  have hK := (conservative_norm ρ hρ T bc hA.family φ).isGrad (N := N)
  have hsum := hG.add hK
  rw [Set.univ_inter] at hsum
  have hf : ∀ s μ, forceFactor T bc s μ = 1 := by
    intro s μ
    rcases hbc with rfl | rfl
    · rfl
    · rfl
  have hc : Conservative {U : GField S N | IsUnit (A (fermionLinks ρ T bc U))}
      (fun U => gaugeEnergy U + rdotB (Ring.inverse (A (fermionLinks ρ T bc U)) φ) (Ring.inverse (A (fermionLinks ρ T bc U)) φ))
      (twoFlavorForce (fun φ U => gradField ρ (fermionLinks ρ T bc U) (normForm rdotB A φ (fermionLinks ρ T bc U)))
        gaugeForce φ) (twoFlavorForces steps).1 := by
    refine hsum.conservative (twoFlavorForces steps).1 ?_ ?_ ?_
    · intro i
      cases i with
      | action => exact hK.smooth_force.add (hG.smooth_force.mono (Set.subset_univ _))
      | fermion => exact hK.smooth_force
      | gauge => exact hG.smooth_force.mono (Set.subset_univ _)
    · intro i U s μ
      cases i with
      | action => exact isLie_add (hK.lie U s μ) (hG.lie U s μ)
      | fermion => exact hK.lie U s μ
      | gauge => exact hG.lie U s μ
    · intro U s μ
      unfold twoFlavorForces
      split <;> simp [twoFlavorForce, add_comm]
  refine energy_order_valid eig he hc (validLinks_stable T bc) ?_ ?_ hname h4 l hl U P ((injective_iff_isUnit hA _).1 hinj) ⟨hU, hopen⟩ hP
  · intro i U hu hU
    have hi := (injective_iff_isUnit hA (fermionLinks ρ T bc U)).2 hu
    have e : twoFlavorUpdateForce ρ deriv solve (fermionLinks ρ T bc U) U φ =
        gradField ρ (fermionLinks ρ T bc U) (normForm rdotB A φ (fermionLinks ρ T bc U)) := by
      funext s μ
      rw [twoFlavor_force_eq ρ hρ T bc hA hd solve φ U hU.1 hU.2 hi fun v => hs _ v hi, hf, one_smul]
    cases i with
    | action =>
      funext s μ
      change twoFlavorUpdateForce _ _ _ _ _ _ s μ + _ = _
      rw [e]; rfl
    | fermion => exact e
    | gauge => rfl
  · intro U hu _
    change gaugeEnergy U + twoFlavorFermionEnergy solve (fermionLinks ρ T bc U) φ = _
    rw [twoFlavor_energy_eq hA hs φ _ hu]

end

/-- **C55**, the order of the integrator with any number of flavours: the forces on the time scales chosen by the program, one pseudofermion
action per level, belong to the gauge energy plus the energies of the levels used; the energy error of a trajectory is of the order of the
integrator. -/
theorem C55_nflavor_order (eig : EigenSolver N) (he : eig.Correct) (ρ : FermionRep N M) (hρ : ρ.Lawful) (T : Torus S) (κ : ℝ) (bc : String)
    (solveShift : GField S M → ℝ → SField S M → SField S M) (ps : ℕ → List (PseudoFermion S M))
    (hs : ∀ k, ∀ p ∈ ps k, ∀ β ∈ p.betas, 0 < β ∧
      ∀ L, optMul T L κ true (optMul T L κ true (solveShift L β p.φ)) + β • solveShift L β p.φ = p.φ)
    (gaugeEnergy : GField S N → ℝ) (gaugeForce : GField S N → GField S N)
    (hg : Conservative Set.univ gaugeEnergy (fun _ : Unit => gaugeForce) [()])
    (name : String) (p : ℕ) (hname : integratorOrder name = some p) (h4 : name ≠ "fourth_omelyan") (levels : ℕ) (steps : List ℕ)
    (fs : List NFlavorForce × List ℕ) (hfs : nFlavorForces levels steps = .ok fs) (l : ℝ → List (MdOp NFlavorForce))
    (hl : ∀ t, mdIntegrate name fs.1 fs.2 t = .ok (l t)) (U P : GField S N) (hU : ∀ s μ, U s μ * (U s μ)ᴴ = 1 ∨ U s μ = 0)
    (hopen : bc = "open" → switchOpenBc T.ext T.coord U = U) (hP : ∀ s μ, IsLie (P s μ)) :
    let energy := fun U => gaugeEnergy U + ∑ k ∈ Finset.range (levelsUsed steps.length),
      nFlavorFermionEnergy solveShift (fermionLinks ρ T bc U) (ps k)
    let force := nFlavorForce (fun k U => nFlavorUpdateForce ρ T (fun L => optMul T L κ true) (wilsonDerivative T κ) solveShift bc
      (fermionLinks ρ T bc U) U (ps k)) gaugeForce
    (fun t : ℝ => totalEnergy energy (mdRun (eigenLink eig) force (l t) (U, P)) - totalEnergy energy (U, P)) =O[𝓝 0] fun t => t ^ (p + 1) :=
  nFlavor_order eig he ρ hρ T (wilson_isDirac T κ) (wilson_isLinkDerivative T κ) bc solveShift ps hs gaugeEnergy gaugeForce hg name p hname h4 levels
    steps fs hfs l hl U P hU hopen hP

/-- **C55**, the order of the integrator with two flavours, periodic or open boundary conditions and an invertible Dirac operator at the start.
Missing: the boundary conditions with signs (`C55_two_flavor_counterexample`). -/
theorem C55_two_flavor_order_partial (eig : EigenSolver N) (he : eig.Correct) (ρ : FermionRep N M) (hρ : ρ.Lawful) (T : Torus S) (κ : ℝ)
    (bc : String) (hbc : bc = "fermion_periodic" ∨ bc = "open") (solve : GField S M → SField S M → SField S M)
    (hs : ∀ L v, Function.Injective (optMul T L κ true) → optMul T L κ true (solve L v) = v) (φ : SField S M)
    (gaugeEnergy : GField S N → ℝ) (gaugeForce : GField S N → GField S N)
    (hg : Conservative Set.univ gaugeEnergy (fun _ : Unit => gaugeForce) [()])
    (name : String) (p : ℕ) (hname : integratorOrder name = some p) (h4 : name ≠ "fourth_omelyan") (steps : List ℕ)
    (l : ℝ → List (MdOp TwoFlavorForce)) (hl : ∀ t, mdIntegrate name (twoFlavorForces steps).1 (twoFlavorForces steps).2 t = .ok (l t))
    (U P : GField S N) (hU : ∀ s μ, U s μ * (U s μ)ᴴ = 1 ∨ U s μ = 0) (hopen : bc = "open" → switchOpenBc T.ext T.coord U = U)
    (hinj : Function.Injective (optMul T (fermionLinks ρ T bc U) κ true)) (hP : ∀ s μ, IsLie (P s μ)) :
    let energy := fun U => gaugeEnergy U + twoFlavorFermionEnergy solve (fermionLinks ρ T bc U) φ
    let force := twoFlavorForce (fun φ U => twoFlavorUpdateForce ρ (wilsonDerivative T κ) solve (fermionLinks ρ T bc U) U φ) gaugeForce φ
    (fun t : ℝ => totalEnergy energy (mdRun (eigenLink eig) force (l t) (U, P)) - totalEnergy energy (U, P)) =O[𝓝 0] fun t => t ^ (p + 1) :=
  twoFlavor_order eig he ρ hρ T (wilson_isDirac T κ) (wilson_isLinkDerivative T κ) bc hbc solve hs φ gaugeEnergy gaugeForce hg name p hname h4 steps
    l hl U P hU hopen hinj hP

/-- **C55**, time scales: three and four numbers of steps need two and three levels of the force; with fewer the program only warns and reads
past the end of its table.  With at least one level all other numbers are accepted, and more than four or none are replaced by the first. -/
theorem C55_levels (levels : ℕ) (steps : List ℕ) :
    (∃ fs, nFlavorForces levels steps = .ok fs) ↔ levelsUsed steps.length ≤ levels := by
  have hu : 1 ≤ levelsUsed steps.length := by unfold levelsUsed; split <;> omega
  unfold nFlavorForces
  split
  · constructor
    · rintro ⟨_, h⟩; cases h
    · intro h; omega
  · split
    · simp [levelsUsed]; omega
    · simp [levelsUsed]; omega
    · split
      · simpa [levelsUsed]
      · simp [levelsUsed]; omega
    · split
      · simpa [levelsUsed]
      · simp [levelsUsed]; omega
    · rename_i h1 h2 h3 h4
      have hl : levelsUsed steps.length = 1 := by
        unfold levelsUsed
        split
        · rename_i he
          obtain ⟨a, b, c, rfl⟩ := List.length_eq_three.1 he
          exact absurd rfl (h3 a b c)
        · rename_i he
          match steps, he with
          | [a, b, c, d], _ => exact absurd rfl (h4 a b c d)
        · rfl
      rw [hl]
      exact ⟨fun _ => by omega, fun _ => ⟨_, rfl⟩⟩

/-! ### The hypotheses are met -/

/-- An exact multishift solver exists for every hopping parameter and every list of pseudofermions with positive shifts. -/
example (T : Torus S) (κ : ℝ) (ps : List (PseudoFermion S M)) (hb : ∀ p ∈ ps, ∀ β ∈ p.betas, 0 < β) :
    ∃ solveShift : GField S M → ℝ → SField S M → SField S M, ∀ p ∈ ps, ∀ β ∈ p.betas, 0 < β ∧
      ∀ L, optMul T L κ true (optMul T L κ true (solveShift L β p.φ)) + β • solveShift L β p.φ = p.φ := by
  have hA := wilson_isDirac (M := M) T κ
  refine ⟨fun L β φ => Ring.inverse (shiftOp (wilsonFamily T κ L) β) φ, fun p hp β hβ => ⟨hb p hp β hβ, fun L => ?_⟩⟩
  have h := Ring.mul_inverse_cancel _ (isUnit_shift hA.family L (hb p hp β hβ))
  have h1 := congrArg (fun B : Op (SField S M) => B p.φ) h
  have e : ∀ v, shiftOp (wilsonFamily T κ L) β v = optMul T L κ true (optMul T L κ true v) + β • v := by
    intro v
    rw [← hA.apply, ← hA.apply]
    rfl
  rw [← e]
  exact h1

/-- An exact solver exists, and for some hopping parameter that is not zero the operator on the identity links is invertible. -/
example (T : Torus S) (bc : String) : ∃ κ : ℝ, κ ≠ 0 ∧ Function.Injective (optMul T (fermionLinks (fundamentalRep N) T bc fun _ _ => 1) κ true) ∧
    ∃ solve : GField S N → SField S N → SField S N, ∀ L v, Function.Injective (optMul T L κ true) → optMul T L κ true (solve L v) = v := by
  have h2 : ∀ᶠ κ : ℝ in 𝓝[≠] 0, κ ≠ 0 := eventually_mem_nhdsWithin
  obtain ⟨κ, h0, hu⟩ := (h2.and ((eventually_isUnit T (fermionLinks (fundamentalRep N) T bc fun _ _ => 1)).filter_mono nhdsWithin_le_nhds)).exists
  have hA := wilson_isDirac (M := N) T κ
  refine ⟨κ, h0, (injective_iff_isUnit hA _).2 hu, fun L v => Ring.inverse (wilsonFamily T κ L) v, fun L v hi => ?_⟩
  have h := Ring.mul_inverse_cancel _ ((injective_iff_isUnit hA L).1 hi)
  rw [← hA.apply]
  exact congrArg (fun B : Op (SField S N) => B v) h

/-- Numbers of steps on three time scales with two levels. -/
example : nFlavorForces 2 [1, 2, 3] = .ok ([.fermion 1, .fermion 0, .gauge], [1, 2, 3]) ∧ nFlavorForces 1 [1, 2, 3] = .ub := ⟨rfl, rfl⟩

/-- Unitary links satisfy the conditions for the antiperiodic boundary conditions. -/
example (T : Torus S) : (fun _ _ => 1 : GField S N) ∈ validLinks T "fermion_antiperiodic" := ⟨fun _ _ => Or.inl (by simp), fun h => by simp at h⟩

end Leonard
