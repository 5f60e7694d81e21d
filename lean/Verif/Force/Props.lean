import Verif.Force.Gradient
import Verif.Force.Run

/-!
# C55: the force of the fermions is the gradient of their energy
-/

set_option autoImplicit false

namespace Leonard

open Matrix Filter Asymptotics
open scoped ContDiff Topology Matrix.Norms.Operator

variable {S : Type} [Fintype S] {N M : ℕ}

/-! ### Valid links -/

/-- Links that are unitary or, with open boundary conditions, cut. -/
def validLinks (T : Torus S) (bc : String) : Set (GField S N) := {U | (∀ s μ, UnitaryOrCut (U s μ)) ∧ Synchronized T bc U}

theorem exp_lie_unitary {P : Mat N} (hP : IsLie P) (ε : ℝ) : NormedSpace.exp (ε • P) * (NormedSpace.exp (ε • P))ᴴ = 1 := by
  rw [← Matrix.exp_conjTranspose, conjTranspose_smul, hP.1, star_trivial, smul_neg,
    ← Matrix.exp_add_of_commute _ _ ((Commute.refl (ε • P)).neg_right), add_neg_cancel, NormedSpace.exp_zero]

theorem validLinks_stable (T : Torus S) (bc : String) : MotionStable (validLinks (N := N) T bc) := by
  intro U hU P hP ε
  refine ⟨fun s μ => ?_, fun hbc => ?_⟩
  · rcases hU.1 s μ with h | h
    · left
      rw [conjTranspose_mul, Matrix.mul_assoc, ← Matrix.mul_assoc (U s μ), h, one_mul, exp_lie_unitary (hP s μ)]
    · right
      change NormedSpace.exp (ε • P s μ) * U s μ = 0
      rw [h, mul_zero]
  · funext s μ
    have h : switchOpenBc T.ext T.coord U s μ = U s μ := by rw [hU.2 hbc]
    unfold switchOpenBc at h ⊢
    split_ifs at h ⊢
    · rw [← h, mul_zero]
    · rw [← h, mul_zero]
    · rfl
    · rfl

/-! ### The representations of the two builds -/

/-- **C55**, representations: fundamental and adjoint fermions, for every number of colours. -/
theorem C55_representations (N : ℕ) : (fundamentalRep N).Lawful ∧ (adjointRep N).Lawful := ⟨fundamental_lawful N, adjoint_lawful N⟩

/-! ### Any number of flavours -/

section
variable {mul : GField S M → SField S M → SField S M} {A : GField S M → Op (SField S M)}
  {deriv : GField S M → SField S M → SField S M → S → Fin 4 → Mat M}

theorem shift_units (hA : IsDirac mul A) {solveShift : GField S M → ℝ → SField S M → SField S M} {ps : List (PseudoFermion S M)}
    (hs : SolvesShifts mul solveShift ps) (L : GField S M) : ∀ t ∈ shiftTerms ps, IsUnit (shiftOp (A L) t.2.2) := by
  intro t ht
  obtain ⟨p, hp, _, hb⟩ := mem_shiftTerms ht
  exact isUnit_shift hA.family L (hs p hp _ hb).1

theorem nFlavor_isGrad (ρ : FermionRep N M) (hρ : ρ.Lawful) (T : Torus S) (bc : String) (hA : IsDirac mul A)
    (solveShift : GField S M → ℝ → SField S M → SField S M) (ps : List (PseudoFermion S M)) (hs : SolvesShifts mul solveShift ps) :
    IsGrad (Set.univ : Set (GField S N)) (fun U => nFlavorFermionEnergy solveShift (fermionLinks ρ T bc U) ps)
      (fun U => gradField ρ (fermionLinks ρ T bc U) (nFlavorForm A (shiftTerms ps) (fermionLinks ρ T bc U))) := by
  have h := (conservative_shift ρ hρ T bc hA.family (shiftTerms ps)).isGrad
  have e1 : {U : GField S N | ∀ t ∈ shiftTerms ps, IsUnit (shiftOp (A (fermionLinks ρ T bc U)) t.2.2)} = Set.univ :=
    Set.eq_univ_of_forall fun U => shift_units hA hs _
  have e2 : (fun U : GField S N => nFlavorFermionEnergy solveShift (fermionLinks ρ T bc U) ps) =
      fun U => shiftEnergy A (shiftTerms ps) (fermionLinks ρ T bc U) := by
    funext U; exact nFlavor_energy_eq hA solveShift ps hs _
  rw [e2]
  rw [e1] at h
  exact h

theorem nFlavor_conserves (ρ : FermionRep N M) (hρ : ρ.Lawful) (T : Torus S) (bc : String) (hA : IsDirac mul A) (hd : IsLinkDerivative A deriv)
    (solveShift : GField S M → ℝ → SField S M → SField S M) (ps : List (PseudoFermion S M)) (hs : SolvesShifts mul solveShift ps)
    (U P : GField S N) (hU : U ∈ validLinks T bc) (hP : ∀ s μ, IsLie (P s μ)) :
    HasDerivAt (fun t : ℝ => totalEnergy (fun U => nFlavorFermionEnergy solveShift (fermionLinks ρ T bc U) ps)
      (fun s μ => NormedSpace.exp (t • P s μ) * U s μ,
        fun s μ => P s μ - (t : ℂ) • nFlavorUpdateForce ρ T mul deriv solveShift bc (fermionLinks ρ T bc U) U ps s μ)) 0 0 ∧
    ∀ s μ, IsLie (nFlavorUpdateForce ρ T mul deriv solveShift bc (fermionLinks ρ T bc U) U ps s μ) := by
  have e := nFlavor_force_eq ρ hρ T bc hA hd solveShift ps hs U hU.1 hU.2
  have h := nFlavor_isGrad ρ hρ T bc hA solveShift ps hs (N := N)
  simp only [e]
  refine ⟨HasDerivAt.congr_deriv ((hasDerivAt_momentaEnergy P _).add (h.deriv U trivial P hP)) (add_neg_cancel _), fun s μ => h.lie U s μ⟩

/-! ### Two flavours -/

/-- The solver solves the Dirac equation whenever the operator is invertible. -/
def SolvesDirac (mul : GField S M → SField S M → SField S M) (solve : GField S M → SField S M → SField S M) : Prop :=
  ∀ L v, Function.Injective (mul L) → mul L (solve L v) = v

theorem injective_iff_isUnit (hA : IsDirac mul A) (L : GField S M) : Function.Injective (mul L) ↔ IsUnit (A L) := by
  constructor
  · intro h
    exact isUnit_of_injective _ fun v w e => h (by rw [← hA.apply, ← hA.apply, e])
  · intro h v w e
    exact isUnit_injective h (by rw [hA.apply, hA.apply, e])

theorem twoFlavor_energy_eq (hA : IsDirac mul A) {solve : GField S M → SField S M → SField S M} (hs : SolvesDirac mul solve) (φ : SField S M)
    (L : GField S M) (hu : IsUnit (A L)) : twoFlavorFermionEnergy solve L φ = rdotB (Ring.inverse (A L) φ) (Ring.inverse (A L) φ) := by
  have hi := (injective_iff_isUnit hA L).2 hu
  have h := (solve_eq hA hi (hs L φ hi)).2
  unfold twoFlavorFermionEnergy
  rw [← h, rdotB_apply, rdot_self]

/-- The change of the total energy along the motion of the program, in general. -/
theorem twoFlavor_deriv (ρ : FermionRep N M) (hρ : ρ.Lawful) (T : Torus S) (bc : String) (hA : IsDirac mul A) (hd : IsLinkDerivative A deriv)
    (solve : GField S M → SField S M → SField S M) (hs : SolvesDirac mul solve) (φ : SField S M) (U P : GField S N)
    (hU : U ∈ validLinks T bc) (hinj : Function.Injective (mul (fermionLinks ρ T bc U))) (hP : ∀ s μ, IsLie (P s μ)) :
    HasDerivAt (fun t : ℝ => totalEnergy (fun U => twoFlavorFermionEnergy solve (fermionLinks ρ T bc U) φ)
      (fun s μ => NormedSpace.exp (t • P s μ) * U s μ,
        fun s μ => P s μ - (t : ℂ) • twoFlavorUpdateForce ρ deriv solve (fermionLinks ρ T bc U) U φ s μ))
      (∑ s, ∑ μ, 2 * (forceFactor T bc s μ - 1) *
        (trace (P s μ * gradField ρ (fermionLinks ρ T bc U) (normForm rdotB A φ (fermionLinks ρ T bc U)) s μ)).re) 0 := by
  have hu := (injective_iff_isUnit hA _).1 hinj
  have e := twoFlavor_force_eq ρ hρ T bc hA hd solve φ U hU.1 hU.2 hinj fun v => hs _ v hinj
  have h := (conservative_norm ρ hρ T bc hA.family φ).isGrad (N := N)
  have h1 := h.deriv U hu P hP
  have h2 : HasDerivAt (fun t : ℝ => twoFlavorFermionEnergy solve (fermionLinks ρ T bc (moveLinks P U t)) φ)
      (-∑ s, ∑ μ, 2 * (trace (P s μ * gradField ρ (fermionLinks ρ T bc U) (normForm rdotB A φ (fermionLinks ρ T bc U)) s μ)).re) 0 := by
    refine h1.congr_of_eventuallyEq ?_
    have hc : ContinuousAt (fun t : ℝ => moveLinks P U t) 0 := by
      have hd : HasDerivAt (fun t : ℝ => moveLinks P U t) (fun s μ => P s μ * U s μ) 0 := by
        refine hasDerivAt_pi.2 fun s => hasDerivAt_pi.2 fun μ => ?_
        refine HasDerivAt.congr_deriv ((hasDerivAt_exp_smul_const (𝕂 := ℝ) (P s μ) 0).mul_const (U s μ)) ?_
        simp
      exact hd.continuousAt
    have hm : {U : GField S N | IsUnit (A (fermionLinks ρ T bc U))} ∈ 𝓝 (moveLinks P U 0) := by
      rw [moveLinks_zero]; exact h.isOpen.mem_nhds hu
    filter_upwards [hc.eventually_mem hm] with t ht
    exact twoFlavor_energy_eq hA hs φ _ ht
  simp only [e]
  refine HasDerivAt.congr_deriv ((hasDerivAt_momentaEnergy P _).add h2) ?_
  rw [← sub_eq_add_neg, ← Finset.sum_sub_distrib]
  refine Finset.sum_congr rfl fun s _ => ?_
  rw [← Finset.sum_sub_distrib]
  refine Finset.sum_congr rfl fun μ _ => ?_
  rw [Matrix.mul_smul, trace_smul, Complex.smul_re, smul_eq_mul]
  ring

end

/-- **C55**, any number of flavours: with exact solutions of the shifted equations and positive shifts, the energy of the pseudofermions plus
that of the momenta does not change along the force of the program, for all boundary conditions, in every representation that is lawful (both
builds are, `C55_representations`), at all links that are unitary or cut and for all momenta; and the force is in the Lie algebra. -/
theorem C55_nflavor (ρ : FermionRep N M) (hρ : ρ.Lawful) (T : Torus S) (κ : ℝ) (bc : String)
    (solveShift : GField S M → ℝ → SField S M → SField S M) (ps : List (PseudoFermion S M))
    (hs : ∀ p ∈ ps, ∀ β ∈ p.betas, 0 < β ∧
      ∀ L, optMul T L κ true (optMul T L κ true (solveShift L β p.φ)) + β • solveShift L β p.φ = p.φ)
    (U P : GField S N) (hU : ∀ s μ, U s μ * (U s μ)ᴴ = 1 ∨ U s μ = 0) (hopen : bc = "open" → switchOpenBc T.ext T.coord U = U)
    (hP : ∀ s μ, IsLie (P s μ)) :
    HasDerivAt (fun t : ℝ => totalEnergy (fun U => nFlavorFermionEnergy solveShift (fermionLinks ρ T bc U) ps)
      (fun s μ => NormedSpace.exp (t • P s μ) * U s μ, fun s μ => P s μ - (t : ℂ) •
        nFlavorUpdateForce ρ T (fun L => optMul T L κ true) (wilsonDerivative T κ) solveShift bc (fermionLinks ρ T bc U) U ps s μ)) 0 0 ∧
    ∀ s μ, IsLie (nFlavorUpdateForce ρ T (fun L => optMul T L κ true) (wilsonDerivative T κ) solveShift bc (fermionLinks ρ T bc U) U ps s μ) :=
  nFlavor_conserves ρ hρ T bc (wilson_isDirac T κ) (wilson_isLinkDerivative T κ) solveShift ps hs U P ⟨hU, hopen⟩ hP

/-- **C55**, two flavours with periodic or open boundary conditions, where the Dirac operator is invertible.  Missing: the boundary conditions
with signs, for which it is false (`C55_two_flavor_counterexample`). -/
theorem C55_two_flavor_partial (ρ : FermionRep N M) (hρ : ρ.Lawful) (T : Torus S) (κ : ℝ) (bc : String)
    (hbc : bc = "fermion_periodic" ∨ bc = "open") (solve : GField S M → SField S M → SField S M)
    (hs : ∀ L v, Function.Injective (optMul T L κ true) → optMul T L κ true (solve L v) = v) (φ : SField S M)
    (U P : GField S N) (hU : ∀ s μ, U s μ * (U s μ)ᴴ = 1 ∨ U s μ = 0) (hopen : bc = "open" → switchOpenBc T.ext T.coord U = U)
    (hinj : Function.Injective (optMul T (fermionLinks ρ T bc U) κ true)) (hP : ∀ s μ, IsLie (P s μ)) :
    HasDerivAt (fun t : ℝ => totalEnergy (fun U => twoFlavorFermionEnergy solve (fermionLinks ρ T bc U) φ)
      (fun s μ => NormedSpace.exp (t • P s μ) * U s μ, fun s μ => P s μ - (t : ℂ) •
        twoFlavorUpdateForce ρ (wilsonDerivative T κ) solve (fermionLinks ρ T bc U) U φ s μ)) 0 0 ∧
    ∀ s μ, IsLie (twoFlavorUpdateForce ρ (wilsonDerivative T κ) solve (fermionLinks ρ T bc U) U φ s μ) := by
  have hf : ∀ s μ, forceFactor T bc s μ = 1 := by
    intro s μ
    rcases hbc with rfl | rfl
    · rfl
    · rfl
  have h := twoFlavor_deriv ρ hρ T bc (wilson_isDirac T κ) (wilson_isLinkDerivative T κ) solve hs φ U P ⟨hU, hopen⟩ hinj hP
  refine ⟨HasDerivAt.congr_deriv h (Finset.sum_eq_zero fun s _ => Finset.sum_eq_zero fun μ _ => by rw [hf]; ring), fun s μ => ?_⟩
  rw [twoFlavor_force_eq ρ hρ T bc (wilson_isDirac T κ) (wilson_isLinkDerivative T κ) solve φ U hU hopen hinj (fun v => hs _ v hinj), hf, one_smul]
  exact isLie_gradField ρ _ _ s μ

end Leonard
