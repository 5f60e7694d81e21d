/-
C56 (the forces of the scalar action).
-/
import Verif.Scalar.Props
import Verif.Force.Props

set_option autoImplicit false

namespace Leonard

open Matrix
open scoped ContDiff Topology Matrix.Norms.Operator

variable {S : Type} [Fintype S] {N M nA nF : ℕ}

/-! ### The neighbour terms as linear forms of the links -/

/-- The neighbour terms of one field. -/
noncomputable def hopForm (T : Torus S) (φ : S → Fin M → ℂ) : GField S M →ₗ[ℝ] ℝ where
  toFun V := ∑ μ, ∑ s, (complexDot (φ s) (V s μ *ᵥ φ (T.sup μ s))).re
  map_add' V W := by
    simp only [Pi.add_apply, add_mulVec, complexDot_eq, dotProduct_add, Complex.add_re, Finset.sum_add_distrib]
  map_smul' c V := by
    simp only [Pi.smul_apply, smul_mulVec, complexDot_eq, dotProduct_smul, Complex.real_smul, Complex.re_ofReal_mul, RingHom.id_apply, smul_eq_mul,
      Finset.mul_sum]

theorem hopForm_oneLink (T : Torus S) (φ : S → Fin M → ℂ) (s : S) (μ : Fin 4) (A : Mat M) :
    hopForm T φ (oneLink s μ A) = (complexDot (φ s) (A *ᵥ φ (T.sup μ s))).re := by
  change ∑ μ', ∑ s', (complexDot (φ s') (oneLink s μ A s' μ' *ᵥ φ (T.sup μ' s'))).re = _
  rw [Finset.sum_eq_single μ, Finset.sum_eq_single s]
  · rw [oneLink_same]
  · intro s' _ h
    rw [oneLink_ne _ fun e => h e.1, zero_mulVec, complexDot_eq, dotProduct_zero, Complex.zero_re]
  · simp
  · intro μ' _ h
    refine Finset.sum_eq_zero fun s' _ => ?_
    rw [oneLink_ne _ fun e => h e.2, zero_mulVec, complexDot_eq, dotProduct_zero, Complex.zero_re]
  · simp

/-- The links of a representation with periodic boundary conditions. -/
theorem periodicLinks (ρ : FermionRep N M) (T : Torus S) (U : GField S N) : fermionLinks ρ T "fermion_periodic" U = fun s μ => ρ.link (U s μ) := rfl

theorem hopForm_isGrad (ρ : FermionRep N M) (hρ : ρ.Lawful) (T : Torus S) (dE : GField S M →ₗ[ℝ] ℝ) :
    IsGrad (Set.univ : Set (GField S N)) (fun U => dE fun s μ => ρ.link (U s μ)) (fun U => gradField ρ (fun s μ => ρ.link (U s μ)) dE) where
  isOpen := isOpen_univ
  smooth_energy := ((contDiff_linear dE).comp (contDiff_fermionLinks ρ hρ T "fermion_periodic")).contDiffOn
  smooth_force := contDiffOn_gradField ρ _ (contDiff_fermionLinks ρ hρ T "fermion_periodic") (fun _ => dE) fun _ hV =>
    ((contDiff_linear dE).comp hV).contDiffOn
  lie U s μ := isLie_gradField ρ _ _ s μ
  deriv U _ P hP := by
    have h1 := hasDerivAt_fermionLinks ρ hρ T "fermion_periodic" U P hP
    have h2 : HasDerivAt (fun t : ℝ => dE (fermionLinks ρ T "fermion_periodic" (moveLinks P U t)))
        (dE (linkVelocity ρ P (fermionLinks ρ T "fermion_periodic" U))) 0 :=
      (LinearMap.toContinuousLinearMap dE).hasFDerivAt.comp_hasDerivAt 0 h1
    refine HasDerivAt.congr_deriv h2 ?_
    have h3 := gradField_conserves ρ (fermionLinks ρ T "fermion_periodic" U) dE P hP
    change _ = -∑ s, ∑ μ, 2 * (trace (P s μ * gradField ρ (fermionLinks ρ T "fermion_periodic" U) dE s μ)).re
    linarith

/-! ### The forces of the program -/

theorem half_conj_sub (z : ℂ) : 0.5 * starRingEnd ℂ z - 0.5 * z = Complex.I * (((Complex.I * z).re : ℝ) : ℂ) := by
  apply Complex.ext <;> simp <;> ring

theorem dot_flip (v w : Fin M → ℂ) (A B : Mat M) (hB : Bᴴ = B) :
    complexDot w ((Aᴴ * B) *ᵥ v) = starRingEnd ℂ (complexDot v ((B * A) *ᵥ w)) := by
  rw [complexDot_conj, complexDot_mulVec w, conjTranspose_mul, conjTranspose_conjTranspose, hB]

theorem smulVec_dot (v w : Fin M → ℂ) (A : Mat M) : (complexDot v ((Complex.I • A) *ᵥ w)).re = (Complex.I * complexDot v (A *ᵥ w)).re := by
  rw [complexDot_eq, complexDot_eq, smul_mulVec, dotProduct_smul, smul_eq_mul]

/-- The term of one field and one generator. -/
theorem force_term (ρ : FermionRep N M) (hρ : ρ.Lawful) (T : Torus S) (φ : S → Fin M → ℂ) (U : GField S N) (s : S) (μ : Fin 4)
    (i : Fin (lieGenerators N).length) :
    0.5 * complexDot (φ (T.sup μ s)) (((ρ.link (U s μ))ᴴ * ρ.gen i) *ᵥ φ s) - 0.5 * complexDot (φ s) ((ρ.gen i * ρ.link (U s μ)) *ᵥ φ (T.sup μ s))
      = Complex.I * ((hopForm T φ (oneLink s μ (Complex.I • (ρ.gen i * ρ.link (U s μ)))) : ℝ) : ℂ) := by
  rw [dot_flip _ _ _ _ (hρ.hermitian i), half_conj_sub, hopForm_oneLink, smulVec_dot]

/-- The energy of all fields as a linear form of the links. -/
noncomputable def hopForms {n : ℕ} (T : Torus S) (φ : Fin n → S → Fin M → ℂ) : GField S M →ₗ[ℝ] ℝ := ∑ j, hopForm T (φ j)

theorem gradField_hopForms {n : ℕ} (ρ : FermionRep N M) (L : GField S M) (T : Torus S) (φ : Fin n → S → Fin M → ℂ) (s : S) (μ : Fin 4) :
    gradField ρ L (hopForms T φ) s μ = ∑ j, ∑ i, (Complex.I * ((hopForm T (φ j) (oneLink s μ (Complex.I • (ρ.gen i * L s μ))) : ℝ) : ℂ)) • gens N i := by
  unfold gradField hopForms
  rw [Finset.sum_comm]
  refine Finset.sum_congr rfl fun i _ => ?_
  rw [LinearMap.sum_apply, Complex.ofReal_sum, Finset.mul_sum, Finset.sum_smul]

theorem scalarForce_eq (T : Torus S) (Φ : Scalars S N nA nF) (U : GField S N) (s : S) (μ : Fin 4) :
    scalarForce T Φ U s μ =
      gradField (adjointRep N) (fun s μ => (adjointRep N).link (U s μ)) (hopForms T fun j s => ofRealVec (Φ.1 j s)) s μ
      + gradField (fundamentalRep N) (fun s μ => (fundamentalRep N).link (U s μ)) (hopForms T Φ.2) s μ := by
  unfold scalarForce
  rw [zero_add, gradField_hopForms, gradField_hopForms]
  congr 1
  · refine Finset.sum_congr rfl fun j _ => Finset.sum_congr rfl fun i _ => ?_
    rw [← sub_smul]
    exact congrArg (· • gens N i) (force_term (adjointRep N) (adjoint_lawful N) T (fun s => ofRealVec (Φ.1 j s)) U s μ i)
  · refine Finset.sum_congr rfl fun j _ => Finset.sum_congr rfl fun i _ => ?_
    rw [← sub_smul]
    exact congrArg (· • gens N i) (force_term (fundamentalRep N) (fundamental_lawful N) T (Φ.2 j) U s μ i)

/-- **C56, the two forces.** The force computed for the whole lattice is the force computed for each link. -/
theorem C56_force_link (T : Torus S) (Φ : Scalars S N nA nF) (U : GField S N) (s : S) (μ : Fin 4) :
    scalarUpdateForce T Φ U s μ = scalarForce T Φ U s μ := by
  unfold scalarUpdateForce scalarForce
  congr 2
  refine Finset.sum_congr rfl fun j _ => Finset.sum_congr rfl fun i _ => ?_
  rw [← sub_smul]
  congr 1
  have h := dot_flip (ofRealVec (Φ.1 j s)) (ofRealVec (Φ.1 j (T.sup μ s))) ((adjointLinks U s μ).map fun x : ℝ => (x : ℂ))
    (adjointGenerator (gens N) i) ((adjoint_lawful N).hermitian i)
  rw [h]
  generalize complexDot (ofRealVec (Φ.1 j s))
    ((adjointGenerator (gens N) i * (adjointLinks U s μ).map (fun x : ℝ => (x : ℂ))) *ᵥ ofRealVec (Φ.1 j (T.sup μ s))) = z
  apply Complex.ext <;> simp <;> ring

theorem scalarEnergy_forms (c : ScalarCouplings) (T : Torus S) (Φ : Scalars S N nA nF) (U : GField S N) :
    scalarEnergy c T U Φ = hopForms T (fun j s => ofRealVec (Φ.1 j s)) (fun s μ => (adjointRep N).link (U s μ))
      + hopForms T Φ.2 (fun s μ => (fundamentalRep N).link (U s μ)) + ∑ s, potentialEnergy c (atSite Φ.1 s) (atSite Φ.2 s) := by
  rw [scalarEnergy_eq]
  have h1 : hopForms T Φ.2 (fun s μ => (fundamentalRep N).link (U s μ)) = ∑ i, fundamentalKinetic T U (Φ.2 i) := by
    unfold hopForms
    rw [LinearMap.sum_apply]
    rfl
  rw [h1]
  refine congrArg (fun x => x + _ + _) ?_
  unfold hopForms
  rw [LinearMap.sum_apply]
  refine Finset.sum_congr rfl fun j _ => ?_
  change ∑ μ, ∑ s, realDot (Φ.1 j s) (adjointLinks U s μ *ᵥ Φ.1 j (T.sup μ s)) =
    ∑ μ, ∑ s, (complexDot (ofRealVec (Φ.1 j s)) ((adjointRep N).link (U s μ) *ᵥ ofRealVec (Φ.1 j (T.sup μ s)))).re
  refine Finset.sum_congr rfl fun μ _ => Finset.sum_congr rfl fun s _ => ?_
  have e : (adjointRep N).link (U s μ) *ᵥ ofRealVec (Φ.1 j (T.sup μ s)) = ofRealVec (adjointLinks U s μ *ᵥ Φ.1 j (T.sup μ s)) := ofRealVec_mulVec _ _
  rw [e, complexDot_ofRealVec, Complex.ofReal_re]

/-- **C56, the force.** The force of the scalar fields is the gradient of their energy: along every motion of the links with momenta in the Lie
algebra the energy changes by minus twice the product of momenta and force, the force is in the Lie algebra, and both are smooth functions of the
links.  For all links (unitary or not), couplings, fields and lattices. -/
theorem C56_force (c : ScalarCouplings) (T : Torus S) (Φ : Scalars S N nA nF) :
    IsGrad (Set.univ : Set (GField S N)) (fun U => scalarEnergy c T U Φ) (scalarUpdateForce T Φ) := by
  have hA := hopForm_isGrad (adjointRep N) (adjoint_lawful N) T (hopForms T fun j s => ofRealVec (Φ.1 j s))
  have hF := hopForm_isGrad (fundamentalRep N) (fundamental_lawful N) T (hopForms T Φ.2)
  have h := hA.add hF
  rw [Set.univ_inter] at h
  have e : scalarUpdateForce T Φ = fun U s μ => gradField (adjointRep N) (fun s μ => (adjointRep N).link (U s μ)) (hopForms T fun j s => ofRealVec (Φ.1 j s)) s μ
      + gradField (fundamentalRep N) (fun s μ => (fundamentalRep N).link (U s μ)) (hopForms T Φ.2) s μ := by
    funext U s μ
    rw [C56_force_link, scalarForce_eq]
  rw [e]
  simp only [scalarEnergy_forms]
  exact ⟨isOpen_univ, h.smooth_energy.add contDiffOn_const, h.smooth_force, h.lie, fun U hU P hP => (h.deriv U hU P hP).add_const _⟩

end Leonard
