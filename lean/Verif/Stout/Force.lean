import Verif.Stout.Motion

/-!
# The smearing force is the gradient
-/

set_option autoImplicit false

namespace Leonard

open Matrix
open scoped ContDiff Topology Matrix.Norms.Operator

variable {S : Type} [Fintype S] {N M : ℕ}

/-! ### Any smooth energy has a gradient -/

theorem isGrad_of_contDiff {E : GField S N → ℝ} (hE : ContDiff ℝ ∞ E) :
    IsGrad (Set.univ : Set (GField S N)) E fun U => gradField (fundamentalRep N) U (fderiv ℝ E U : GField S N →ₗ[ℝ] ℝ) where
  isOpen := isOpen_univ
  smooth_energy := hE.contDiffOn
  smooth_force := by
    refine contDiffOn_gradField (fundamentalRep N) (fun U => U) contDiff_id (fun U => (fderiv ℝ E U : GField S N →ₗ[ℝ] ℝ)) fun V hV => ?_
    exact ((hE.fderiv_right (m := ∞) (by simp)).clm_apply hV).contDiffOn
  lie U s μ := isLie_gradField _ _ _ s μ
  deriv U _ P hP := by
    have hm : HasDerivAt (fun t : ℝ => moveLinks P U t) (linkVelocity (fundamentalRep N) P U) 0 :=
      hasDerivAt_pi.2 fun s => hasDerivAt_pi.2 fun μ => (fundamental_lawful N).deriv (P s μ) (U s μ) (hP s μ)
    have hd : HasFDerivAt E (fderiv ℝ E U) (moveLinks P U 0) := by
      rw [moveLinks_zero]
      exact ((hE.differentiable (by simp)) U).hasFDerivAt
    refine HasDerivAt.congr_deriv (hd.comp_hasDerivAt (0 : ℝ) hm) ?_
    have := gradField_conserves (fundamentalRep N) U (fderiv ℝ E U : GField S N →ₗ[ℝ] ℝ) P hP
    exact eq_neg_of_add_eq_zero_right this

/-! ### Smeared links are valid links -/

theorem stoutLinks_eq (T : Torus S) (r : ℝ) (U : GField S N) (s : S) (μ : Fin 4) :
    ∃ R : Mat N, R * Rᴴ = 1 ∧ stoutLinks T r U s μ = R * U s μ := by
  refine ⟨_, ?_, rfl⟩
  have := exp_lie_unitary (stoutGenerator_isLie r (U s μ) (wilsonStaple T U s μ)) 1
  rw [one_smul] at this
  exact this

theorem stoutLinks_valid (T : Torus S) (bc : String) (r : ℝ) (U : GField S N) (hU : U ∈ validLinks T bc) : stoutLinks T r U ∈ validLinks T bc := by
  refine ⟨fun s μ => ?_, fun hbc => ?_⟩
  · obtain ⟨R, hR, e⟩ := stoutLinks_eq T r U s μ
    rw [e]
    rcases hU.1 s μ with h | h
    · left
      rw [conjTranspose_mul, Matrix.mul_assoc, ← Matrix.mul_assoc (U s μ), h, one_mul, hR]
    · right
      rw [h, mul_zero]
  · funext s μ
    obtain ⟨R, hR, e⟩ := stoutLinks_eq T r U s μ
    have h : switchOpenBc T.ext T.coord U s μ = U s μ := by rw [hU.2 hbc]
    unfold switchOpenBc at h ⊢
    split_ifs at h ⊢
    · rw [e, ← h, mul_zero]
    · rw [e, ← h, mul_zero]
    · rfl
    · rfl

/-! ### The change of the energy -/

section
variable {mul : GField S M → SField S M → SField S M} {A : GField S M → Op (SField S M)}
  {deriv' : GField S M → SField S M → SField S M → S → Fin 4 → Mat M}

theorem linkVelocity_eq (ρ : FermionRep N M) (Q : GField S N) (hQ : ∀ s μ, IsLie (Q s μ)) (L : GField S M) (s : S) (μ : Fin 4) :
    linkVelocity ρ Q L s μ = ∑ i, (2 * (trace (gens N i * Q s μ)).im) • (Complex.I • (ρ.gen i * L s μ)) := by
  refine Finset.sum_congr rfl fun i _ => ?_
  rw [trace_gens_lie (hQ s μ) i, ← Complex.coe_smul, smul_smul]
  congr 1
  simp
  ring

/-- The links of the fermions move like the smeared links. -/
theorem hasDerivAt_smearedLinks (ρ : FermionRep N M) (hρ : ρ.Lawful) (T : Torus S) (bc : String) (r : ℝ) (U P Q : GField S N)
    (hQ : ∀ s μ, IsLie (Q s μ))
    (hm : ∀ s μ, HasDerivAt (fun t : ℝ => stoutLinks T r (moveLinks P U t) s μ) (Q s μ * stoutLinks T r U s μ) 0) :
    HasDerivAt (fun t : ℝ => fermionLinks ρ T bc (stoutLinks T r (moveLinks P U t)))
      (linkVelocity ρ Q (fermionLinks ρ T bc (stoutLinks T r U))) 0 := by
  refine hasDerivAt_pi.2 fun s => hasDerivAt_pi.2 fun μ => ?_
  simp only [fermionLinks_eq, linkVelocity]
  have h0 : stoutLinks T r (moveLinks P U 0) s μ = stoutLinks T r U s μ := by rw [moveLinks_zero]
  have h1 := rep_velocity ρ hρ (W := fun t => stoutLinks T r (moveLinks P U t) s μ) (hQ s μ) (by simp only [h0]; exact hm s μ)
  rw [h0] at h1
  refine HasDerivAt.congr_deriv (h1.const_smul (bcFactor T bc s μ)) ?_
  generalize bcFactor T bc s μ = c
  rw [Finset.smul_sum]
  refine Finset.sum_congr rfl fun i _ => ?_
  rw [Matrix.mul_smul, smul_comm c]

/-- One term of the sum of the program. -/
theorem hasDerivAt_smearTerm (ρ : FermionRep N M) (hρ : ρ.Lawful) (D : Mat M) {W : ℝ → Mat N} {Q : Mat N} (hQ : IsLie Q)
    (hW : HasDerivAt W (Q * W 0) 0) : HasDerivAt (fun t => (trace (D * ρ.link (W t))).re)
      (∑ i, (2 * (trace (gens N i * Q)).im) * -(trace (D * ρ.gen i * ρ.link (W 0))).im) 0 := by
  have h1 := rep_velocity ρ hρ hQ hW
  have h2 := trL.hasFDerivAt.comp_hasDerivAt (0 : ℝ) (h1.const_mul D)
  refine HasDerivAt.congr_deriv h2 ?_
  refine (trL_apply _).trans ?_
  rw [Finset.mul_sum, trace_sum, Complex.re_sum]
  refine Finset.sum_congr rfl fun i _ => ?_
  rw [Matrix.mul_smul, trace_smul, smul_eq_mul, ← Matrix.mul_assoc, trace_gens_lie hQ i]
  simp only [Complex.mul_re, Complex.mul_im, Complex.I_re, Complex.I_im, Complex.ofReal_re, Complex.ofReal_im, Complex.re_ofNat, Complex.im_ofNat]
  ring

/-- The energy of the pseudofermions as a function of the links that are stored. -/
noncomputable def smearedEnergy (A : GField S M → Op (SField S M)) (l : List (SField S M × ℝ × ℝ)) (ρ : FermionRep N M) (T : Torus S) (bc : String)
    (r : ℝ) (U : GField S N) : ℝ := shiftEnergy A l (fermionLinks ρ T bc (stoutLinks T r U))

theorem contDiff_smearedEnergy (ρ : FermionRep N M) (hρ : ρ.Lawful) (T : Torus S) (bc : String) (r : ℝ) (hA : IsDirac mul A)
    (l : List (SField S M × ℝ × ℝ)) (hu : ∀ L, ∀ t ∈ l, IsUnit (shiftOp (A L) t.2.2)) : ContDiff ℝ ∞ (smearedEnergy A l ρ T bc r (N := N)) := by
  rw [contDiff_iff_contDiffAt]
  intro U
  have hL : ContDiff ℝ ∞ fun U : GField S N => fermionLinks ρ T bc (stoutLinks T r U) := (contDiff_fermionLinks ρ hρ T bc).comp (contDiff_stoutLinks T r)
  exact contDiffAt_list l _ U fun t ht => contDiffAt_const.mul (hA.family.contDiffAt_shiftEnergy t.1 t.2.2 hL U (hu _ t ht))

variable [DecidableEq S]

theorem setLink_move (U : GField S N) (s : S) (μ : Fin 4) (X : Mat N) (h : ℝ) :
    setLink U s μ (NormedSpace.exp (h • X) * U s μ) = moveLinks (oneLink s μ X) U h := by
  funext s' μ'
  unfold setLink moveLinks
  split
  · rename_i e
    rw [e.1, e.2, oneLink_same]
  · rename_i e
    rw [oneLink_ne _ e, smul_zero, NormedSpace.exp_zero, one_mul]

theorem isLie_oneLink {X : Mat N} (hX : IsLie X) (s : S) (μ : Fin 4) (s' : S) (μ' : Fin 4) : IsLie (oneLink s μ X s' μ') := by
  by_cases h : s' = s ∧ μ' = μ
  · rw [h.1, h.2, oneLink_same]; exact hX
  · rw [oneLink_ne _ h]; exact ⟨by simp, by simp⟩

/-- The sum over all smeared links is the derivative of the energy. -/
theorem sum_terms (ρ : FermionRep N M) (hρ : ρ.Lawful) (T : Torus S) (bc : String) (r : ℝ) (hA : IsDirac mul A) (hd : IsLinkDerivative A deriv')
    (solveShift : GField S M → ℝ → SField S M → SField S M) (ps : List (PseudoFermion S M)) (hs : SolvesShifts mul solveShift ps)
    (U : GField S N) (hU : U ∈ validLinks T bc) (s : S) (μ : Fin 4) (X : Mat N) (hX : IsLie X) :
    (∑ s', ∑ μ', deriv (fun h : ℝ => (trace (nFlavorBc T.ext T.coord (some bc) (fun s μ => (ps.map fun p => nFlavorTerm mul deriv' solveShift
        (fermionLinks ρ T bc (stoutLinks T r U)) p s μ).sum) s' μ'
      * ρ.link (stoutLinks T r (setLink U s μ (NormedSpace.exp (h • X) * U s μ)) s' μ'))).re) 0) =
      fderiv ℝ (smearedEnergy A (shiftTerms ps) ρ T bc r) U (oneLink s μ (X * U s μ)) := by
  have hP := isLie_oneLink hX s μ
  obtain ⟨Q, hQ, hm⟩ := stout_velocity T r U (oneLink s μ X) hP
  have hW := stoutLinks_valid T bc r U hU
  have hu := shift_units hA hs
  -- the right side
  have hr : fderiv ℝ (smearedEnergy A (shiftTerms ps) ρ T bc r) U (oneLink s μ (X * U s μ)) =
      nFlavorForm A (shiftTerms ps) (fermionLinks ρ T bc (stoutLinks T r U)) (linkVelocity ρ Q (fermionLinks ρ T bc (stoutLinks T r U))) := by
    have h1 : HasDerivAt (fun t : ℝ => moveLinks (oneLink s μ X) U t) (oneLink s μ (X * U s μ)) 0 := by
      refine hasDerivAt_pi.2 fun s' => hasDerivAt_pi.2 fun μ' => ?_
      refine HasDerivAt.congr_deriv (hasDerivAt_moveLinks (oneLink s μ X) U s' μ') ?_
      by_cases h : s' = s ∧ μ' = μ
      · rw [h.1, h.2, oneLink_same, oneLink_same]
      · rw [oneLink_ne _ h, oneLink_ne _ h, zero_mul]
    have h2 : HasFDerivAt (smearedEnergy A (shiftTerms ps) ρ T bc r) (fderiv ℝ (smearedEnergy A (shiftTerms ps) ρ T bc r) U)
        (moveLinks (oneLink s μ X) U 0) := by
      rw [moveLinks_zero]
      exact (((contDiff_smearedEnergy ρ hρ T bc r hA (shiftTerms ps) hu).differentiable (by simp)) U).hasFDerivAt
    have h3 := h2.comp_hasDerivAt (0 : ℝ) h1
    refine h3.unique ?_
    rw [nFlavorForm_apply]
    refine hasDerivAt_list (shiftTerms ps) _ _ fun t ht => ?_
    have h4 := hA.family.hasDerivAt_shift t.1 t.2.2 (hasDerivAt_smearedLinks ρ hρ T bc r U (oneLink s μ X) Q hQ hm) (by rw [moveLinks_zero]; exact hu _ t ht)
    rw [moveLinks_zero] at h4
    exact h4.const_mul t.2.1
  rw [hr, sum_oneLink (linkVelocity ρ Q (fermionLinks ρ T bc (stoutLinks T r U))), map_sum]
  refine Finset.sum_congr rfl fun s' _ => ?_
  rw [map_sum]
  refine Finset.sum_congr rfl fun μ' _ => ?_
  rw [linkVelocity_eq ρ Q hQ, map_sum, map_sum]
  have h0 : stoutLinks T r (moveLinks (oneLink s μ X) U 0) s' μ' = stoutLinks T r U s' μ' := by rw [moveLinks_zero]
  have h5 := hasDerivAt_smearTerm ρ hρ (nFlavorBc T.ext T.coord (some bc) (fun s μ => (ps.map fun p => nFlavorTerm mul deriv' solveShift
        (fermionLinks ρ T bc (stoutLinks T r U)) p s μ).sum) s' μ') (W := fun t => stoutLinks T r (moveLinks (oneLink s μ X) U t) s' μ')
        (hQ s' μ') (by simp only [h0]; exact hm s' μ')
  simp only [h0] at h5
  simp only [setLink_move]
  rw [h5.deriv]
  refine Finset.sum_congr rfl fun i _ => ?_
  rw [nFlavor_component ρ hρ T bc hA hd solveShift ps hs (stoutLinks T r U) hW.1 hW.2 s' μ' i, neg_neg,
    (oneLink s' μ').map_smul (2 * (trace (gens N i * Q s' μ')).im), LinearMap.map_smul, smul_eq_mul]

omit [Fintype S] in
theorem smearTerm_zero {diff : (ℝ → ℝ) → ℝ} (hdiff : ∀ c, diff (fun _ => c) = 0) (ρ : FermionRep N M) (T : Torus S) (r : ℝ) (D : GField S M)
    (U : GField S N) (s : S) (μ : Fin 4) (s' : S) (μ' : Fin 4)
    (h : ∀ V, stoutLinks T r (setLink U s μ V) s' μ' = stoutLinks T r U s' μ') : smearTerm diff ρ T r D U s μ s' μ' = 0 := by
  unfold smearTerm
  refine Finset.sum_eq_zero fun c _ => ?_
  simp only [h, hdiff, Complex.ofReal_zero, mul_zero, zero_smul]

/-- The seven kinds of links are all links, once each. -/
theorem smearingForce_sum {diff : (ℝ → ℝ) → ℝ} (hdiff : ∀ c, diff (fun _ => c) = 0) (ρ : FermionRep N M) (T : Torus S) (hT : T.Wide 2) (r : ℝ)
    (D : GField S M) (U : GField S N) (s : S) (μ : Fin 4) :
    smearingForce diff ρ T r D U s μ = ∑ c, (Complex.I * ((∑ s', ∑ μ', diff fun h => (trace (D s' μ' * ρ.link (stoutLinks T r
      (setLink U s μ (NormedSpace.exp (h • (Complex.I • gens N c)) * U s μ)) s' μ'))).re : ℝ) : ℂ)) • gens N c := by
  have h := seven_terms T hT s μ (fun s' μ' => smearTerm diff ρ T r D U s μ s' μ')
    (fun s' h0 h1 h2 => smearTerm_zero hdiff ρ T r D U s μ s' μ fun V => stoutLinks_same_dir T r U s s' μ V h0 h1 h2)
    (fun ν hν s' h0 h1 h2 h3 => smearTerm_zero hdiff ρ T r D U s μ s' ν fun V => stoutLinks_other_dir T r U s s' hν V h0 h1 h2 h3)
  refine Eq.trans h ?_
  unfold smearTerm
  rw [Finset.sum_congr rfl fun s' _ => Finset.sum_comm, Finset.sum_comm]
  refine Finset.sum_congr rfl fun c _ => ?_
  simp only [← Finset.sum_smul, ← Finset.mul_sum]
  push_cast
  rfl

theorem isLie_I_gens (c : Fin (lieGenerators N).length) : IsLie (Complex.I • gens N c) := by
  have hg := C30_generators N
  constructor
  · rw [conjTranspose_smul, hg.hermitian]
    simp
  · rw [trace_smul, hg.traceless, smul_zero]

/-- With every smeared link counted once and exact derivatives, the force of the program is the gradient. -/
theorem smearingForce_eq (ρ : FermionRep N M) (hρ : ρ.Lawful) (T : Torus S) (hT : T.Wide 2) (bc : String) (r : ℝ) (hA : IsDirac mul A)
    (hd : IsLinkDerivative A deriv') (solveShift : GField S M → ℝ → SField S M → SField S M) (ps : List (PseudoFermion S M))
    (hs : SolvesShifts mul solveShift ps) (U : GField S N) (hU : U ∈ validLinks T bc) (s : S) (μ : Fin 4) :
    smearingForce (fun f => deriv f 0) ρ T r (nFlavorBc T.ext T.coord (some bc) fun s μ => (ps.map fun p => nFlavorTerm mul deriv' solveShift
        (fermionLinks ρ T bc (stoutLinks T r U)) p s μ).sum) U s μ =
      gradField (fundamentalRep N) U (fderiv ℝ (smearedEnergy A (shiftTerms ps) ρ T bc r) U : GField S N →ₗ[ℝ] ℝ) s μ := by
  rw [smearingForce_sum (fun c => by simp) ρ T hT]
  unfold gradField
  refine Finset.sum_congr rfl fun c _ => ?_
  rw [sum_terms ρ hρ T bc r hA hd solveShift ps hs U hU s μ _ (isLie_I_gens c), Matrix.smul_mul]
  rfl

end

end Leonard
