/-
C56 (the scalar action).
-/
import Verif.Scalar.Lemmas
import Mathlib.Algebra.BigOperators.Field
import Mathlib.Tactic.Linarith
import Mathlib.Tactic.Positivity

set_option autoImplicit false

namespace Leonard

open Matrix

variable {S : Type} {N nA nF : ℕ}

/-! ### Gauge transformations -/

/-- The gauge transform of the scalar fields: fundamental fields are multiplied with the matrices, adjoint fields with the matrices of the adjoint
representation. -/
noncomputable def scalarTransform (ω : S → Mat N) (Φ : Scalars S N nA nF) : Scalars S N nA nF :=
  (fun i s => toAdjoint (gens N) (ω s) *ᵥ Φ.1 i s, fun i s => ω s *ᵥ Φ.2 i s)

theorem adjoint_orthogonal {V : Mat N} (hV : V ∈ unitaryGroup (Fin N) ℂ) : (toAdjoint (gens N) V)ᵀ * toAdjoint (gens N) V = 1 :=
  (mem_orthogonalGroup_iff' _ _).1 (C29_representation N V V hV hV).2.2.2.2

theorem realDot_adjoint {V : Mat N} (hV : V ∈ unitaryGroup (Fin N) ℂ) (v w : AdjVec N) :
    realDot (toAdjoint (gens N) V *ᵥ v) (toAdjoint (gens N) V *ᵥ w) = realDot v w := by
  rw [realDot_mulVec, mulVec_mulVec, adjoint_orthogonal hV, one_mulVec]

theorem complexDot_unitary {V : Mat N} (hV : V ∈ unitaryGroup (Fin N) ℂ) (v w : FundVec N) :
    complexDot (V *ᵥ v) (V *ᵥ w) = complexDot v w := by
  have h : Vᴴ * V = 1 := mem_unitaryGroup_iff'.1 hV
  rw [complexDot_mulVec, mulVec_mulVec, h, one_mulVec]

theorem adjointKinetic_gauge [Fintype S] (T : Torus S) (ω : S → Mat N) (hω : ∀ s, ω s ∈ unitaryGroup (Fin N) ℂ) (U : GField S N)
    (hU : ∀ s μ, U s μ ∈ unitaryGroup (Fin N) ℂ) (φ : S → AdjVec N) :
    adjointKinetic T (gaugeTransform T ω U) (fun s => toAdjoint (gens N) (ω s) *ᵥ φ s) = adjointKinetic T U φ := by
  have hg := C30_generators N
  have hc := C30_complete N
  have hωω : ∀ s, (ω s)ᴴ * ω s = 1 := fun s => mem_unitaryGroup_iff'.1 (hω s)
  have hω' : ∀ s, (ω s)ᴴ ∈ unitaryGroup (Fin N) ℂ := fun s => by
    rw [mem_unitaryGroup_iff]; change (ω s)ᴴ * ((ω s)ᴴ)ᴴ = 1; rw [conjTranspose_conjTranspose]; exact hωω s
  refine Finset.sum_congr rfl fun μ _ => Finset.sum_congr rfl fun s _ => ?_
  have e : adjointLinks (gaugeTransform T ω U) s μ = toAdjoint (gens N) (ω s) * adjointLinks U s μ * toAdjoint (gens N) (ω (T.sup μ s))ᴴ := by
    unfold adjointLinks gaugeTransform
    rw [toAdjoint_mul hg hc _ (hω' _), toAdjoint_mul hg hc _ (hU s μ)]
  have e2 : toAdjoint (gens N) (ω (T.sup μ s))ᴴ * toAdjoint (gens N) (ω (T.sup μ s)) = 1 := by
    rw [← toAdjoint_mul hg hc _ (hω _), hωω, toAdjoint_one hg]
  rw [e, mulVec_mulVec, Matrix.mul_assoc, e2, Matrix.mul_one, ← mulVec_mulVec, realDot_adjoint (hω s)]

theorem fundamentalKinetic_gauge [Fintype S] (T : Torus S) (ω : S → Mat N) (hω : ∀ s, ω s ∈ unitaryGroup (Fin N) ℂ) (U : GField S N)
    (φ : S → FundVec N) : fundamentalKinetic T (gaugeTransform T ω U) (fun s => ω s *ᵥ φ s) = fundamentalKinetic T U φ := by
  have hωω : ∀ s, (ω s)ᴴ * ω s = 1 := fun s => mem_unitaryGroup_iff'.1 (hω s)
  refine Finset.sum_congr rfl fun μ _ => Finset.sum_congr rfl fun s _ => ?_
  unfold gaugeTransform
  rw [mulVec_mulVec, Matrix.mul_assoc, hωω, Matrix.mul_one, ← mulVec_mulVec, complexDot_unitary (hω s)]

/-- **C56, gauge invariance.** The energy of the scalar fields does not change under a gauge transformation of links and fields.  For all unitary
matrices, couplings, numbers of fields and all links. -/
theorem C56_gauge [Fintype S] (T : Torus S) (c : ScalarCouplings) (ω : S → Mat N) (hω : ∀ s, ω s ∈ unitaryGroup (Fin N) ℂ) (U : GField S N)
    (hU : ∀ s μ, U s μ ∈ unitaryGroup (Fin N) ℂ) (Φ : Scalars S N nA nF) :
    scalarEnergy c T (gaugeTransform T ω U) (scalarTransform ω Φ) = scalarEnergy c T U Φ := by
  rw [scalarEnergy_eq, scalarEnergy_eq]
  have e1 : ∀ i, adjointKinetic T (gaugeTransform T ω U) ((scalarTransform ω Φ).1 i) = adjointKinetic T U (Φ.1 i) :=
    fun i => adjointKinetic_gauge T ω hω U hU (Φ.1 i)
  have e2 : ∀ i, fundamentalKinetic T (gaugeTransform T ω U) ((scalarTransform ω Φ).2 i) = fundamentalKinetic T U (Φ.2 i) :=
    fun i => fundamentalKinetic_gauge T ω hω U (Φ.2 i)
  have h1 : ∀ s i, realDot (atSite (scalarTransform ω Φ).1 s i) (atSite (scalarTransform ω Φ).1 s i) = realDot (atSite Φ.1 s i) (atSite Φ.1 s i) :=
    fun s i => realDot_adjoint (hω s) _ _
  have h2 : ∀ s i, complexDot (atSite (scalarTransform ω Φ).2 s i) (atSite (scalarTransform ω Φ).2 s i) = complexDot (atSite Φ.2 s i) (atSite Φ.2 s i) :=
    fun s i => complexDot_unitary (hω s) _ _
  simp only [e1, e2, potentialEnergy_eq, h1, h2]

/-- **C56, the coupling `lambda_8`.** The energy does not depend on the coupling `lambda_8`, whatever the fields: the option has no effect. -/
theorem C56_lambda8 [Fintype S] (T : Torus S) (c : ScalarCouplings) (x : ℝ) (U : GField S N) (Φ : Scalars S N nA nF) :
    scalarEnergy { c with lambda8 := x } T U Φ = scalarEnergy c T U Φ := by
  simp only [scalarEnergy_eq, potentialEnergy_eq]

/-! ### The energy at a site -/

theorem kinetic_difference [Fintype S] {V : Type} (T : Torus S) (hT : ∀ μ s, T.sup μ s ≠ s) (B : Fin 4 → S → V → V → ℝ) (φ ψ : S → V) (s : S)
    (h : ∀ s', s' ≠ s → ψ s' = φ s') :
    (∑ μ, ∑ s', B μ s' (ψ s') (ψ (T.sup μ s'))) - (∑ μ, ∑ s', B μ s' (φ s') (φ (T.sup μ s'))) =
      ∑ μ, ((B μ s (ψ s) (φ (T.sup μ s)) + B μ (T.sdn μ s) (φ (T.sdn μ s)) (ψ s))
        - (B μ s (φ s) (φ (T.sup μ s)) + B μ (T.sdn μ s) (φ (T.sdn μ s)) (φ s))) := by
  rw [← Finset.sum_sub_distrib]
  refine Finset.sum_congr rfl fun μ _ => ?_
  rw [← Finset.sum_sub_distrib]
  have hne : T.sdn μ s ≠ s := fun e => hT μ s (by conv_lhs => rw [← e]; exact T.sup_sdn μ s)
  rw [Finset.sum_eq_add (s := Finset.univ) s (T.sdn μ s) hne.symm ?_ (by simp) (by simp)]
  · rw [T.sup_sdn, h _ (hT μ s), h _ hne]
    ring
  · rintro s' _ ⟨h1, h2⟩
    have h3 : T.sup μ s' ≠ s := fun e => h2 (by rw [← e, T.sdn_sup])
    rw [h _ h1, h _ h3, sub_self]

/-- One adjoint field changed at one site. -/
def setAdjoint [DecidableEq S] (Φ : Scalars S N nA nF) (i : Fin nA) (s : S) (v : AdjVec N) : Scalars S N nA nF :=
  (Function.update Φ.1 i (Function.update (Φ.1 i) s v), Φ.2)

/-- One fundamental field changed at one site. -/
def setFundamental [DecidableEq S] (Φ : Scalars S N nA nF) (i : Fin nF) (s : S) (v : FundVec N) : Scalars S N nA nF :=
  (Φ.1, Function.update Φ.2 i (Function.update (Φ.2 i) s v))

theorem adjointCoupling_dot [Fintype S] (T : Torus S) (U : GField S N) (φ : S → AdjVec N) (s : S) (v : AdjVec N) :
    -realDot (adjointCoupling T U φ s) v = ∑ μ, (realDot v (adjointLinks U s μ *ᵥ φ (T.sup μ s))
      + realDot (φ (T.sdn μ s)) (adjointLinks U (T.sdn μ s) μ *ᵥ v)) := by
  unfold adjointCoupling
  rw [realDot_eq, sum_dotProduct, ← Finset.sum_neg_distrib]
  refine Finset.sum_congr rfl fun μ _ => ?_
  rw [sub_dotProduct, neg_dotProduct, realDot_mulVec (φ _), realDot_eq, realDot_eq, dotProduct_comm v]
  ring

theorem fundamentalCoupling_dot [Fintype S] (T : Torus S) (U : GField S N) (φ : S → FundVec N) (s : S) (v : FundVec N) :
    -(complexDot (fundamentalCoupling T U φ s) v).re = ∑ μ, ((complexDot v (U s μ *ᵥ φ (T.sup μ s))).re
      + (complexDot (φ (T.sdn μ s)) (U (T.sdn μ s) μ *ᵥ v)).re) := by
  rw [complexDot_re_comm]
  unfold fundamentalCoupling
  rw [complexDot_eq, dotProduct_sum, Complex.re_sum, ← Finset.sum_neg_distrib]
  refine Finset.sum_congr rfl fun μ _ => ?_
  rw [dotProduct_sub, dotProduct_neg, complexDot_mulVec (φ _), complexDot_re_comm _ v, complexDot_eq, complexDot_eq]
  simp only [Complex.sub_re, Complex.neg_re]
  ring

theorem sum_update {ι α : Type} [Fintype ι] [DecidableEq ι] (f : α → ℝ) (a : ι → α) (i : ι) (v : α) :
    (∑ j, f (Function.update a i v j)) - ∑ j, f (a j) = f v - f (a i) := by
  rw [← Finset.sum_sub_distrib, Finset.sum_eq_single i]
  · rw [Function.update_self]
  · intro j _ h; rw [Function.update_of_ne h, sub_self]
  · simp

/-- **C56, one site.** For a lattice on which no site is its own neighbour, the change of the energy computed at a site, with the coupling computed
before the change, is the change of the energy of the lattice.  For every change of one field at one site. -/
theorem C56_local [Fintype S] [DecidableEq S] (T : Torus S) (hT : ∀ μ s, T.sup μ s ≠ s) (c : ScalarCouplings) (U : GField S N)
    (Φ : Scalars S N nA nF) (s : S) :
    (∀ (i : Fin nA) (v : AdjVec N), let Φ' := setAdjoint Φ i s v
      siteEnergyAdjoint c (atSite Φ'.1 s) (atSite Φ'.2 s) (adjointCoupling T U (Φ.1 i) s) i
        - siteEnergyAdjoint c (atSite Φ.1 s) (atSite Φ.2 s) (adjointCoupling T U (Φ.1 i) s) i = scalarEnergy c T U Φ' - scalarEnergy c T U Φ) ∧
    (∀ (i : Fin nF) (v : FundVec N), let Φ' := setFundamental Φ i s v
      siteEnergyFundamental c (atSite Φ'.1 s) (atSite Φ'.2 s) (fundamentalCoupling T U (Φ.2 i) s) i
        - siteEnergyFundamental c (atSite Φ.1 s) (atSite Φ.2 s) (fundamentalCoupling T U (Φ.2 i) s) i = scalarEnergy c T U Φ' - scalarEnergy c T U Φ) := by
  constructor
  · intro i v Φ'
    have hp : (∑ s', potentialEnergy c (atSite Φ'.1 s') (atSite Φ'.2 s')) - (∑ s', potentialEnergy c (atSite Φ.1 s') (atSite Φ.2 s')) =
        potentialEnergy c (atSite Φ'.1 s) (atSite Φ'.2 s) - potentialEnergy c (atSite Φ.1 s) (atSite Φ.2 s) := by
      rw [← Finset.sum_sub_distrib, Finset.sum_eq_single s]
      · intro s' _ h
        have e : atSite Φ'.1 s' = atSite Φ.1 s' := by
          funext j
          change Function.update Φ.1 i (Function.update (Φ.1 i) s v) j s' = Φ.1 j s'
          by_cases hj : j = i
          · subst hj; rw [Function.update_self, Function.update_of_ne h]
          · rw [Function.update_of_ne hj]
        have e2 : Φ'.2 = Φ.2 := rfl
        rw [e, e2, sub_self]
      · simp
    have hk : (∑ j, adjointKinetic T U (Φ'.1 j)) - (∑ j, adjointKinetic T U (Φ.1 j)) = adjointKinetic T U (Function.update (Φ.1 i) s v) - adjointKinetic T U (Φ.1 i) :=
      sum_update _ _ _ _
    have hd : adjointKinetic T U (Function.update (Φ.1 i) s v) - adjointKinetic T U (Φ.1 i) =
        -realDot (adjointCoupling T U (Φ.1 i) s) v - -realDot (adjointCoupling T U (Φ.1 i) s) (Φ.1 i s) := by
      rw [adjointCoupling_dot, adjointCoupling_dot, ← Finset.sum_sub_distrib]
      refine (kinetic_difference T hT (fun μ s v w => realDot v (adjointLinks U s μ *ᵥ w)) (Φ.1 i) (Function.update (Φ.1 i) s v) s
        fun s' h => Function.update_of_ne h _ _).trans ?_
      simp only [Function.update_self]
    have hv : atSite Φ'.1 s i = v := by
      change Function.update Φ.1 i (Function.update (Φ.1 i) s v) i s = v
      rw [Function.update_self, Function.update_self]
    rw [scalarEnergy_eq, scalarEnergy_eq]
    unfold siteEnergyAdjoint
    rw [hv]
    change -realDot _ v + _ - (-realDot _ (Φ.1 i s) + _) = _
    have h2 : Φ'.2 = Φ.2 := rfl
    rw [h2] at hp ⊢
    linarith
  · intro i v Φ'
    have hp : (∑ s', potentialEnergy c (atSite Φ'.1 s') (atSite Φ'.2 s')) - (∑ s', potentialEnergy c (atSite Φ.1 s') (atSite Φ.2 s')) =
        potentialEnergy c (atSite Φ'.1 s) (atSite Φ'.2 s) - potentialEnergy c (atSite Φ.1 s) (atSite Φ.2 s) := by
      rw [← Finset.sum_sub_distrib, Finset.sum_eq_single s]
      · intro s' _ h
        have e : atSite Φ'.2 s' = atSite Φ.2 s' := by
          funext j
          change Function.update Φ.2 i (Function.update (Φ.2 i) s v) j s' = Φ.2 j s'
          by_cases hj : j = i
          · subst hj; rw [Function.update_self, Function.update_of_ne h]
          · rw [Function.update_of_ne hj]
        have e2 : Φ'.1 = Φ.1 := rfl
        rw [e, e2, sub_self]
      · simp
    have hk : (∑ j, fundamentalKinetic T U (Φ'.2 j)) - (∑ j, fundamentalKinetic T U (Φ.2 j)) =
        fundamentalKinetic T U (Function.update (Φ.2 i) s v) - fundamentalKinetic T U (Φ.2 i) := sum_update _ _ _ _
    have hd : fundamentalKinetic T U (Function.update (Φ.2 i) s v) - fundamentalKinetic T U (Φ.2 i) =
        -(complexDot (fundamentalCoupling T U (Φ.2 i) s) v).re - -(complexDot (fundamentalCoupling T U (Φ.2 i) s) (Φ.2 i s)).re := by
      rw [fundamentalCoupling_dot, fundamentalCoupling_dot, ← Finset.sum_sub_distrib]
      refine (kinetic_difference T hT (fun μ s v w => (complexDot v (U s μ *ᵥ w)).re) (Φ.2 i) (Function.update (Φ.2 i) s v) s
        fun s' h => Function.update_of_ne h _ _).trans ?_
      simp only [Function.update_self]
    have hv : atSite Φ'.2 s i = v := by
      change Function.update Φ.2 i (Function.update (Φ.2 i) s v) i s = v
      rw [Function.update_self, Function.update_self]
    rw [scalarEnergy_eq, scalarEnergy_eq]
    unfold siteEnergyFundamental
    rw [hv]
    change -(complexDot _ v).re + _ - (-(complexDot _ (Φ.2 i s)).re + _) = _
    have h2 : Φ'.1 = Φ.1 := rfl
    rw [h2] at hp ⊢
    linarith

/-! ### Bounds -/

theorem half_squares_real {ι : Type} [Fintype ι] (v w : ι → ℝ) : -(realDot v v + realDot w w) / 2 ≤ realDot v w := by
  have h : 0 ≤ ∑ k, (v k + w k) ^ 2 := Finset.sum_nonneg fun _ _ => sq_nonneg _
  have e : ∑ k, (v k + w k) ^ 2 = realDot v v + realDot w w + 2 * realDot v w := by
    unfold realDot
    rw [Finset.mul_sum, ← Finset.sum_add_distrib, ← Finset.sum_add_distrib]
    exact Finset.sum_congr rfl fun k _ => by ring
  linarith

theorem half_squares_complex {ι : Type} [Fintype ι] (v w : ι → ℂ) :
    -((complexDot v v).re + (complexDot w w).re) / 2 ≤ (complexDot v w).re := by
  have h : 0 ≤ (complexDot (v + w) (v + w)).re := complexDot_self_nonneg _
  have e : (complexDot (v + w) (v + w)).re = (complexDot v v).re + (complexDot w w).re + 2 * (complexDot v w).re := by
    have := complexDot_re_comm w v
    rw [complexDot_eq, star_add, add_dotProduct, dotProduct_add, dotProduct_add]
    simp only [← complexDot_eq, Complex.add_re]
    linarith
  linarith

theorem sum_shift [Fintype S] (T : Torus S) (μ : Fin 4) (f : S → ℝ) : ∑ s, f (T.sup μ s) = ∑ s, f s := Equiv.sum_comp (T.sup μ) f

theorem adjointKinetic_ge [Fintype S] (T : Torus S) (U : GField S N) (hU : ∀ s μ, U s μ ∈ unitaryGroup (Fin N) ℂ) (φ : S → AdjVec N) :
    -4 * ∑ s, realDot (φ s) (φ s) ≤ adjointKinetic T U φ := by
  have h : ∀ μ : Fin 4, -∑ s, realDot (φ s) (φ s) ≤ ∑ s, realDot (φ s) (adjointLinks U s μ *ᵥ φ (T.sup μ s)) := by
    intro μ
    have h1 : ∑ s, -(realDot (φ s) (φ s) + realDot (φ (T.sup μ s)) (φ (T.sup μ s))) / 2 ≤ ∑ s, realDot (φ s) (adjointLinks U s μ *ᵥ φ (T.sup μ s)) := by
      refine Finset.sum_le_sum fun s _ => ?_
      have := half_squares_real (φ s) (adjointLinks U s μ *ᵥ φ (T.sup μ s))
      rwa [adjointLinks, realDot_adjoint (hU s μ)] at this
    have h2 := sum_shift T μ fun s => realDot (φ s) (φ s)
    rw [← Finset.sum_div, Finset.sum_neg_distrib, Finset.sum_add_distrib, h2] at h1
    linarith
  unfold adjointKinetic
  have := Finset.sum_le_sum fun μ (_ : μ ∈ (Finset.univ : Finset (Fin 4))) => h μ
  simp only [Finset.sum_const, Finset.card_univ, Fintype.card_fin, nsmul_eq_mul] at this
  push_cast at this
  linarith

theorem fundamentalKinetic_ge [Fintype S] (T : Torus S) (U : GField S N) (hU : ∀ s μ, U s μ ∈ unitaryGroup (Fin N) ℂ) (φ : S → FundVec N) :
    -4 * ∑ s, (complexDot (φ s) (φ s)).re ≤ fundamentalKinetic T U φ := by
  have h : ∀ μ : Fin 4, -∑ s, (complexDot (φ s) (φ s)).re ≤ ∑ s, (complexDot (φ s) (U s μ *ᵥ φ (T.sup μ s))).re := by
    intro μ
    have h1 : ∑ s, -((complexDot (φ s) (φ s)).re + (complexDot (φ (T.sup μ s)) (φ (T.sup μ s))).re) / 2
        ≤ ∑ s, (complexDot (φ s) (U s μ *ᵥ φ (T.sup μ s))).re := by
      refine Finset.sum_le_sum fun s _ => ?_
      have := half_squares_complex (φ s) (U s μ *ᵥ φ (T.sup μ s))
      rwa [complexDot_unitary (hU s μ)] at this
    have h2 := sum_shift T μ fun s => (complexDot (φ s) (φ s)).re
    rw [← Finset.sum_div, Finset.sum_neg_distrib, Finset.sum_add_distrib, h2] at h1
    linarith
  unfold fundamentalKinetic
  have := Finset.sum_le_sum fun μ (_ : μ ∈ (Finset.univ : Finset (Fin 4))) => h μ
  simp only [Finset.sum_const, Finset.card_univ, Fintype.card_fin, nsmul_eq_mul] at this
  push_cast at this
  linarith

/-- The energy is at least the energy of independent sites with masses reduced by 24. -/
theorem scalarEnergy_ge [Fintype S] (c : ScalarCouplings) (T : Torus S) (U : GField S N) (hU : ∀ s μ, U s μ ∈ unitaryGroup (Fin N) ℂ)
    (Φ : Scalars S N nA nF) :
    ∑ s, ((c.massAdjoint / 2 - 12) * (∑ i, realDot (Φ.1 i s) (Φ.1 i s)) + (c.massFundamental / 2 - 12) * (∑ i, (complexDot (Φ.2 i s) (Φ.2 i s)).re)
      + (c.lambdaFundamental / 24) * (∑ i, (complexDot (Φ.2 i s) (Φ.2 i s)).re) ^ 2 + (c.lambdaAdjoint / 24) * (∑ i, realDot (Φ.1 i s) (Φ.1 i s)) ^ 2
      + (c.lambdaMixed / 24) * (∑ i, realDot (Φ.1 i s) (Φ.1 i s)) * (∑ i, (complexDot (Φ.2 i s) (Φ.2 i s)).re)) ≤ scalarEnergy c T U Φ := by
  rw [scalarEnergy_eq]
  have hA : -4 * ∑ s, ∑ i, realDot (Φ.1 i s) (Φ.1 i s) ≤ ∑ i, adjointKinetic T U (Φ.1 i) := by
    rw [Finset.sum_comm, Finset.mul_sum]
    exact Finset.sum_le_sum fun i _ => adjointKinetic_ge T U hU _
  have hF : -4 * ∑ s, ∑ i, (complexDot (Φ.2 i s) (Φ.2 i s)).re ≤ ∑ i, fundamentalKinetic T U (Φ.2 i) := by
    rw [Finset.sum_comm, Finset.mul_sum]
    exact Finset.sum_le_sum fun i _ => fundamentalKinetic_ge T U hU _
  refine le_trans (le_of_eq ?_) (add_le_add (add_le_add hA hF) le_rfl)
  rw [Finset.mul_sum, Finset.mul_sum, ← Finset.sum_add_distrib, ← Finset.sum_add_distrib]
  refine Finset.sum_congr rfl fun s _ => ?_
  rw [potentialEnergy_eq]
  unfold atSite
  ring

theorem quadratic_ge (m l : ℝ) (h : 0 ≤ l ∧ (24 ≤ m ∨ 0 < l)) : ∃ C : ℝ, ∀ x : ℝ, 0 ≤ x → C ≤ (m / 2 - 12) * x + (l / 24) * x ^ 2 := by
  rcases h with ⟨hl, hm | hl'⟩
  · refine ⟨0, fun x hx => ?_⟩
    have h1 : 0 ≤ m / 2 - 12 := by linarith
    positivity
  · refine ⟨-(6 * (m / 2 - 12) ^ 2 / l), fun x _ => ?_⟩
    have h1 : 0 ≤ (l / 24) * (x + 12 * (m / 2 - 12) / l) ^ 2 := by positivity
    have h2 : (l / 24) * (x + 12 * (m / 2 - 12) / l) ^ 2 = (m / 2 - 12) * x + (l / 24) * x ^ 2 + 6 * (m / 2 - 12) ^ 2 / l := by
      field_simp
      ring
    linarith

/-- **C56, bound.** The energy is bounded below, by a number that does not depend on links and fields, if no quartic coupling is negative and for
each of the two kinds of fields the quartic coupling is positive or the mass at least 24.  For unitary links. -/
theorem C56_bounded_partial [Fintype S] (c : ScalarCouplings) (T : Torus S) (hm : 0 ≤ c.lambdaMixed)
    (hA : 0 ≤ c.lambdaAdjoint ∧ (24 ≤ c.massAdjoint ∨ 0 < c.lambdaAdjoint))
    (hF : 0 ≤ c.lambdaFundamental ∧ (24 ≤ c.massFundamental ∨ 0 < c.lambdaFundamental)) :
    ∃ C : ℝ, ∀ (U : GField S N) (Φ : Scalars S N nA nF), (∀ s μ, U s μ ∈ unitaryGroup (Fin N) ℂ) → C ≤ scalarEnergy c T U Φ := by
  obtain ⟨CA, hCA⟩ := quadratic_ge _ _ hA
  obtain ⟨CF, hCF⟩ := quadratic_ge _ _ hF
  refine ⟨∑ _s : S, (CA + CF), fun U Φ hU => le_trans (Finset.sum_le_sum fun s _ => ?_) (scalarEnergy_ge c T U hU Φ)⟩
  have hx : 0 ≤ ∑ i, realDot (Φ.1 i s) (Φ.1 i s) := Finset.sum_nonneg fun _ _ => realDot_self_nonneg _
  have hy : 0 ≤ ∑ i, (complexDot (Φ.2 i s) (Φ.2 i s)).re := Finset.sum_nonneg fun _ _ => complexDot_self_nonneg _
  have h1 := hCA _ hx
  have h2 := hCF _ hy
  have h3 : 0 ≤ (c.lambdaMixed / 24) * (∑ i, realDot (Φ.1 i s) (Φ.1 i s)) * (∑ i, (complexDot (Φ.2 i s) (Φ.2 i s)).re) := by positivity
  linarith

end Leonard
