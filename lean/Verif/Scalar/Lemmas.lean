import Verif.Scalar.Model
import Verif.Rep.AdjointProps

/-!
# Lemmas about the scalar action
-/

set_option autoImplicit false

namespace Leonard

open Matrix

variable {S : Type} {N nA nF : ℕ}

section dot
variable {ι : Type} [Fintype ι]

theorem realDot_eq (v w : ι → ℝ) : realDot v w = v ⬝ᵥ w := rfl

theorem complexDot_eq (v w : ι → ℂ) : complexDot v w = star v ⬝ᵥ w := rfl

theorem realDot_comm (v w : ι → ℝ) : realDot v w = realDot w v := by rw [realDot_eq, realDot_eq, dotProduct_comm]

theorem realDot_self_nonneg (v : ι → ℝ) : 0 ≤ realDot v v := Finset.sum_nonneg fun _ _ => mul_self_nonneg _

theorem complexDot_self (v : ι → ℂ) : complexDot v v = ((∑ c, Complex.normSq (v c) : ℝ) : ℂ) := by
  unfold complexDot
  push_cast
  exact Finset.sum_congr rfl fun c _ => by rw [mul_comm, Complex.mul_conj]

theorem complexDot_self_re (v : ι → ℂ) : (complexDot v v).re = ∑ c, Complex.normSq (v c) := by rw [complexDot_self, Complex.ofReal_re]

theorem complexDot_self_nonneg (v : ι → ℂ) : 0 ≤ (complexDot v v).re := by
  rw [complexDot_self_re]; exact Finset.sum_nonneg fun _ _ => Complex.normSq_nonneg _

theorem complexDot_conj (v w : ι → ℂ) : starRingEnd ℂ (complexDot v w) = complexDot w v := by
  unfold complexDot
  rw [map_sum]
  exact Finset.sum_congr rfl fun c _ => by rw [map_mul, Complex.conj_conj, mul_comm]

theorem complexDot_re_comm (v w : ι → ℂ) : (complexDot v w).re = (complexDot w v).re := by
  rw [← complexDot_conj w v, Complex.conj_re]

theorem complexDot_mulVec (v w : ι → ℂ) (A : Matrix ι ι ℂ) : complexDot v (A *ᵥ w) = complexDot (Aᴴ *ᵥ v) w := by
  rw [complexDot_eq, complexDot_eq, star_mulVec, conjTranspose_conjTranspose, dotProduct_mulVec]

theorem realDot_mulVec (v w : ι → ℝ) (A : Matrix ι ι ℝ) : realDot v (A *ᵥ w) = realDot (Aᵀ *ᵥ v) w := by
  rw [realDot_eq, realDot_eq, mulVec_transpose, dotProduct_mulVec]

theorem complexDot_ofRealVec (v w : ι → ℝ) : complexDot (ofRealVec v) (ofRealVec w) = ((realDot v w : ℝ) : ℂ) := by
  unfold complexDot realDot ofRealVec
  push_cast
  exact Finset.sum_congr rfl fun c _ => by rw [Complex.conj_ofReal]

theorem ofRealVec_mulVec (A : Matrix ι ι ℝ) (v : ι → ℝ) : A.map (fun x : ℝ => (x : ℂ)) *ᵥ ofRealVec v = ofRealVec (A *ᵥ v) := by
  funext i
  unfold ofRealVec
  simp only [mulVec, dotProduct, Matrix.map_apply]
  push_cast
  rfl

end dot

/-! ### The generators of the adjoint representation -/

/-- The generators of the adjoint representation have no expectation value in real fields. -/
theorem adjointGenerator_real (N : ℕ) (j : Fin (lieGenerators N).length) (v : AdjVec N) :
    complexDot (ofRealVec v) (adjointGenerator (gens N) j *ᵥ ofRealVec v) = 0 := by
  have ht : (adjointGenerator (gens N) j)ᵀ = -adjointGenerator (gens N) j := (C30_adjoint N j j).2.2.2
  have hs : star (ofRealVec v) = ofRealVec v := by
    funext c; simp [ofRealVec]
  have h : ofRealVec v ⬝ᵥ adjointGenerator (gens N) j *ᵥ ofRealVec v = -(ofRealVec v ⬝ᵥ adjointGenerator (gens N) j *ᵥ ofRealVec v) := by
    conv_lhs => rw [dotProduct_mulVec, ← mulVec_transpose, ht, neg_mulVec, neg_dotProduct, dotProduct_comm]
  rw [complexDot_eq, hs]
  exact self_eq_neg.1 h

theorem potentialEnergy_eq (c : ScalarCouplings) (a : Fin nA → AdjVec N) (f : Fin nF → FundVec N) :
    potentialEnergy c a f = (c.massAdjoint / 2 - 8) * (∑ i, realDot (a i) (a i)) + (c.massFundamental / 2 - 8) * (∑ i, (complexDot (f i) (f i)).re)
      + (c.lambdaFundamental / 24) * (∑ i, (complexDot (f i) (f i)).re) ^ 2 + (c.lambdaAdjoint / 24) * (∑ i, realDot (a i) (a i)) ^ 2
      + (c.lambdaMixed / 24) * (∑ i, realDot (a i) (a i)) * (∑ i, (complexDot (f i) (f i)).re) := by
  unfold potentialEnergy
  simp only [adjointGenerator_real, Complex.zero_re, Finset.sum_const_zero, mul_zero, add_zero]
  ring

/-! ### The energy as a sum of products -/

/-- The neighbour terms of an adjoint field. -/
noncomputable def adjointKinetic [Fintype S] (T : Torus S) (U : GField S N) (φ : S → AdjVec N) : ℝ :=
  ∑ μ, ∑ s, realDot (φ s) (adjointLinks U s μ *ᵥ φ (T.sup μ s))

/-- The neighbour terms of a fundamental field. -/
noncomputable def fundamentalKinetic [Fintype S] (T : Torus S) (U : GField S N) (φ : S → FundVec N) : ℝ :=
  ∑ μ, ∑ s, (complexDot (φ s) (U s μ *ᵥ φ (T.sup μ s))).re

theorem scalarEnergy_eq [Fintype S] (c : ScalarCouplings) (T : Torus S) (U : GField S N) (Φ : Scalars S N nA nF) :
    scalarEnergy c T U Φ = (∑ i, adjointKinetic T U (Φ.1 i)) + (∑ i, fundamentalKinetic T U (Φ.2 i))
      + ∑ s, potentialEnergy c (atSite Φ.1 s) (atSite Φ.2 s) := by
  unfold scalarEnergy adjointKinetic fundamentalKinetic realDot complexDot
  simp only [Complex.re_sum]

theorem adjointLinks_transpose (U : GField S N) (s : S) (μ : Fin 4) :
    (adjointLinks U s μ)ᵀ = toAdjoint (gens N) (U s μ)ᴴ := (toAdjoint_conjTranspose (C30_generators N) _).symm

end Leonard
