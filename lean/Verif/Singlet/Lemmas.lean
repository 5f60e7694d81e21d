import Verif.Singlet.Model
import Verif.Npr.Ward
import Verif.Dirac.EvenOddProps

/-!
# The hopping expansion in matrix form
-/

set_option autoImplicit false

namespace Leonard

open Matrix

noncomputable section

variable {S : Type} {N : ℕ}

/-- **Specification.** The matrix of an operator on fields. -/
def operatorMatrix [DecidableEq S] (F : SField S N → SField S N) : Matrix (S × Fin 4 × Fin N) (S × Fin 4 × Fin N) ℂ :=
  Matrix.of fun p q => F (unitField q.1 q.2) p.1 p.2.1 p.2.2

/-- **Specification.** A spin matrix on all components of a field. -/
def spinEverywhere [DecidableEq S] (Γ : SpinMat) : Matrix (S × Fin 4 × Fin N) (S × Fin 4 × Fin N) ℂ :=
  kroneckerMap (· * ·) (1 : Matrix S S ℂ) (kroneckerMap (· * ·) Γ (1 : Mat N))

/-- `F` is the multiplication by the matrix `M`. -/
def HasMatrix [Fintype S] (F : SField S N → SField S N) (M : Matrix (S × Fin 4 × Fin N) (S × Fin 4 × Fin N) ℂ) : Prop :=
  ∀ v x mu i, F v x mu i = ∑ q : S × Fin 4 × Fin N, M (x, mu, i) q * v q.1 q.2.1 q.2.2

section
variable [Fintype S] [DecidableEq S]

theorem HasMatrix.comp {F G : SField S N → SField S N} {A B : Matrix (S × Fin 4 × Fin N) (S × Fin 4 × Fin N) ℂ} (hF : HasMatrix F A) (hG : HasMatrix G B) :
    HasMatrix (fun v => F (G v)) (A * B) := by
  intro v x mu i
  refine (hF (G v) x mu i).trans ?_
  have h : ∀ q : S × Fin 4 × Fin N, G v q.1 q.2.1 q.2.2 = ∑ k : S × Fin 4 × Fin N, B q k * v k.1 k.2.1 k.2.2 := fun q => hG v q.1 q.2.1 q.2.2
  simp only [h, Matrix.mul_apply, Finset.mul_sum, Finset.sum_mul]
  rw [Finset.sum_comm]
  exact Finset.sum_congr rfl fun q _ => Finset.sum_congr rfl fun k _ => by ring

theorem HasMatrix.hopping {F : SField S N → SField S N} {A : Matrix (S × Fin 4 × Fin N) (S × Fin 4 × Fin N) ℂ} (hF : HasMatrix F A) :
    HasMatrix (hoppingApply F) (A - 1) := by
  intro v x mu i
  simp only [hoppingApply, Matrix.of_apply, hF v, Matrix.sub_apply, sub_mul, Finset.sum_sub_distrib]
  congr 1
  rw [Finset.sum_eq_single (x, mu, i)]
  · simp
  · intro q _ hq; rw [one_apply_ne (Ne.symm hq), zero_mul]
  · simp

theorem hasMatrix_gamma (v : Fin 16) : HasMatrix (gammaApply (S := S) (N := N) v) (spinEverywhere (tabChroma v)) := by
  intro w x mu i
  simp only [gammaApply, Matrix.of_apply, Fintype.sum_prod_type]
  rw [Finset.sum_eq_single x]
  · refine Finset.sum_congr rfl fun nu _ => ?_
    rw [Finset.sum_eq_single i]
    · simp [spinEverywhere, kroneckerMap_apply]
    · intro j _ hj; simp [spinEverywhere, kroneckerMap_apply, one_apply, Ne.symm hj]
    · simp
  · intro y _ hy
    refine Finset.sum_eq_zero fun nu _ => Finset.sum_eq_zero fun j _ => ?_
    simp [spinEverywhere, kroneckerMap_apply, one_apply, Ne.symm hy]
  · simp

theorem hasMatrix_linear (L : SField S N →ₗ[ℂ] SField S N) : HasMatrix L (operatorMatrix L) := by
  intro v x mu i
  conv_lhs => rw [field_sum v, map_sum]
  simp only [map_smul, Finset.sum_apply, Matrix.sum_apply, Pi.smul_apply, Matrix.smul_apply, smul_eq_mul, operatorMatrix, Matrix.of_apply]
  exact Finset.sum_congr rfl fun q _ => mul_comm _ _

theorem hasMatrix_improved (T : Torus S) (U : GField S N) (κ csw : ℝ) : HasMatrix (improvedSpec T U κ csw) (operatorMatrix (improvedSpec T U κ csw)) :=
  hasMatrix_linear (improvedLin T U κ csw)

theorem hasMatrix_solve {T : Torus S} {U : GField S N} {κ csw : ℝ} {solve : SField S N → SField S N} {G : S → S → Matrix (Fin 4 × Fin N) (Fin 4 × Fin N) ℂ}
    (hs : ∀ b, improvedSpec T U κ csw (solve b) = b) (hG : IsGreen (improvedSpec T U κ csw) G) : HasMatrix solve (greenMatrix G) :=
  fun v x mu i => solve_green hs hG v x mu i

theorem dot_quad {F : SField S N → SField S N} {A : Matrix (S × Fin 4 × Fin N) (S × Fin 4 × Fin N) ℂ} (hF : HasMatrix F A) (r : Noise S N) :
    latticeDot (randomNoise r) (F (randomNoise r)) = quad A (noiseEquiv r) := by
  have hn : ∀ p : S × Fin 4 × Fin N, randomNoise r p.1 p.2.1 p.2.2 = eta (noiseEquiv r) p := fun p => rfl
  have h : ∀ p : S × Fin 4 × Fin N, F (randomNoise r) p.1 p.2.1 p.2.2 = ∑ q : S × Fin 4 × Fin N, A p q * randomNoise r q.1 q.2.1 q.2.2 :=
    fun p => hF (randomNoise r) p.1 p.2.1 p.2.2
  rw [latticeDot_prod]
  simp only [h, hn, eta_conj, quad, Finset.mul_sum]
  exact Finset.sum_congr rfl fun p _ => Finset.sum_congr rfl fun q _ => by ring

theorem hoppedInverse_matrix {D solve : SField S N → SField S N} {A B : Matrix (S × Fin 4 × Fin N) (S × Fin 4 × Fin N) ℂ} (hD : HasMatrix D A) (hs : HasMatrix solve B)
    (h : ℕ) (v : SField S N) (x : S) (mu : Fin 4) (i : Fin N) (r : Noise S N) (hv : v = randomNoise r) :
    hoppedInverse D solve r h x mu i = ∑ q : S × Fin 4 × Fin N, ((A - 1) ^ h * B) (x, mu, i) q * v q.1 q.2.1 q.2.2 := by
  subst hv
  induction h generalizing x mu i with
  | zero => rw [pow_zero, Matrix.one_mul]; exact hs _ x mu i
  | succ h ih =>
    rw [hoppedInverse, hD.hopping _ x mu i, pow_succ', Matrix.mul_assoc]
    have hq : ∀ q : S × Fin 4 × Fin N, hoppedInverse D solve r h q.1 q.2.1 q.2.2
        = ∑ k : S × Fin 4 × Fin N, ((A - 1) ^ h * B) q k * randomNoise r k.1 k.2.1 k.2.2 := fun q => ih q.1 q.2.1 q.2.2
    simp only [hq, Matrix.mul_apply (M := A - 1), Finset.mul_sum, Finset.sum_mul]
    rw [Finset.sum_comm]
    exact Finset.sum_congr rfl fun q _ => Finset.sum_congr rfl fun k _ => by ring

theorem singletResult_quad {D solve : SField S N → SField S N} {A B : Matrix (S × Fin 4 × Fin N) (S × Fin 4 × Fin N) ℂ} (hD : HasMatrix D A) (hs : HasMatrix solve B)
    (κ : ℝ) (h : ℕ) (v : Fin 16) (r : Noise S N) :
    singletResult D solve κ h v r = 2 * κ * quad (spinEverywhere (tabChroma v) * ((A - 1) ^ h * B)) (noiseEquiv r) := by
  let F : SField S N → SField S N := fun w => fun x => Matrix.of fun mu i => ∑ q : S × Fin 4 × Fin N, ((A - 1) ^ h * B) (x, mu, i) q * w q.1 q.2.1 q.2.2
  have hF : HasMatrix F ((A - 1) ^ h * B) := fun w x mu i => rfl
  have e : hoppedInverse D solve r h = F (randomNoise r) := by
    funext x
    ext mu i
    exact hoppedInverse_matrix hD hs h _ x mu i r rfl
  rw [singletResult, e, ← dot_quad ((hasMatrix_gamma v).comp hF) r, mul_comm]

theorem hoppedSource_eq (D : SField S N → SField S N) (r : Noise S N) (k : ℕ) : hoppedSource D r k = hoppedInverse D id r k := by
  induction k with
  | zero => rfl
  | succ k ih => rw [hoppedSource, ih]; rfl

theorem hasMatrix_id : HasMatrix (id : SField S N → SField S N) 1 := by
  intro w x mu i
  rw [Finset.sum_eq_single (x, mu, i)]
  · simp
  · intro q _ hq; rw [one_apply_ne (Ne.symm hq), zero_mul]
  · simp

theorem hoppingResult_quad {D : SField S N → SField S N} {A : Matrix (S × Fin 4 × Fin N) (S × Fin 4 × Fin N) ℂ} (hD : HasMatrix D A)
    (κ : ℝ) (k : ℕ) (v : Fin 16) (r : Noise S N) :
    hoppingResult D κ k v r = 2 * κ * quad (spinEverywhere (tabChroma v) * (A - 1) ^ k) (noiseEquiv r) := by
  have h := singletResult_quad hD (hasMatrix_id (S := S) (N := N)) κ k v r
  rw [Matrix.mul_one] at h
  rw [← h, singletResult, hoppingResult, hoppedSource_eq, mul_comm]

theorem average_noise_quad (A : Matrix (S × Fin 4 × Fin N) (S × Fin 4 × Fin N) ℂ) : average (fun r : Noise S N => quad A (noiseEquiv r)) = trace A := by
  rw [average_equiv noiseEquiv (quad A), average_quad]

theorem variance_noise_quad (A : Matrix (S × Fin 4 × Fin N) (S × Fin 4 × Fin N) ℂ) :
    average (fun r : Noise S N => (Complex.normSq (quad A (noiseEquiv r) - trace A) : ℂ)) = signVariance A := by
  rw [average_equiv noiseEquiv fun r => (Complex.normSq (quad A r - trace A) : ℂ), variance_quad]

theorem operator_green {D : SField S N → SField S N} {A : Matrix (S × Fin 4 × Fin N) (S × Fin 4 × Fin N) ℂ} (hD : HasMatrix D A)
    {G : S → S → Matrix (Fin 4 × Fin N) (Fin 4 × Fin N) ℂ} (hG : IsGreen D G) : A * greenMatrix G = 1 := by
  ext ⟨x, mu, i⟩ ⟨y, j⟩
  have h := congrFun (congrFun (congrFun (hG y j) x) mu) i
  rw [hD] at h
  rw [Matrix.mul_apply, one_apply]
  refine Eq.trans h ?_
  simp only [unitField, Matrix.of_apply, Prod.mk.injEq]

/-- The hopping expansion with its remainder. -/
theorem hopping_expansion {J : Type} [Fintype J] [DecidableEq J] {A B : Matrix J J ℂ} (h : A * B = 1) (m : ℕ) :
    B = ∑ k ∈ Finset.range m, (-1 : ℂ) ^ k • (A - 1) ^ k + (-1 : ℂ) ^ m • ((A - 1) ^ m * B) := by
  induction m with
  | zero => simp
  | succ m ih =>
    have e : (A - 1) ^ (m + 1) * B = (A - 1) ^ m - (A - 1) ^ m * B := by
      rw [pow_succ, Matrix.mul_assoc, Matrix.sub_mul, h, Matrix.one_mul, Matrix.mul_sub, Matrix.mul_one]
    rw [Finset.sum_range_succ, e, pow_succ]
    conv_lhs => rw [ih]
    rw [mul_neg_one, smul_sub, neg_smul, neg_smul]
    abel

theorem trace_spinEverywhere (Γ : SpinMat) : trace (spinEverywhere Γ : Matrix (S × Fin 4 × Fin N) (S × Fin 4 × Fin N) ℂ) = trace Γ * N * Fintype.card S := by
  unfold spinEverywhere
  have h1 := trace_kronecker (1 : Matrix S S ℂ) (kroneckerMap (· * ·) Γ (1 : Mat N))
  have h2 := trace_kronecker Γ (1 : Mat N)
  refine h1.trans ?_
  rw [h2, trace_one, trace_one, Fintype.card_fin]
  ring

theorem trace_chroma (v : Fin 16) : trace (tabChroma v) = if v = 0 then 4 else 0 := by
  have h : ∀ v : Fin 16, trace (tabChromaT v) = if v = 0 then 4 else 0 := by decide +kernel
  unfold tabChroma
  rw [toSpin_trace, h]
  split
  · exact map_ofNat GaussianInt.toComplex 4
  · exact map_zero _

/-! ### Odd orders on even lattices -/

/-- The sign of the parity of a site. -/
def paritySign (T : Torus S) (x : S) : ℂ := (-1) ^ siteParity T x

theorem paritySign_sq (T : Torus S) (x : S) : paritySign T x * paritySign T x = 1 := by
  unfold paritySign
  rw [← mul_pow]; simp

theorem operator_parity {T : Torus S} (hT : EvenExtents T) (U : GField S N) (κ : ℝ) (p q : S × Fin 4 × Fin N) :
    paritySign T p.1 * (operatorMatrix (improvedSpec T U κ 0) - 1 : Matrix _ _ ℂ) p q * paritySign T q.1 = -(operatorMatrix (improvedSpec T U κ 0) - 1 : Matrix _ _ ℂ) p q := by
  obtain ⟨x, mu, i⟩ := p
  obtain ⟨y, j⟩ := q
  have e : (operatorMatrix (improvedSpec T U κ 0) - 1 : Matrix _ _ ℂ) (x, mu, i) (y, j) = -(κ : ℂ) * hoppingSpec T U (unitField y j) x mu i := by
    simp only [Matrix.sub_apply, operatorMatrix, Matrix.of_apply, improvedSpec_zero, wilsonSpec_eq, Pi.add_apply, Pi.smul_apply, Matrix.add_apply, Matrix.smul_apply,
      smul_eq_mul]
    have : unitField y j x mu i = (1 : Matrix (S × Fin 4 × Fin N) (S × Fin 4 × Fin N) ℂ) (x, mu, i) (y, j) := by
      obtain ⟨b, d⟩ := j
      simp only [unitField, Matrix.of_apply, one_apply, Prod.mk.injEq]
    rw [this]
    ring
  rw [e]
  by_cases h : siteParity T x = siteParity T y
  · have hz : hoppingSpec T U (unitField y j) x = hoppingSpec T U 0 x := by
      refine hopping_parity T hT U _ _ _ x h fun z hz => ?_
      have hzy : z ≠ y := by
        rintro rfl
        have := siteParity_lt T z
        omega
      ext a c
      simp [unitField, hzy]
    have h0 : hoppingSpec T U 0 x = 0 := by
      have := hopping_neg T U (0 : SField S N)
      rw [neg_zero] at this
      ext a c
      exact self_eq_neg.1 (congrFun (congrFun (this x) a) c)
    rw [hz, h0]; simp
  · have hs : paritySign T x * paritySign T y = -1 := by
      unfold paritySign
      have h1 := siteParity_lt T x
      have h2 := siteParity_lt T y
      rcases (by omega : (siteParity T x = 0 ∧ siteParity T y = 1) ∨ (siteParity T x = 1 ∧ siteParity T y = 0)) with ⟨a, b⟩ | ⟨a, b⟩ <;> simp [a, b]
    linear_combination (-(κ : ℂ) * hoppingSpec T U (unitField y j) x mu i) * hs

theorem odd_trace {T : Torus S} (hT : EvenExtents T) (U : GField S N) (κ : ℝ) (Γ : SpinMat) {k : ℕ} (hk : Odd k) :
    trace (spinEverywhere Γ * (operatorMatrix (improvedSpec T U κ 0) - 1 : Matrix (S × Fin 4 × Fin N) (S × Fin 4 × Fin N) ℂ) ^ k) = 0 := by
  set H : Matrix (S × Fin 4 × Fin N) (S × Fin 4 × Fin N) ℂ := operatorMatrix (improvedSpec T U κ 0) - 1 with hH
  let E : Matrix (S × Fin 4 × Fin N) (S × Fin 4 × Fin N) ℂ := diagonal fun p => paritySign T p.1
  have hE2 : E * E = 1 := by
    simp only [E, diagonal_mul_diagonal, paritySign_sq]
    exact diagonal_one
  have hEH : E * H * E = -H := by
    ext p q
    simp only [E, mul_diagonal, diagonal_mul, Matrix.neg_apply]
    exact operator_parity hT U κ p q
  have hEHk : ∀ k, E * H ^ k * E = (-1 : ℂ) ^ k • H ^ k := by
    intro k
    induction k with
    | zero => simp [hE2]
    | succ k ih =>
      calc E * H ^ (k + 1) * E = (E * H ^ k * E) * (E * H * E) := by
            rw [pow_succ]
            simp only [Matrix.mul_assoc]
            rw [← Matrix.mul_assoc E E, hE2, Matrix.one_mul]
        _ = _ := by rw [ih, hEH, Matrix.mul_neg, Matrix.smul_mul, ← pow_succ, pow_succ (-1 : ℂ), mul_neg_one, neg_smul]
  have hEΓ : E * spinEverywhere Γ * E = (spinEverywhere Γ : Matrix (S × Fin 4 × Fin N) (S × Fin 4 × Fin N) ℂ) := by
    ext ⟨x, p⟩ ⟨y, q⟩
    simp only [E, mul_diagonal, diagonal_mul, spinEverywhere, kroneckerMap_apply]
    by_cases h : x = y
    · subst h
      linear_combination ((1 : Matrix S S ℂ) x x * (Γ p.1 q.1 * (1 : Mat N) p.2 q.2)) * paritySign_sq T x
    · simp [h]
  have h : trace (spinEverywhere Γ * H ^ k) = -trace (spinEverywhere Γ * H ^ k) := by
    calc trace (spinEverywhere Γ * H ^ k) = trace ((E * spinEverywhere Γ * E) * H ^ k) := by rw [hEΓ]
      _ = trace (spinEverywhere Γ * (E * H ^ k * E)) := by
          rw [Matrix.mul_assoc, Matrix.mul_assoc, trace_mul_comm]
          simp only [Matrix.mul_assoc]
      _ = _ := by rw [hEHk, hk.neg_one_pow, neg_one_smul, Matrix.mul_neg, trace_neg]
  exact self_eq_neg.1 h

end

end

end Leonard
