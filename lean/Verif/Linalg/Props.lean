import Verif.Linalg.Model

/-!
# C97: the self test of the linear algebra
-/

set_option autoImplicit false

namespace Leonard

open Matrix MeasureTheory

noncomputable section

variable {S : Type} {N : ℕ}

theorem differenceNorm_eq [Fintype S] (v w : SField S N) : differenceNorm v w = latticeNorm2 (v - w) := rfl

theorem differenceNorm_zero [Fintype S] (v w : SField S N) : differenceNorm v w = 0 ↔ v = w := by
  rw [differenceNorm_eq, (C34_dot (v - w) w).2.2.1, sub_eq_zero]

theorem latticeDot_add_left [Fintype S] (a b w : SField S N) : latticeDot (a + b) w = latticeDot a w + latticeDot b w := by
  rw [← latticeDot_conj w, latticeDot_add, map_add, latticeDot_conj, latticeDot_conj]

theorem latticeDot_real_right [Fintype S] (c : ℝ) (v w : SField S N) : latticeDot v (c • w) = c • latticeDot v w := by
  have h : c • w = (c : ℂ) • w := by
    funext x; ext mu i
    simp
  rw [h, latticeDot_smul, Complex.real_smul]

theorem latticeDot_real_left [Fintype S] (c : ℝ) (v w : SField S N) : latticeDot (c • v) w = c • latticeDot v w := by
  rw [← latticeDot_conj w, latticeDot_real_right, Complex.real_smul, map_mul, Complex.conj_ofReal, latticeDot_conj, Complex.real_smul]

theorem hermitianTest_zero [Fintype S] {A : SField S N → SField S N} (h : ∀ v w, latticeDot v (A w) = latticeDot (A v) w) (a b : SField S N) :
    hermitianTest A a b = 0 := by
  unfold hermitianTest
  simp only
  rw [h b a, sub_self, map_zero]

/-- **C97**: the test raises no false alarm. For every lattice, all links, blocks and vectors, and an exact inverter of the square of the block operator, every number
which is printed is zero. -/
theorem C97_silent [Fintype S] (T : Torus S) (U : GField S N) (idx : S → Bool) (κ : ℝ) (solve : SField S N → SField S N)
    (hs : ∀ b, blockMul T idx U (1 / 10) 0 true (blockMul T idx U (1 / 10) 0 true (solve b)) = b) (a₁ a₂ b₁ b₂ z : SField S N) :
    ∀ r ∈ linearAlgebraTest T U idx κ solve a₁ a₂ b₁ b₂ z, r = 0 := by
  have hB : ∀ v w, latticeDot v (blockMul T idx U (1 / 10) 0 true w) = latticeDot (blockMul T idx U (1 / 10) 0 true v) w := by
    intro v w
    have h := C34_block T idx U (1 / 10) 0 v w
    rwa [neg_zero] at h
  have hD : ∀ v w, latticeDot v (optMul T U (1 / 10) true w) = latticeDot (optMul T U (1 / 10) true v) w := fun v w => (C34_hermitian T U (1 / 10) 0 v w).1
  have hsolve : ∀ v w, latticeDot v (solve w) = latticeDot (solve v) w := by
    intro v w
    conv_lhs => rw [← hs v]
    conv_rhs => rw [← hs w]
    rw [hB (solve v), hB]
  have hmul : ∀ v, improvedMul T U κ 0 true v = optMul T U κ true v := by
    intro v
    rw [C33_improved, (C33_wilson T U κ true v).1, improvedSpec_zero]
  have hbas : ∀ v, basicMul T U κ true v = optMul T U κ true v := by
    intro v
    rw [(C33_wilson T U κ true v).2, (C33_wilson T U κ true v).1]
  have hadd : optMulAdd T U κ true z z 0 = optMul T U κ true z := by
    have h : Outcome.ok (optMulAdd T U κ true z z 0) = Outcome.ok (optMul T U κ true z + (0 : ℂ) • z) := (C33_add T U κ 0 0 true id).1 z z z 0
    rw [Outcome.ok.inj h, zero_smul, add_zero]
  have hadd' : improvedMulAdd T U κ 0 true z z 0 = optMul T U κ true z := by
    have h : Outcome.ok (improvedMulAdd T U κ 0 true z z 0) = Outcome.ok (improvedMul T U κ 0 true z + (0 : ℂ) • z) := (C33_add T U κ 0 0 true id).2.2.1 z z z 0
    rw [Outcome.ok.inj h, zero_smul, add_zero, hmul]
  intro r hr
  simp only [linearAlgebraTest, List.mem_cons, List.not_mem_nil, or_false] at hr
  rcases hr with rfl | rfl | rfl | rfl | rfl | rfl | rfl | rfl | rfl
  · exact hermitianTest_zero hD a₁ a₂
  · exact hermitianTest_zero (fun v w => (C34_hermitian T U (1 / 10) 1 v w).2.2) b₁ b₂
  · exact hermitianTest_zero hB b₁ b₂
  · exact hermitianTest_zero (fun v w => by rw [hB, hB]) b₁ b₂
  · exact hermitianTest_zero (fun v w => by unfold squareComplementMul; rw [hD, hsolve, hD]) b₁ b₂
  · rw [differenceNorm_zero, hadd, hadd']
  · rw [differenceNorm_zero, hmul]
  · rw [differenceNorm_zero, hmul, hadd']
  · rw [differenceNorm_zero, hmul, hbas]

/-! ### What the test finds -/

/-- The random vector as a real linear function of the numbers. -/
def randomVectorLin : (S × Fin 4 × Fin N → ℝ × ℝ) →ₗ[ℝ] SField S N where
  toFun := randomVector
  map_add' u v := by
    funext x; ext mu c
    apply Complex.ext <;> simp [randomVector]
  map_smul' a u := by
    funext x; ext mu c
    apply Complex.ext <;> simp [randomVector]

theorem randomVectorLin_surjective : Function.Surjective (randomVectorLin (S := S) (N := N)) := by
  intro v
  refine ⟨fun p => ((v p.1 p.2.1 p.2.2).re, (v p.1 p.2.1 p.2.2).im), ?_⟩
  funext x; ext mu c
  apply Complex.ext <;> simp [randomVectorLin, randomVector]

/-- A real linear function which is not zero is different from zero at almost every random vector. -/
theorem ae_linear_ne_zero [Fintype S] {E : Type} [AddCommGroup E] [Module ℝ E] (L : SField S N →ₗ[ℝ] E) (hL : L ≠ 0) :
    ∀ᵐ u ∂randomVectorLaw S N, L (randomVector u) ≠ 0 := by
  have hk : LinearMap.ker (L ∘ₗ randomVectorLin (S := S) (N := N)) ≠ ⊤ := by
    intro h
    rw [LinearMap.ker_eq_top] at h
    apply hL
    refine LinearMap.ext fun v => ?_
    obtain ⟨u, rfl⟩ := randomVectorLin_surjective v
    exact LinearMap.congr_fun h u
  haveI : (volume : Measure (ℝ × ℝ)).IsAddHaarMeasure := inferInstanceAs (((volume : Measure ℝ).prod (volume : Measure ℝ)).IsAddHaarMeasure)
  haveI : (volume : Measure (S × Fin 4 × Fin N → ℝ × ℝ)).IsAddHaarMeasure :=
    inferInstanceAs ((Measure.pi fun _ : S × Fin 4 × Fin N => (volume : Measure (ℝ × ℝ))).IsAddHaarMeasure)
  have h0 : (volume : Measure (S × Fin 4 × Fin N → ℝ × ℝ)) (LinearMap.ker (L ∘ₗ randomVectorLin (S := S) (N := N)) : Set _) = 0 :=
    Measure.addHaar_submodule volume _ hk
  have hac : randomVectorLaw S N ≪ (volume : Measure (S × Fin 4 × Fin N → ℝ × ℝ)) := by
    have e : randomVectorLaw S N = (volume : Measure (S × Fin 4 × Fin N → ℝ × ℝ)).restrict (Set.univ.pi fun _ => Set.Icc 0 1 ×ˢ Set.Icc 0 1) := by
      rw [volume_pi, Measure.restrict_pi_pi]
      unfold randomVectorLaw
      congr 1
      funext _
      rw [Measure.prod_restrict]
      rfl
    rw [e]
    exact Measure.restrict_le_self.absolutelyContinuous
  rw [ae_iff]
  refine measure_mono_null ?_ (hac h0)
  intro u hu
  have hu' : L (randomVector u) = 0 := by simpa using hu
  exact hu'

instance [Fintype S] : IsProbabilityMeasure (randomVectorLaw S N) := by
  have h : IsProbabilityMeasure ((volume : Measure ℝ).restrict (Set.Icc 0 1)) := ⟨by simp⟩
  unfold randomVectorLaw
  infer_instance

/-- **C97**: an operator which is linear but not Hermitian is found. For almost every first vector, the number printed is different from zero for almost every second one. -/
theorem C97_hermitian [Fintype S] (A : SField S N →ₗ[ℂ] SField S N) (hA : ¬ ∀ v w, latticeDot v (A w) = latticeDot (A v) w) :
    ∀ᵐ u₁ ∂randomVectorLaw S N, ∀ᵐ u₂ ∂randomVectorLaw S N, hermitianTest A (randomVector u₁) (randomVector u₂) ≠ 0 := by
  let B : SField S N →ₗ[ℝ] SField S N →ₗ[ℝ] ℂ := LinearMap.mk₂ ℝ (fun t₁ t₂ => latticeDot t₂ (A t₁) - latticeDot (A t₂) t₁)
    (fun a b t => by rw [map_add, latticeDot_add, latticeDot_add]; ring)
    (fun c a t => by rw [A.map_smul_of_tower, latticeDot_real_right, latticeDot_real_right, smul_sub])
    (fun t a b => by rw [map_add, latticeDot_add_left, latticeDot_add_left]; ring)
    (fun c t a => by rw [A.map_smul_of_tower, latticeDot_real_left, latticeDot_real_left, smul_sub])
  have hB : B ≠ 0 := by
    intro h
    apply hA
    intro v w
    have h1 : B w v = 0 := by rw [h]; rfl
    exact sub_eq_zero.1 h1
  filter_upwards [ae_linear_ne_zero B hB] with u₁ h₁
  filter_upwards [ae_linear_ne_zero (B (randomVector u₁)) h₁] with u₂ h₂
  intro h
  apply h₂
  exact Complex.normSq_eq_zero.1 h

/-- **C97**: two linear operators which are not the same are told apart by almost every random vector. -/
theorem C97_difference [Fintype S] (A B : SField S N →ₗ[ℂ] SField S N) (h : A ≠ B) :
    ∀ᵐ u ∂randomVectorLaw S N, differenceNorm (A (randomVector u)) (B (randomVector u)) ≠ 0 := by
  have hL : (A - B).restrictScalars ℝ ≠ 0 := by
    intro h0
    apply h
    refine LinearMap.ext fun v => ?_
    have h1 := LinearMap.congr_fun h0 v
    exact sub_eq_zero.1 h1
  filter_upwards [ae_linear_ne_zero _ hL] with u hu
  rw [Ne, differenceNorm_zero]
  intro e
  apply hu
  exact sub_eq_zero.2 e

/-- **C97**: a wrong multiply-and-add is not found, since it is tested with the factor zero only. The operation which forgets the second vector gives zero in both
tests for all vectors, although it is wrong for all links and for every lattice with at least one site and colour. -/
theorem C97_add_counterexample [Fintype S] [Nonempty S] (hN : 0 < N) (T : Torus S) (U : GField S N) (κ : ℝ) :
    ∃ mulAdd : SField S N → SField S N → ℂ → SField S N,
      (∀ z, differenceNorm (optMulAdd T U κ true z z 0) (mulAdd z z 0) = 0 ∧ differenceNorm (improvedMul T U κ 0 true z) (mulAdd z z 0) = 0)
      ∧ ∃ v w α, mulAdd v w α ≠ improvedMul T U κ 0 true v + α • w := by
  have hmul : ∀ v, improvedMul T U κ 0 true v = optMul T U κ true v := by
    intro v
    rw [C33_improved, (C33_wilson T U κ true v).1, improvedSpec_zero]
  refine ⟨fun v _ _ => improvedMul T U κ 0 true v, fun z => ⟨?_, ?_⟩, 0, fun _ => Matrix.of fun _ _ => 1, 1, ?_⟩
  · have h : Outcome.ok (optMulAdd T U κ true z z 0) = Outcome.ok (optMul T U κ true z + (0 : ℂ) • z) := (C33_add T U κ 0 0 true id).1 z z z 0
    rw [differenceNorm_zero, Outcome.ok.inj h, zero_smul, add_zero]
    exact (hmul z).symm
  · rw [differenceNorm_zero]
  · intro h
    have h1 : (1 : ℂ) • (fun _ => Matrix.of fun _ _ => 1 : SField S N) = 0 := by
      simpa using h
    obtain ⟨x⟩ := ‹Nonempty S›
    have h2 := congrFun (congrFun (congrFun h1 x) 0) ⟨0, hN⟩
    simp at h2

/-- `C97_hermitian` and `C97_difference`: multiplication with the imaginary unit is linear and not Hermitian, and it is not the identity. -/
example : (¬ ∀ v w : SField Unit 3, latticeDot v ((Complex.I • LinearMap.id : SField Unit 3 →ₗ[ℂ] SField Unit 3) w)
      = latticeDot ((Complex.I • LinearMap.id : SField Unit 3 →ₗ[ℂ] SField Unit 3) v) w)
    ∧ (Complex.I • LinearMap.id : SField Unit 3 →ₗ[ℂ] SField Unit 3) ≠ LinearMap.id := by
  constructor
  · intro h
    have h1 := h (fun _ => Matrix.of fun _ _ => 1) (fun _ => Matrix.of fun _ _ => 1)
    simp [latticeDot] at h1
    have h2 := congrArg Complex.im h1
    norm_num at h2
  · intro h
    have h1 := congrFun (congrFun (congrFun (LinearMap.congr_fun h (fun _ => Matrix.of fun _ _ => 1)) ()) 0) 0
    simp at h1
    have h2 := congrArg Complex.im h1
    norm_num at h2

end

end Leonard
