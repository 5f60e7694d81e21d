import Verif.Singlet.Lemmas
import Verif.Npr.Props

/-!
# C76: the operators of the singlet mesons and their hopping expansion
-/

set_option autoImplicit false

namespace Leonard

open Matrix

noncomputable section

variable {S : Type} {N : ℕ}

theorem IsWilsonType.matrix [Fintype S] [DecidableEq S] {T : Torus S} {κ : ℝ} {D : GField S N → SField S N → SField S N} (hD : IsWilsonType T κ D)
    (U : GField S N) : HasMatrix (D U) (operatorMatrix (D U)) := by
  obtain ⟨csw, hD⟩ := hD.spec
  rw [hD]
  exact hasMatrix_improved T U κ csw

/-- **C76**: with an exact inverter the numbers which are written for the operators with the inverse are, over equally probable noise, unbiased: the
mean value is `2κ` times the trace of the product of gamma matrices `v`, the hopping part to the power `h` and the inverse of the operator; the
variance is that of noise with values one and minus one. -/
theorem C76_inverse [Fintype S] [DecidableEq S] (T : Torus S) {κ : ℝ} {D : GField S N → SField S N → SField S N} (hD : IsWilsonType T κ D)
    (U : GField S N) (solve : SField S N → SField S N) (hs : ∀ b, D U (solve b) = b) {G : S → S → Matrix (Fin 4 × Fin N) (Fin 4 × Fin N) ℂ}
    (hG : IsGreen (D U) G) :
    ∃ Z : ℕ → Fin 16 → Noise S N → ℂ,
      (∀ rs, singletInverseOutput (D U) solve κ rs = (List.range 9).map fun h => (List.finRange 16).map fun v => rs.map (Z h v))
      ∧ ∀ h v, let A := spinEverywhere (gammaBits v) * (operatorMatrix (D U) - 1) ^ h * greenMatrix G
          average (Z h v) = 2 * κ * trace A
          ∧ average (fun r => (Complex.normSq (Z h v r - 2 * κ * trace A) : ℂ)) = 4 * (κ : ℂ) ^ 2 * signVariance A := by
  refine ⟨singletResult (D U) solve κ, fun rs => rfl, fun h v => ?_⟩
  have hm := hD.matrix U
  have hsol : HasMatrix solve (greenMatrix G) := by
    obtain ⟨csw, hD⟩ := hD.spec
    rw [hD] at hs hG
    exact hasMatrix_solve hs hG
  have e : ∀ r, singletResult (D U) solve κ h v r = 2 * κ * quad (spinEverywhere (gammaBits v) * (operatorMatrix (D U) - 1) ^ h * greenMatrix G) (noiseEquiv r) := by
    intro r
    rw [singletResult_quad hm hsol, Matrix.mul_assoc, C32_chroma]
    rfl
  intro A
  constructor
  · rw [funext e, average_mul, average_noise_quad]
  · simp only [e, ← mul_sub, map_mul]
    have h4 : ∀ z : ℝ, ((Complex.normSq 2 * Complex.normSq (κ : ℂ) * z : ℝ) : ℂ) = 4 * (κ : ℂ) ^ 2 * z := by
      intro z
      rw [Complex.normSq_ofReal, show Complex.normSq 2 = 4 by norm_num [Complex.normSq_apply]]
      push_cast
      ring
    simp only [h4]
    rw [average_mul, variance_noise_quad]

/-- **C76**: the same for the numbers which are written for the terms of the hopping expansion, which need no inverter. -/
theorem C76_hopping [Fintype S] [DecidableEq S] (T : Torus S) {κ : ℝ} {D : GField S N → SField S N → SField S N} (hD : IsWilsonType T κ D)
    (U : GField S N) :
    ∃ Z : ℕ → Fin 16 → Noise S N → ℂ,
      (∀ rs, singletHoppingOutput (D U) κ rs = (List.range' 1 7).map fun k => rs.map fun r => (List.finRange 16).map fun v => Z k v r)
      ∧ ∀ k v, let A := spinEverywhere (gammaBits v) * (operatorMatrix (D U) - 1) ^ k
          average (Z k v) = 2 * κ * trace A
          ∧ average (fun r => (Complex.normSq (Z k v r - 2 * κ * trace A) : ℂ)) = 4 * (κ : ℂ) ^ 2 * signVariance A := by
  refine ⟨hoppingResult (D U) κ, fun rs => rfl, fun k v => ?_⟩
  have hm := hD.matrix U
  have e : ∀ r, hoppingResult (D U) κ k v r = 2 * κ * quad (spinEverywhere (gammaBits v) * (operatorMatrix (D U) - 1) ^ k) (noiseEquiv r) := by
    intro r
    rw [hoppingResult_quad hm, C32_chroma]
    rfl
  intro A
  constructor
  · rw [funext e, average_mul, average_noise_quad]
  · simp only [e, ← mul_sub, map_mul]
    have h4 : ∀ z : ℝ, ((Complex.normSq 2 * Complex.normSq (κ : ℂ) * z : ℝ) : ℂ) = 4 * (κ : ℂ) ^ 2 * z := by
      intro z
      rw [Complex.normSq_ofReal, show Complex.normSq 2 = 4 by norm_num [Complex.normSq_apply]]
      push_cast
      ring
    simp only [h4]
    rw [average_mul, variance_noise_quad]

theorem sum_Icc_shift (m : ℕ) (f : ℕ → ℂ) : ∑ k ∈ Finset.Icc 1 m, f k = ∑ k ∈ Finset.range m, f (k + 1) := by
  induction m with
  | zero => simp
  | succ m ih => rw [Finset.sum_range_succ, ← ih, Finset.sum_Icc_succ_top (by omega)]

/-- **C76**: how the numbers belong together. The trace with the inverse is the trace of the product of gamma matrices, which is known, plus the terms of
the hopping expansion below order `m` with alternating signs, plus the remainder of order `m`, which is the trace with the inverse after `m` hoppings. -/
theorem C76_expansion [Fintype S] [DecidableEq S] (T : Torus S) {κ : ℝ} {D : GField S N → SField S N → SField S N} (hD : IsWilsonType T κ D)
    (U : GField S N) (solve : SField S N → SField S N) (hs : ∀ b, D U (solve b) = b) (v : Fin 16) (m : ℕ) :
    average (singletResult (D U) solve κ 0 v) = (if v = 0 then 2 * κ * (4 * N * Fintype.card S) else 0 : ℂ)
      + ∑ k ∈ Finset.Icc 1 m, (-1) ^ k * average (hoppingResult (D U) κ k v) + (-1) ^ (m + 1) * average (singletResult (D U) solve κ (m + 1) v) := by
  have hm := hD.matrix U
  have hsol : HasMatrix solve (greenMatrix fun x y => Matrix.of fun p q => solve (unitField y q) x p.1 p.2) := by
    obtain ⟨csw, hD⟩ := hD.spec
    rw [hD] at hs
    exact hasMatrix_solve hs (green_exists hs)
  have hg := operator_green hm (green_exists hs)
  generalize greenMatrix (fun x y => Matrix.of fun p q => solve (unitField y q) x p.1 p.2) = B at *
  generalize operatorMatrix (D U) = A at *
  have e1 : ∀ h, average (singletResult (D U) solve κ h v) = 2 * κ * trace (spinEverywhere (tabChroma v) * ((A - 1) ^ h * B)) := by
    intro h
    rw [funext (singletResult_quad hm hsol κ h v), average_mul, average_noise_quad]
  have e2 : ∀ k, average (hoppingResult (D U) κ k v) = 2 * κ * trace (spinEverywhere (tabChroma v) * (A - 1) ^ k) := by
    intro k
    rw [funext (hoppingResult_quad hm κ k v), average_mul, average_noise_quad]
  simp only [e1, e2]
  have h := hopping_expansion hg (m + 1)
  rw [pow_zero, Matrix.one_mul]
  conv_lhs => rw [h]
  rw [Finset.sum_range_succ', Matrix.mul_add, Matrix.mul_add, Finset.mul_sum, trace_add, trace_add, trace_sum]
  simp only [Matrix.mul_smul, trace_smul, smul_eq_mul, pow_zero, one_mul, Matrix.mul_one]
  rw [trace_spinEverywhere, trace_chroma, sum_Icc_shift]
  rw [mul_add, mul_add, Finset.mul_sum]
  have hsum : ∀ k, 2 * (κ : ℂ) * ((-1) ^ (k + 1) * trace (spinEverywhere (tabChroma v) * (A - 1) ^ (k + 1)))
      = (-1) ^ (k + 1) * (2 * κ * trace (spinEverywhere (tabChroma v) * (A - 1) ^ (k + 1))) := fun k => by ring
  simp only [hsum]
  split <;> ring

/-- **C76**: on lattices with even extents the terms of odd order of the operator without clover term have mean value zero. -/
theorem C76_odd [Fintype S] [DecidableEq S] (T : Torus S) (hT : EvenExtents T) (κ : ℝ) (U : GField S N) (v : Fin 16) {k : ℕ} (hk : Odd k) :
    average (hoppingResult (optMul T U κ false) κ k v) = 0 ∧ average (hoppingResult (basicMul T U κ false) κ k v) = 0 := by
  have key : average (hoppingResult (improvedSpec T U κ 0) κ k v) = 0 := by
    rw [funext (hoppingResult_quad (hasMatrix_improved T U κ 0) κ k v), average_mul, average_noise_quad, odd_trace hT U κ _ hk, mul_zero]
  have h1 : optMul T U κ false = improvedSpec T U κ 0 := funext fun v => by rw [(C33_wilson T U κ false v).1, improvedSpec_zero]; rfl
  have h2 : basicMul T U κ false = improvedSpec T U κ 0 := funext fun v => by rw [(C33_wilson T U κ false v).2, improvedSpec_zero]; rfl
  rw [h1, h2]
  exact ⟨key, key⟩

/-- **C76**: every number written with the inverse after `h` hoppings is bounded by the power `h` of the bound on the hopping part, whatever the noise. -/
theorem C76_tail [Fintype S] (T : Torus S) {U : GField S N} (hU : ∀ x μ, U x μ ∈ unitaryGroup (Fin N) ℂ) {κ csw : ℝ}
    (hκ : |κ| * (8 + 6 * |csw|) < 1) (solve : SField S N → SField S N) (hs : ∀ b, improvedMul T U κ csw false (solve b) = b) (h : ℕ) (v : Fin 16) (r : Noise S N) :
    ‖singletResult (improvedMul T U κ csw false) solve κ h v r‖
      ≤ 2 * |κ| * (4 * N * Fintype.card S) * (|κ| * (8 + 6 * |csw|)) ^ h / (1 - |κ| * (8 + 6 * |csw|)) := by
  have hD : improvedMul T U κ csw false = improvedSpec T U κ csw := funext fun v => by rw [C33_improved]; rfl
  rw [hD] at hs ⊢
  set q := |κ| * (8 + 6 * |csw|) with hq
  have hq0 : 0 ≤ q := by positivity
  have hη : ‖toE (randomNoise r)‖ ^ 2 = 4 * N * Fintype.card S := by
    rw [norm_toE, fieldNorm, Real.sq_sqrt (by positivity)]
    have : ∀ x mu i, ‖randomNoise r x mu i‖ ^ 2 = 1 := by
      intro x mu i
      simp only [randomNoise, Matrix.of_apply]
      split <;> simp
    simp only [this, Finset.sum_const, Finset.card_univ, Fintype.card_fin, smul_eq_mul, nsmul_eq_mul, mul_one]
    push_cast
    ring
  have h0 : ‖toE (solve (randomNoise r))‖ ≤ ‖toE (randomNoise r)‖ / (1 - q) := by
    have h1 := norm_improved_sub (T := T) hU κ csw (solve (randomNoise r))
    rw [hs] at h1
    rw [le_div_iff₀ (by linarith)]
    have h2 := norm_sub_norm_le (toE (solve (randomNoise r))) (toE (randomNoise r))
    rw [norm_sub_rev] at h2
    linarith
  have hstep : ∀ n, ‖toE (hoppedInverse (improvedSpec T U κ csw) solve r n)‖ ≤ q ^ n * (‖toE (randomNoise r)‖ / (1 - q)) := by
    intro n
    induction n with
    | zero => rw [pow_zero, one_mul]; exact h0
    | succ n ih =>
      have h1 := norm_improved_sub (T := T) hU κ csw (hoppedInverse (improvedSpec T U κ csw) solve r n)
      have e : toE (hoppedInverse (improvedSpec T U κ csw) solve r (n + 1))
          = toE (improvedSpec T U κ csw (hoppedInverse (improvedSpec T U κ csw) solve r n)) - toE (hoppedInverse (improvedSpec T U κ csw) solve r n) := rfl
      rw [e, pow_succ']
      calc _ ≤ q * ‖toE (hoppedInverse (improvedSpec T U κ csw) solve r n)‖ := h1
        _ ≤ q * (q ^ n * (‖toE (randomNoise r)‖ / (1 - q))) := mul_le_mul_of_nonneg_left ih hq0
        _ = _ := by ring
  have hg : ∀ w : SField S N, ‖toE (gammaApply v w)‖ = ‖toE w‖ := by
    intro w
    have hΓ : (tabChroma v)ᴴ * tabChroma v = 1 := by
      have : ∀ v : Fin 16, (tabChromaT v)ᴴ * tabChromaT v = 1 := by decide +kernel
      unfold tabChroma
      rw [← toSpin_conjTranspose, ← toSpin_mul, this, toSpin_one]
    have e : gammaApply v w = actField (tabChroma v) (fun _ => (1 : Mat N)) w := by
      funext x
      ext mu i
      simp [gammaApply, actField, Matrix.mul_apply]
    rw [e]
    exact norm_actField hΓ (fun x => by simp) w
  rw [singletResult, ← inner_toE, norm_mul, norm_mul, Complex.norm_real, Real.norm_eq_abs, Complex.norm_ofNat]
  have hin := norm_inner_le_norm (𝕜 := ℂ) (toE (randomNoise r)) (toE (gammaApply v (hoppedInverse (improvedSpec T U κ csw) solve r h)))
  rw [hg] at hin
  have hfin : ‖inner ℂ (toE (randomNoise r)) (toE (gammaApply v (hoppedInverse (improvedSpec T U κ csw) solve r h)))‖
      ≤ (4 * N * Fintype.card S) * q ^ h / (1 - q) := by
    refine hin.trans ((mul_le_mul_of_nonneg_left (hstep h) (norm_nonneg _)).trans (le_of_eq ?_))
    rw [← hη]
    ring
  calc _ ≤ (4 * N * Fintype.card S) * q ^ h / (1 - q) * (2 * |κ|) := mul_le_mul_of_nonneg_right hfin (by positivity)
    _ = _ := by ring

end

end Leonard
