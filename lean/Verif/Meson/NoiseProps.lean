import Verif.Meson.Moments
import Verif.Meson.Props
import Verif.Meson.BoundProps

/-!
# C62: stochastic estimators
-/

set_option autoImplicit false

namespace Leonard

open Matrix

variable {S : Type} {N : ℕ}

/-- **Specification.** The Green function as a matrix on all components of a field. -/
def greenMatrix (G : S → S → Matrix (Fin 4 × Fin N) (Fin 4 × Fin N) ℂ) : Matrix (S × Fin 4 × Fin N) (S × Fin 4 × Fin N) ℂ :=
  Matrix.of fun p q => G p.1 q.1 p.2 q.2

/-- **Specification.** γ₅ on all components of a field. -/
noncomputable def gamma5Matrix [DecidableEq S] : Matrix (S × Fin 4 × Fin N) (S × Fin 4 × Fin N) ℂ :=
  kroneckerMap (· * ·) (1 : Matrix S S ℂ) (kroneckerMap (· * ·) tabGamma5 (1 : Mat N))

/-- The bits of a noise vector by component. -/
def noiseEquiv : Noise S N ≃ (S × Fin 4 × Fin N → Bool) where
  toFun r p := r p.1 p.2.1 p.2.2
  invFun b x mu i := b (x, mu, i)
  left_inv _ := rfl
  right_inv _ := rfl

theorem randomNoise_apply (r : Noise S N) (x : S) (mu : Fin 4) (i : Fin N) : randomNoise r x mu i = eta (noiseEquiv r) (x, mu, i) := rfl

section
variable [Fintype S] [DecidableEq S] {T : Torus S} {V : GField S N} {κ csw : ℝ} {solve : SField S N → SField S N}
  {G : S → S → Matrix (Fin 4 × Fin N) (Fin 4 × Fin N) ℂ}

/-- An exact inverter is the multiplication by the Green function. -/
theorem solve_green (hs : ∀ b, improvedSpec T V κ csw (solve b) = b) (hG : IsGreen (improvedSpec T V κ csw) G) (b : SField S N) (x : S) (mu : Fin 4) (i : Fin N) :
    solve b x mu i = ∑ q : S × Fin 4 × Fin N, greenMatrix G (x, mu, i) q * b q.1 q.2.1 q.2.2 := by
  have h : solve b = ∑ q : S × Fin 4 × Fin N, b q.1 q.2.1 q.2.2 • fun x => Matrix.of fun mu i => G x q.1 (mu, i) q.2 := by
    refine improved_injective (fun b => ⟨solve b, hs b⟩) ?_
    rw [hs]
    have h := map_sum (improvedLin T V κ csw) (fun q : S × Fin 4 × Fin N => b q.1 q.2.1 q.2.2 • fun x => Matrix.of fun mu i => G x q.1 (mu, i) q.2) Finset.univ
    simp only [map_smul] at h
    refine Eq.trans ?_ h.symm
    have h' : ∀ q : S × Fin 4 × Fin N, improvedLin T V κ csw (fun x => Matrix.of fun mu i => G x q.1 (mu, i) q.2) = unitField q.1 q.2 := fun q => hG q.1 q.2
    simp only [h']
    funext x
    ext mu i
    simp only [Finset.sum_apply, Matrix.sum_apply, Pi.smul_apply, Matrix.smul_apply, unitField, Matrix.of_apply, smul_eq_mul]
    rw [Finset.sum_eq_single (x, mu, i)]
    · simp
    · rintro ⟨y, q⟩ _ hq
      rw [if_neg, mul_zero]
      rintro ⟨rfl, rfl⟩
      exact hq rfl
    · simp
  rw [h]
  simp only [Finset.sum_apply, Matrix.sum_apply, Pi.smul_apply, Matrix.smul_apply, Matrix.of_apply, smul_eq_mul, greenMatrix]
  exact Finset.sum_congr rfl fun q _ => mul_comm _ _

theorem latticeDot_prod (v w : SField S N) : latticeDot v w = ∑ p : S × Fin 4 × Fin N, starRingEnd ℂ (v p.1 p.2.1 p.2.2) * w p.1 p.2.1 p.2.2 := by
  simp only [latticeDot, Fintype.sum_prod_type]

/-- What one pass computes, as quadratic forms of the noise. -/
theorem condensatePass_quad (hs : ∀ b, improvedSpec T V κ csw (solve b) = b) (hG : IsGreen (improvedSpec T V κ csw) G) (r : Noise S N) :
    condensatePass solve r = (quad (greenMatrix G) (noiseEquiv r) / Fintype.card S, quad (gamma5Matrix * greenMatrix G) (noiseEquiv r) / Fintype.card S,
      quad ((greenMatrix G)ᴴ * greenMatrix G) (noiseEquiv r) / Fintype.card S, quad (greenMatrix G * greenMatrix G) (noiseEquiv r) / Fintype.card S) := by
  have hn : ∀ p : S × Fin 4 × Fin N, randomNoise r p.1 p.2.1 p.2.2 = eta (noiseEquiv r) p := fun p => rfl
  have hsol : ∀ (b : SField S N) (p : S × Fin 4 × Fin N), solve b p.1 p.2.1 p.2.2 = ∑ q : S × Fin 4 × Fin N, greenMatrix G p q * b q.1 q.2.1 q.2.2 :=
    fun b p => solve_green hs hG b p.1 p.2.1 p.2.2
  have hg5 : ∀ (M : Matrix (S × Fin 4 × Fin N) (S × Fin 4 × Fin N) ℂ) p q, (gamma5Matrix * M : Matrix (S × Fin 4 × Fin N) (S × Fin 4 × Fin N) ℂ) p q = spinSign p.2.1 * M p q := by
    rintro M ⟨x, mu, i⟩ q
    rw [Matrix.mul_apply, Finset.sum_eq_single (x, mu, i)]
    · simp [gamma5Matrix, kroneckerMap_apply, gamma5_eq_diagonal]
    · rintro ⟨y, nu, j⟩ _ hne
      have : gamma5Matrix (x, mu, i) (y, nu, j) = 0 := by
        simp only [gamma5Matrix, kroneckerMap_apply, gamma5_eq_diagonal, one_apply, diagonal_apply]
        by_cases h1 : x = y
        · by_cases h2 : mu = nu
          · by_cases h3 : i = j
            · subst h1 h2 h3; exact absurd rfl hne
            · simp [h3]
          · simp [h2]
        · simp [h1]
      rw [this, zero_mul]
    · simp
  unfold condensatePass
  refine Prod.ext ?_ (Prod.ext ?_ (Prod.ext ?_ ?_))
  · refine congrArg (fun z : ℂ => z / _) ?_
    rw [latticeDot_prod]
    simp only [hsol, hn, eta_conj, quad, Finset.mul_sum]
    exact Finset.sum_congr rfl fun p _ => Finset.sum_congr rfl fun q _ => by ring
  · refine congrArg (fun z : ℂ => z / _) ?_
    rw [(C34_dot _ _).2.2.2.2.2, (C34_dot _ (randomNoise r)).2.2.2.2.1, latticeDot_prod]
    simp only [gamma5Field_apply, hsol, hn, eta_conj, quad, hg5, Finset.mul_sum]
    exact Finset.sum_congr rfl fun p _ => Finset.sum_congr rfl fun q _ => by ring
  · refine congrArg (fun z : ℂ => z / _) ?_
    rw [latticeDot_prod]
    simp only [hsol, hn, quad, Matrix.mul_apply, conjTranspose_apply, map_sum, map_mul, eta_conj, Complex.star_def, Finset.sum_mul, Finset.mul_sum]
    rw [Finset.sum_comm]
    symm
    rw [Finset.sum_comm]
    symm
    refine Finset.sum_congr rfl fun p _ => ?_
    rw [Finset.sum_comm]
    exact Finset.sum_congr rfl fun q _ => Finset.sum_congr rfl fun k _ => by ring
  · refine congrArg (fun z : ℂ => z / _) ?_
    rw [latticeDot_prod]
    simp only [hsol, hn, eta_conj, quad, Matrix.mul_apply, Finset.mul_sum, Finset.sum_mul]
    refine Finset.sum_congr rfl fun p _ => ?_
    rw [Finset.sum_comm]
    exact Finset.sum_congr rfl fun q _ => Finset.sum_congr rfl fun k _ => by ring

end

theorem listMean_ofFn {n : ℕ} (hn : 0 < n) (f : Fin n → ℂ) : listMean (List.ofFn f) = some ((∑ k, f k) / n) := by
  unfold listMean
  rw [List.length_ofFn, if_neg hn.ne', ← List.sum_eq_foldl, List.sum_ofFn]

/-- **C62**: `ChiralCondensate` with an exact inverter and `n` passes. Over equally probable noise, what is written for the condensate, its pseudoscalar
partner, the norm of the pion and the connected susceptibility has as mean value the trace per site of the inverse operator, of the inverse with γ₅, of
the inverse times its adjoint, and of the square of the inverse, for every number of passes; and the variance is the sum over the elements off the
diagonal, divided by the number of passes. -/
theorem C62_unbiased [Fintype S] [DecidableEq S] [Nonempty S] (T : Torus S) {κ : ℝ} {D : GField S N → SField S N → SField S N} (hD : IsWilsonType T κ D)
    (U : GField S N) (solve : SField S N → SField S N) (hs : ∀ b, D U (solve b) = b) {G : S → S → Matrix (Fin 4 × Fin N) (Fin 4 × Fin N) ℂ}
    (hG : IsGreen (D U) G) {n : ℕ} (hn : 0 < n) :
    ∃ Z : Fin 4 → (Fin n → Noise S N) → ℂ,
      (∀ rs, condensateExecute solve (List.ofFn rs) = (some (Z 0 rs), some (Z 1 rs), some (Z 2 rs), some (Z 3 rs)))
      ∧ ∀ k, let A := ![greenMatrix G, gamma5Matrix * greenMatrix G, (greenMatrix G)ᴴ * greenMatrix G, greenMatrix G * greenMatrix G] k
          average (Z k) = trace A / Fintype.card S
          ∧ average (fun rs => (Complex.normSq (Z k rs - trace A / Fintype.card S) : ℂ)) = signVariance A / (n * (Fintype.card S : ℂ) ^ 2) := by
  obtain ⟨csw, hD⟩ := hD.spec
  rw [hD] at hs hG
  have hS : (Fintype.card S : ℂ) ≠ 0 := by exact_mod_cast Fintype.card_ne_zero
  let A : Fin 4 → Matrix (S × Fin 4 × Fin N) (S × Fin 4 × Fin N) ℂ :=
    ![greenMatrix G, gamma5Matrix * greenMatrix G, (greenMatrix G)ᴴ * greenMatrix G, greenMatrix G * greenMatrix G]
  refine ⟨fun k rs => (∑ m, quad (A k) (noiseEquiv (rs m)) / Fintype.card S) / n, fun rs => ?_, fun k => ?_⟩
  · have hp : (List.ofFn rs).map (condensatePass solve) = List.ofFn fun m => (quad (A 0) (noiseEquiv (rs m)) / (Fintype.card S : ℂ),
        quad (A 1) (noiseEquiv (rs m)) / (Fintype.card S : ℂ), quad (A 2) (noiseEquiv (rs m)) / (Fintype.card S : ℂ), quad (A 3) (noiseEquiv (rs m)) / (Fintype.card S : ℂ)) := by
      rw [List.map_ofFn]
      congr 1
      funext m
      exact condensatePass_quad hs hG (rs m)
    unfold condensateExecute
    simp only [hp, List.map_ofFn, Function.comp_def, listMean_ofFn hn]
  · have hav : average (fun r : Noise S N => quad (A k) (noiseEquiv r) / Fintype.card S) = trace (A k) / Fintype.card S := by
      have h : (fun r : Noise S N => quad (A k) (noiseEquiv r) / (Fintype.card S : ℂ)) = fun r => (1 / Fintype.card S : ℂ) * quad (A k) (noiseEquiv r) := by
        funext r; ring
      rw [h, average_mul, average_equiv noiseEquiv (quad (A k)), average_quad]
      ring
    have hm := mean_of_samples hn fun r : Noise S N => quad (A k) (noiseEquiv r) / (Fintype.card S : ℂ)
    rw [hav] at hm
    refine ⟨hm.1, hm.2.trans ?_⟩
    have hv : (fun r : Noise S N => (Complex.normSq (quad (A k) (noiseEquiv r) / Fintype.card S - trace (A k) / Fintype.card S) : ℂ))
        = fun r => (1 / (Fintype.card S : ℂ) ^ 2) * (Complex.normSq (quad (A k) (noiseEquiv r) - trace (A k)) : ℂ) := by
      funext r
      rw [← sub_div, Complex.normSq_div, Complex.normSq_natCast]
      push_cast
      ring
    rw [hv, average_mul, average_equiv noiseEquiv fun b => (Complex.normSq (quad (A k) b - trace (A k)) : ℂ), variance_quad]
    have hn' : (n : ℂ) ≠ 0 := by exact_mod_cast hn.ne'
    field_simp
    rfl

/-- **C62**: without passes nothing is defined; the program divides zero by zero. -/
theorem C62_no_passes [Fintype S] (solve : SField S N → SField S N) : condensateExecute solve [] = (none, none, none, none) := rfl

/-- **Specification.** The trace of the Green function with a spin matrix, summed over a time slice. -/
noncomputable def sliceTrace [Fintype S] (T : Torus S) (G : S → S → Matrix (Fin 4 × Fin N) (Fin 4 × Fin N) ℂ) (Γ : SpinMat) (t : ℕ) : ℂ :=
  ∑ x, if T.coord x 3 = t then trace (kroneckerMap (· * ·) Γ (1 : Mat N) * G x x) else 0

/-- The rows of a matrix which belong to a time slice. -/
noncomputable def sliceRows (T : Torus S) (t : ℕ) (s : Fin 4 → ℂ) (M : Matrix (S × Fin 4 × Fin N) (S × Fin 4 × Fin N) ℂ) :
    Matrix (S × Fin 4 × Fin N) (S × Fin 4 × Fin N) ℂ := Matrix.of fun p q => if T.coord p.1 3 = t then s p.2.1 * M p q else 0

theorem trace_sliceRows [Fintype S] [DecidableEq S] (T : Torus S) (t : ℕ) (s : Fin 4 → ℂ) (G : S → S → Matrix (Fin 4 × Fin N) (Fin 4 × Fin N) ℂ) :
    trace (sliceRows T t s (greenMatrix G)) = sliceTrace T G (diagonal s) t := by
  unfold sliceTrace trace
  simp only [Fintype.sum_prod_type, diag_apply, sliceRows, Matrix.of_apply, greenMatrix]
  refine Finset.sum_congr rfl fun x _ => ?_
  split
  · refine Finset.sum_congr rfl fun mu _ => Finset.sum_congr rfl fun i _ => ?_
    rw [Matrix.mul_apply, Finset.sum_eq_single (mu, i)]
    · simp [kroneckerMap_apply]
    · rintro ⟨nu, j⟩ _ hne
      have : kroneckerMap (· * ·) (diagonal s) (1 : Mat N) (mu, i) (nu, j) = 0 := by
        simp only [kroneckerMap_apply, diagonal_apply, one_apply]
        by_cases h2 : mu = nu
        · by_cases h3 : i = j
          · subst h2 h3; exact absurd rfl hne
          · simp [h3]
        · simp [h2]
      rw [this, zero_mul]
    · simp
  · simp

theorem sum_sliceRows [Fintype S] [DecidableEq S] {T : Torus S} {V : GField S N} {κ csw : ℝ} {solve : SField S N → SField S N}
    {G : S → S → Matrix (Fin 4 × Fin N) (Fin 4 × Fin N) ℂ} (hs : ∀ b, improvedSpec T V κ csw (solve b) = b) (hG : IsGreen (improvedSpec T V κ csw) G)
    (s : Fin 4 → ℂ) (r : Fin 4 → Noise S N) (t : ℕ) :
    (∑ x, if T.coord x 3 = t then ∑ mu, ∑ nu, s nu * ∑ c, starRingEnd ℂ (randomNoise (r mu) x nu c) * solve (randomNoise (r mu)) x nu c else 0)
      = ∑ mu, quad (sliceRows T t s (greenMatrix G)) (noiseEquiv (r mu)) := by
  have e : ∀ mu, quad (sliceRows T t s (greenMatrix G)) (noiseEquiv (r mu)) = ∑ x, if T.coord x 3 = t then
      ∑ nu, s nu * ∑ c, starRingEnd ℂ (randomNoise (r mu) x nu c) * solve (randomNoise (r mu)) x nu c else 0 := by
    intro mu
    unfold quad
    rw [Fintype.sum_prod_type]
    refine Finset.sum_congr rfl fun x _ => ?_
    split
    · next h =>
      rw [Fintype.sum_prod_type]
      refine Finset.sum_congr rfl fun nu _ => ?_
      rw [Finset.mul_sum]
      refine Finset.sum_congr rfl fun c _ => ?_
      rw [solve_green hs hG, randomNoise_apply, eta_conj, Finset.mul_sum, Finset.mul_sum]
      refine Finset.sum_congr rfl fun q _ => ?_
      have hq : randomNoise (r mu) q.1 q.2.1 q.2.2 = eta (noiseEquiv (r mu)) q := rfl
      simp only [sliceRows, Matrix.of_apply, h, if_true, hq]
      ring
    · next h =>
      refine Finset.sum_eq_zero fun p _ => Finset.sum_eq_zero fun q _ => ?_
      simp only [sliceRows, Matrix.of_apply, h, if_false, zero_mul]
  simp only [e]
  rw [Finset.sum_comm]
  refine Finset.sum_congr rfl fun x _ => ?_
  split
  · rfl
  · simp

/-- **C62**: the disconnected parts of `MesonCorrelator` with an exact inverter. What is written for one pass belongs to the times from 1 on, and
has as mean value over equally probable noise four times `2 κ / V₃` times the trace over the time slice, of the inverse with γ₅ and of the inverse. -/
theorem C62_disconnected [Fintype S] [DecidableEq S] (T : Torus S) {κ : ℝ} {D : GField S N → SField S N → SField S N} (hD : IsWilsonType T κ D)
    (U : GField S N) (solve : SField S N → SField S N) (hs : ∀ b, D U (solve b) = b) {G : S → S → Matrix (Fin 4 × Fin N) (Fin 4 × Fin N) ℂ}
    (hG : IsGreen (D U) G) :
    ∃ E C : ℕ → (Fin 4 → Noise S N) → ℂ,
      (∀ r, disconnectedOutput T κ solve r = ((List.range' 1 (T.ext 3 - 1)).map fun t => E t r, (List.range' 1 (T.ext 3 - 1)).map fun t => C t r))
      ∧ ∀ t, average (E t) = 4 * (2 * κ / (T.ext 0 * T.ext 1 * T.ext 2 : ℕ) * sliceTrace T G tabGamma5 t)
        ∧ average (C t) = 4 * (2 * κ / (T.ext 0 * T.ext 1 * T.ext 2 : ℕ) * sliceTrace T G 1 t) := by
  obtain ⟨csw, hD⟩ := hD.spec
  rw [hD] at hs hG
  have h1 : ∀ r t, (disconnectedOperator T solve r t).1 = ∑ mu, quad (sliceRows T t spinSign (greenMatrix G)) (noiseEquiv (r mu)) := by
    intro r t
    rw [← sum_sliceRows hs hG, disconnectedOperator]
    refine Finset.sum_congr rfl fun x _ => ?_
    split
    · refine Finset.sum_congr rfl fun mu _ => Finset.sum_congr rfl fun nu _ => ?_
      unfold spinSign
      split
      · next h => rw [if_neg (by omega), one_mul]
      · next h => rw [if_pos (by omega), neg_one_mul]
    · rfl
  have h2 : ∀ r t, (disconnectedOperator T solve r t).2 = ∑ mu, quad (sliceRows T t (fun _ => 1) (greenMatrix G)) (noiseEquiv (r mu)) := by
    intro r t
    rw [← sum_sliceRows hs hG, disconnectedOperator]
    simp only [one_mul]
  have hav : ∀ A : Matrix (S × Fin 4 × Fin N) (S × Fin 4 × Fin N) ℂ, average (fun r : Fin 4 → Noise S N =>
      2 * (κ : ℂ) * (∑ mu, quad A (noiseEquiv (r mu))) / ((T.ext 0 * T.ext 1 * T.ext 2 : ℕ) : ℂ)) = 4 * (2 * κ / (T.ext 0 * T.ext 1 * T.ext 2 : ℕ) * trace A) := by
    intro A
    have h : (fun r : Fin 4 → Noise S N => 2 * (κ : ℂ) * (∑ mu, quad A (noiseEquiv (r mu))) / ((T.ext 0 * T.ext 1 * T.ext 2 : ℕ) : ℂ))
        = fun r => (2 * (κ : ℂ) / ((T.ext 0 * T.ext 1 * T.ext 2 : ℕ) : ℂ)) * ∑ mu, quad A (noiseEquiv (r mu)) := by funext r; ring
    rw [h, average_mul, average_sum]
    have h' : ∀ mu : Fin 4, average (fun r : Fin 4 → Noise S N => quad A (noiseEquiv (r mu))) = trace A := fun mu => by
      rw [average_one (fun a : Noise S N => quad A (noiseEquiv a)) mu, average_equiv noiseEquiv (quad A), average_quad]
    simp only [h', Finset.sum_const, Finset.card_univ, Fintype.card_fin, nsmul_eq_mul]
    push_cast
    ring
  refine ⟨fun t r => 2 * κ * (disconnectedOperator T solve r t).1 / ((T.ext 0 * T.ext 1 * T.ext 2 : ℕ) : ℂ),
    fun t r => 2 * κ * (disconnectedOperator T solve r t).2 / ((T.ext 0 * T.ext 1 * T.ext 2 : ℕ) : ℂ), fun r => rfl, fun t => ⟨?_, ?_⟩⟩
  · simp only [h1]
    rw [hav, trace_sliceRows, gamma5_eq_diagonal]
  · simp only [h2]
    rw [hav, trace_sliceRows, diagonal_one]

/-- **C62**: the diagonal elements of the inverse are real, so all of the traces are real, and the imaginary parts which are written are noise. -/
theorem C62_real [Fintype S] [DecidableEq S] (T : Torus S) {κ : ℝ} {D : GField S N → SField S N → SField S N} (hD : IsWilsonType T κ D)
    (U : GField S N) {G : S → S → Matrix (Fin 4 × Fin N) (Fin 4 × Fin N) ℂ} (hG : IsGreen (D U) G) (x : S) (i : Fin 4 × Fin N) : (G x x i i).im = 0 := by
  obtain ⟨csw, hD⟩ := hD.spec
  rw [hD] at hG
  have h := green_gamma5 hG x x i i
  rw [spinSign_sq, one_mul] at h
  exact Complex.conj_eq_iff_im.1 h.symm

theorem green_diagonal_pos [Fintype S] [DecidableEq S] {T : Torus S} {U : GField S N} (hU : ∀ x μ, U x μ ∈ unitaryGroup (Fin N) ℂ) {κ csw : ℝ}
    (hκ : |κ| * (8 + 6 * |csw|) < 1) {G : S → S → Matrix (Fin 4 × Fin N) (Fin 4 × Fin N) ℂ} (hG : IsGreen (improvedSpec T U κ csw) G) (x : S) (i : Fin 4 × Fin N) :
    0 < (G x x i i).re := by
  have h := (C63_positive T hU κ csw fun z => Matrix.of fun mu c => G z x (mu, c) i).1
  rw [C33_improved, withGamma5, if_neg (by simp), hG x i, latticeDot_unitField] at h
  simp only [Matrix.of_apply, Complex.conj_re] at h
  have hv : 0 < fieldNorm fun z => Matrix.of fun mu c => G z x (mu, c) i := by
    rw [← norm_toE, norm_pos_iff]
    intro h0
    have hz : (fun z => Matrix.of fun mu c => G z x (mu, c) i) = (0 : SField S N) := by
      funext z; ext mu c; exact congrFun (congrArg WithLp.ofLp h0) (z, mu, c)
    have h1 := hG x i
    rw [hz, show improvedSpec T U κ csw 0 = 0 from map_zero (improvedLin T U κ csw)] at h1
    have h2 := congrFun (congrFun (congrFun h1 x) i.1) i.2
    simp [unitField] at h2
  refine lt_of_lt_of_le ?_ h
  exact mul_pos (by linarith) (by positivity)

/-- **C62**: so the mean value of the disconnected scalar part is not `2 κ / V₃` times the trace over the time slice: for unitary links and a small
hopping parameter the trace does not vanish, and the factor four makes a difference. -/
theorem C62_disconnected_counterexample [Fintype S] [DecidableEq S] [Nonempty S] (T : Torus S) {κ csw : ℝ} (hκ0 : κ ≠ 0) (hκ : |κ| * (8 + 6 * |csw|) < 1) {U : GField S N}
    (hU : ∀ x μ, U x μ ∈ unitaryGroup (Fin N) ℂ) (hN : 0 < N) (solve : SField S N → SField S N) (hs : ∀ b, improvedMul T U κ csw false (solve b) = b)
    {G : S → S → Matrix (Fin 4 × Fin N) (Fin 4 × Fin N) ℂ} (hG : IsGreen (improvedMul T U κ csw false) G) {t : ℕ} (ht : t < T.ext 3) :
    ∃ C : ℕ → (Fin 4 → Noise S N) → ℂ, (∀ r, (disconnectedOutput T κ solve r).2 = (List.range' 1 (T.ext 3 - 1)).map fun t => C t r)
      ∧ average (C t) ≠ 2 * κ / (T.ext 0 * T.ext 1 * T.ext 2 : ℕ) * sliceTrace T G 1 t := by
  obtain ⟨E, C, hout, hav⟩ := C62_disconnected T (D := fun U => improvedMul T U κ csw false) (Or.inr (Or.inr ⟨csw, rfl⟩)) U solve hs hG
  refine ⟨C, fun r => by rw [hout], ?_⟩
  rw [(hav t).2]
  have hV : ((T.ext 0 * T.ext 1 * T.ext 2 : ℕ) : ℂ) ≠ 0 := by
    have h : ∀ μ, T.ext μ ≠ 0 := fun μ => Nat.pos_iff_ne_zero.1 (lt_of_le_of_lt (Nat.zero_le _) (T.coord_lt μ (Classical.arbitrary S)))
    exact_mod_cast mul_ne_zero (mul_ne_zero (h 0) (h 1)) (h 2)
  have hG' : IsGreen (improvedSpec T U κ csw) G := by
    intro y j
    have := hG y j
    rw [C33_improved] at this
    exact this
  have hpos := green_diagonal_pos hU hκ hG'
  have htr : 0 < (sliceTrace T G 1 t).re := by
    have hx : ∀ x, 0 < (trace (kroneckerMap (· * ·) (1 : SpinMat) (1 : Mat N) * G x x)).re := by
      intro x
      have h1 : kroneckerMap (· * ·) (1 : SpinMat) (1 : Mat N) = 1 := one_kronecker_one
      rw [h1, Matrix.one_mul, trace, Complex.re_sum]
      exact Finset.sum_pos (fun i _ => hpos x i) ⟨(0, ⟨0, hN⟩), Finset.mem_univ _⟩
    obtain ⟨x0, hx0⟩ : ∃ x, T.coord x 3 = t := by
      let y := Classical.arbitrary S
      have hy := T.coord_lt 3 y
      refine ⟨(T.sup 3)^[T.ext 3 - T.coord y 3 + t] y, ?_⟩
      rw [coord_iterate, show T.coord y 3 + (T.ext 3 - T.coord y 3 + t) = t + T.ext 3 by omega, Nat.add_mod_right, Nat.mod_eq_of_lt ht]
    unfold sliceTrace
    rw [Complex.re_sum]
    refine Finset.sum_pos' (fun x _ => ?_) ⟨x0, Finset.mem_univ _, ?_⟩
    · split
      · exact (hx x).le
      · exact le_rfl
    · rw [if_pos hx0]; exact hx x0
  have hne : 2 * (κ : ℂ) / (T.ext 0 * T.ext 1 * T.ext 2 : ℕ) * sliceTrace T G 1 t ≠ 0 := by
    refine mul_ne_zero (div_ne_zero (mul_ne_zero two_ne_zero (by exact_mod_cast hκ0)) hV) fun h => ?_
    rw [h] at htr
    simp at htr
  intro h
  generalize 2 * (κ : ℂ) / (T.ext 0 * T.ext 1 * T.ext 2 : ℕ) * sliceTrace T G 1 t = z at *
  apply hne
  have : (3 : ℂ) * z = 0 := by linear_combination h
  exact (mul_eq_zero.1 this).resolve_left (by norm_num)

end Leonard
