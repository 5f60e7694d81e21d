import Verif.Npr.Ward
import Verif.Meson.Examples
import Verif.Landau.GluonProps

/-!
# C75: vertex functions of the quark bilinears
-/

set_option autoImplicit false

namespace Leonard

open Matrix
open scoped Topology

noncomputable section

variable {S : Type} {N : ℕ}

/-- **Specification.** The Green function between a plane wave at the source and the conjugate wave at the sink. -/
def momentumGreen [Fintype S] (T : Torus S) (m : Fin 4 → ℝ) (G : S → S → Matrix (Fin 4 × Fin N) (Fin 4 × Fin N) ℂ) : Matrix (Fin 4 × Fin N) (Fin 4 × Fin N) ℂ :=
  ∑ x, ∑ y, (starRingEnd ℂ (planeWave T m x) * planeWave T m y) • G x y

/-- **Specification.** The same with the spin matrix `Γ` inserted at every site between them. -/
def momentumVertex [Fintype S] (T : Torus S) (m : Fin 4 → ℝ) (G : S → S → Matrix (Fin 4 × Fin N) (Fin 4 × Fin N) ℂ) (Γ : SpinMat) :
    Matrix (Fin 4 × Fin N) (Fin 4 × Fin N) ℂ :=
  ∑ z, ∑ x, ∑ y, (starRingEnd ℂ (planeWave T m z) * planeWave T m y) • (G z x * kroneckerMap (· * ·) Γ (1 : Mat N) * G x y)

/-- **Specification.** The product of the gamma matrices named by the bits of `v`. -/
def gammaBits (v : Fin 16) : SpinMat :=
  (if v.val.testBit 0 then tabGamma 0 else 1) * (if v.val.testBit 1 then tabGamma 1 else 1) * (if v.val.testBit 2 then tabGamma 2 else 1)
    * (if v.val.testBit 3 then tabGamma 3 else 1)

/-- **Specification.** A matrix on spin and colour with its rows and columns in the order of the program. -/
def inOrder (A : Matrix (Fin 4 × Fin N) (Fin 4 × Fin N) ℂ) : Matrix (Fin (N * 4)) (Fin (N * 4)) ℂ := A.submatrix component component

theorem colourBlocks_bits (v : Fin 16) : colourBlocks N (tabChroma v) = inOrder (kroneckerMap (· * ·) (gammaBits v) (1 : Mat N)) := by
  rw [colourBlocks_eq, C32_chroma]; rfl

/-- **C75**: with an exact inverter the propagator which is written is that of the Green function between plane waves, over the volume, in the
normalisation of the continuum. -/
theorem C75_propagator [Fintype S] [DecidableEq S] (T : Torus S) {κ : ℝ} {D : GField S N → SField S N → SField S N} (hD : IsWilsonType T κ D)
    (U : GField S N) (solve : SField S N → SField S N) (hs : ∀ b, D U (solve b) = b) {G : S → S → Matrix (Fin 4 × Fin N) (Fin 4 × Fin N) ℂ}
    (hG : IsGreen (D U) G) (m : Fin 4 → ℝ) :
    nprPropagator T κ solve m = (2 * κ / Fintype.card S : ℂ) • inOrder (momentumGreen T m G) := by
  obtain ⟨csw, hD⟩ := hD.spec
  rw [hD] at hs hG
  exact nprPropagator_eq hs hG m

/-- **C75**: the vertex function `v` is the Green function with the product of gamma matrices `v` inserted with zero momentum. -/
theorem C75_vertex [Fintype S] [DecidableEq S] (T : Torus S) {κ : ℝ} {D : GField S N → SField S N → SField S N} (hD : IsWilsonType T κ D)
    (U : GField S N) (solve : SField S N → SField S N) (hs : ∀ b, D U (solve b) = b) {G : S → S → Matrix (Fin 4 × Fin N) (Fin 4 × Fin N) ℂ}
    (hG : IsGreen (D U) G) (m : Fin 4 → ℝ) (v : Fin 16) :
    nprVertex T κ solve m v = (4 * (κ : ℂ) ^ 2 / Fintype.card S) • inOrder (momentumVertex T m G (gammaBits v)) := by
  obtain ⟨csw, hD⟩ := hD.spec
  rw [hD] at hs hG
  rw [nprVertex_eq hs hG, inOrder]
  congr 2
  unfold momentumVertex
  rw [Finset.sum_comm]
  refine Finset.sum_congr rfl fun x _ => ?_
  rw [waveGreen_adjoint hG, Finset.sum_mul, Finset.sum_mul]
  refine Finset.sum_congr rfl fun z _ => ?_
  rw [waveGreen, Finset.mul_sum]
  refine Finset.sum_congr rfl fun y _ => ?_
  rw [Matrix.smul_mul, Matrix.smul_mul, Matrix.mul_smul, smul_smul, C32_chroma]
  congr 1
  linear_combination (starRingEnd ℂ (planeWave T m z) * planeWave T m y) * planeWave_conj T m x

/-- **C75**: the propagator is γ₅-Hermitian, at every momentum and on every configuration. -/
theorem C75_gamma5 [Fintype S] (T : Torus S) {κ : ℝ} {D : GField S N → SField S N → SField S N} (hD : IsWilsonType T κ D)
    (U : GField S N) (solve : SField S N → SField S N) (hs : ∀ b, D U (solve b) = b) (m : Fin 4 → ℝ) :
    (nprPropagator T κ solve m)ᴴ
      = inOrder (kroneckerMap (· * ·) tabGamma5 (1 : Mat N)) * nprPropagator T κ solve m * inOrder (kroneckerMap (· * ·) tabGamma5 (1 : Mat N)) := by
  classical
  obtain ⟨csw, hD⟩ := hD.spec
  rw [hD] at hs
  have hG := green_exists hs
  have h := sum_waveGreen_adjoint hG m
  rw [nprPropagator_eq hs hG]
  generalize (∑ x, waveGreen T m _ x) = A at *
  have h5 : (spinMat tabGamma5 : Matrix (Fin 4 × Fin N) (Fin 4 × Fin N) ℂ)ᴴ = spinMat tabGamma5 := by
    have e : (spinMat tabGamma5 : Matrix (Fin 4 × Fin N) (Fin 4 × Fin N) ℂ) = spinMat tabGamma5 * 1 := (Matrix.mul_one _).symm
    ext ⟨a, c⟩ ⟨b, d⟩
    simp only [conjTranspose_apply, spinMat, gamma5_eq_diagonal, kroneckerMap_apply, diagonal_apply, one_apply]
    by_cases h1 : a = b
    · subst h1
      by_cases h2 : c = d
      · subst h2; simp [spinSign]; split <;> simp
      · simp [h2, Ne.symm h2]
    · simp [h1, Ne.symm h1]
  have hA : Aᴴ = spinMat tabGamma5 * A * spinMat tabGamma5 := by
    conv_rhs => rw [← h]
    have e2 : (spinMat tabGamma5 : Matrix (Fin 4 × Fin N) (Fin 4 × Fin N) ℂ) * spinMat tabGamma5 = 1 := by
      ext i j
      have := spinMat_gamma5 (N := N) 1 i j
      rw [Matrix.mul_one] at this
      rw [this, one_apply]
      split
      · next h => subst h; rw [mul_one, spinSign_sq]
      · simp
    generalize (spinMat tabGamma5 : Matrix (Fin 4 × Fin N) (Fin 4 × Fin N) ℂ) = g at *
    calc Aᴴ = (g * g) * Aᴴ * (g * g) := by rw [e2, Matrix.one_mul, Matrix.mul_one]
      _ = _ := by simp only [Matrix.mul_assoc]
  have e5 : (kroneckerMap (· * ·) tabGamma5 (1 : Mat N)) = spinMat tabGamma5 := rfl
  rw [conjTranspose_smul, conjTranspose_submatrix, hA, e5, inOrder, Matrix.mul_smul, Matrix.smul_mul, submatrix_mul_component, submatrix_mul_component]
  congr 1
  simp

/-- **C75**: where the links do not depend on the site, in the free theory above all, the vertex functions at a momentum of the lattice are the
spin matrices between two propagators: without their legs they are the spin matrices themselves. -/
theorem C75_tree [Fintype S] [Nonempty S] (T : Torus S) (hT : Function.Injective T.coord) {κ : ℝ} (hκ : κ ≠ 0) {D : GField S N → SField S N → SField S N}
    (hD : IsWilsonType T κ D) {U : GField S N} (hU : ∀ x ρ μ, U (T.sup ρ x) μ = U x μ) (solve : SField S N → SField S N) (hs : ∀ b, D U (solve b) = b)
    (n : Fin 4 → ℤ) (v : Fin 16) :
    let P := nprPropagator T κ solve fun μ => n μ
    IsUnit P.det ∧ nprVertex T κ solve (fun μ => n μ) v = P * inOrder (kroneckerMap (· * ·) (gammaBits v) (1 : Mat N)) * P
      ∧ P⁻¹ * nprVertex T κ solve (fun μ => n μ) v * P⁻¹ = inOrder (kroneckerMap (· * ·) (gammaBits v) (1 : Mat N)) := by
  classical
  obtain ⟨csw, hD⟩ := hD.spec
  rw [hD] at hs
  have hG := green_exists hs
  have hinj := improved_injective (fun b => ⟨solve b, hs b⟩)
  obtain ⟨o⟩ := ‹Nonempty S›
  have hc := fun x => constant_of_sup hT (fun ρ x => waveGreen_sup hinj hG hU n ρ x) x o
  have hV : (Fintype.card S : ℂ) ≠ 0 := by
    have : Nonempty S := ⟨o⟩
    exact_mod_cast Fintype.card_ne_zero
  have hadj := sum_waveGreen_adjoint hG fun μ => (n μ : ℝ)
  have hP := nprPropagator_eq hs hG fun μ => (n μ : ℝ)
  have hVx := nprVertex_eq hs hG (fun μ => (n μ : ℝ)) v
  have hsol := fun j x mu i => solve_source hs hG (fun μ => (n μ : ℝ)) j x mu i
  simp only [hc, Finset.sum_const, Finset.card_univ] at hadj hP hVx
  set A := waveGreen T (fun μ => (n μ : ℝ)) (fun x y => Matrix.of fun p q => solve (unitField y q) x p.1 p.2) o with hA
  have hadj' : spinMat tabGamma5 * Aᴴ * spinMat tabGamma5 = A := by
    rw [← Nat.cast_smul_eq_nsmul ℂ, conjTranspose_smul, Matrix.mul_smul, Matrix.smul_mul] at hadj
    rw [show star (Fintype.card S : ℂ) = Fintype.card S from Complex.conj_natCast _] at hadj
    exact smul_right_injective _ hV hadj
  have hP' : nprPropagator T κ solve (fun μ => (n μ : ℝ)) = (2 * κ : ℂ) • A.submatrix component component := by
    rw [hP, ← Nat.cast_smul_eq_nsmul ℂ]
    change (2 * κ / Fintype.card S : ℂ) • ((Fintype.card S : ℂ) • A.submatrix component component) = _
    rw [smul_smul, div_mul_cancel₀ _ hV]
  have hVx' : nprVertex T κ solve (fun μ => (n μ : ℝ)) v
      = (4 * (κ : ℂ) ^ 2) • (A * spinMat (tabChroma v) * A).submatrix component component := by
    rw [hVx, hadj', ← Nat.cast_smul_eq_nsmul ℂ]
    change (4 * (κ : ℂ) ^ 2 / Fintype.card S) • ((Fintype.card S : ℂ) • (A * spinMat (tabChroma v) * A).submatrix component component) = _
    rw [smul_smul, div_mul_cancel₀ _ hV]
  have hprod : nprVertex T κ solve (fun μ => (n μ : ℝ)) v = nprPropagator T κ solve (fun μ => (n μ : ℝ))
      * inOrder (kroneckerMap (· * ·) (gammaBits v) (1 : Mat N)) * nprPropagator T κ solve (fun μ => (n μ : ℝ)) := by
    rw [hVx', hP', ← colourBlocks_bits, colourBlocks_eq, Matrix.smul_mul, Matrix.smul_mul, Matrix.mul_smul, smul_smul, submatrix_mul_component,
      submatrix_mul_component]
    congr 1
    ring
  -- the inverse of the propagator
  have hfield : ∀ j x mu i, solve (nprSource T (fun μ => (n μ : ℝ)) j) x mu i = planeWave T (fun μ => (n μ : ℝ)) x * A (mu, i) (component j) := by
    intro j x mu i
    rw [hsol, ← hc x, waveGreen, Matrix.sum_apply, Finset.mul_sum]
    refine Finset.sum_congr rfl fun y _ => ?_
    rw [Matrix.smul_apply, smul_eq_mul]
    linear_combination -(planeWave T (fun μ => (n μ : ℝ)) y * Matrix.of (fun p q : Fin 4 × Fin N => solve (unitField y q) x p.1 p.2) (mu, i) (component j)) * planeWave_conj T (fun μ => (n μ : ℝ)) x
  let B : Matrix (Fin (N * 4)) (Fin (N * 4)) ℂ := Matrix.of fun i k => starRingEnd ℂ (planeWave T (fun μ => (n μ : ℝ)) o)
    * improvedSpec T U κ csw (nprSource T (fun μ => (n μ : ℝ)) k) o (component i).1 (component i).2
  have hBA : B * A.submatrix component component = 1 := by
    ext i j
    have hsum : solve (nprSource T (fun μ => (n μ : ℝ)) j) = ∑ k : Fin (N * 4), A (component k) (component j) • nprSource T (fun μ => (n μ : ℝ)) k := by
      funext x
      ext mu c
      rw [hfield]
      simp only [Finset.sum_apply, Matrix.sum_apply, Pi.smul_apply, Matrix.smul_apply, smul_eq_mul, nprSource_apply]
      rw [Finset.sum_eq_single (componentEquiv.symm (mu, c))]
      · have : component (componentEquiv.symm (mu, c)) = (mu, c) := componentEquiv.apply_symm_apply (mu, c)
        rw [this, if_pos rfl, mul_comm]
      · intro k _ hk
        rw [if_neg, mul_zero]
        intro h
        exact hk (componentEquiv.injective (by rw [Equiv.apply_symm_apply]; exact h.symm))
      · simp
    have h := hs (nprSource T (fun μ => (n μ : ℝ)) j)
    rw [hsum] at h
    have h2 := map_sum (improvedLin T U κ csw) (fun k : Fin (N * 4) => A (component k) (component j) • nprSource T (fun μ => (n μ : ℝ)) k) Finset.univ
    simp only [map_smul] at h2
    have h3 := h2.symm.trans h
    have h4 := congrFun (congrFun (congrFun h3 o) (component i).1) (component i).2
    simp only [Finset.sum_apply, Matrix.sum_apply, Pi.smul_apply, Matrix.smul_apply, smul_eq_mul] at h4
    rw [Matrix.mul_apply]
    calc ∑ k, B i k * A (component k) (component j)
        = starRingEnd ℂ (planeWave T (fun μ => (n μ : ℝ)) o) * ∑ k, A (component k) (component j)
          * improvedSpec T U κ csw (nprSource T (fun μ => (n μ : ℝ)) k) o (component i).1 (component i).2 := by
          rw [Finset.mul_sum]
          refine Finset.sum_congr rfl fun k _ => ?_
          simp only [B, Matrix.of_apply]
          ring
      _ = starRingEnd ℂ (planeWave T (fun μ => (n μ : ℝ)) o) * nprSource T (fun μ => (n μ : ℝ)) j o (component i).1 (component i).2 := by
          rw [← h4]; rfl
      _ = _ := by
          rw [nprSource_apply, one_apply]
          by_cases hij : i = j
          · subst hij
            rw [if_pos rfl, if_pos rfl, mul_comm, planeWave_conj]
          · rw [if_neg hij, if_neg, mul_zero]
            intro h
            exact hij (componentEquiv.injective h)
  have hdet : IsUnit (nprPropagator T κ solve fun μ => (n μ : ℝ)).det := by
    rw [hP']
    have h1 : ((2 * κ : ℂ)⁻¹ • B) * ((2 * κ : ℂ) • A.submatrix component component) = 1 := by
      have : (2 * κ : ℂ) ≠ 0 := by exact_mod_cast mul_ne_zero two_ne_zero hκ
      rw [Matrix.smul_mul, Matrix.mul_smul, smul_smul, inv_mul_cancel₀ this, one_smul, hBA]
    exact Matrix.isUnit_det_of_left_inverse h1
  refine ⟨hdet, hprod, ?_⟩
  rw [hprod, Matrix.mul_assoc, Matrix.mul_assoc (_ * _), Matrix.mul_nonsing_inv _ hdet, Matrix.mul_one, Matrix.nonsing_inv_mul_cancel_left _ _ hdet]

/-- **C75**: a rotation of the colour which is the same at all sites rotates the propagator and the vertex functions. -/
theorem C75_global [Fintype S] (T : Torus S) {κ : ℝ} {D : GField S N → SField S N → SField S N} (hD : IsWilsonType T κ D)
    (U : GField S N) {W : Mat N} (hW : Wᴴ * W = 1) (solve solve' : SField S N → SField S N) (hs : ∀ b, D U (solve b) = b)
    (hs' : ∀ b, D (gaugeTransform T (fun _ => W) U) (solve' b) = b) (m : Fin 4 → ℝ) (v : Fin 16) :
    let R := inOrder (kroneckerMap (· * ·) (1 : SpinMat) W)
    nprPropagator T κ solve' m = R * nprPropagator T κ solve m * Rᴴ ∧ nprVertex T κ solve' m v = R * nprVertex T κ solve m v * Rᴴ := by
  classical
  intro R
  obtain ⟨csw, hD'⟩ := hD.spec
  have hs0 := hs
  have hs0' := hs'
  rw [hD'] at hs0 hs0'
  have hG := green_exists hs0
  have hG' := green_gauge hG (ω := fun _ => W) fun _ => hW
  have hGD := green_exists hs
  have hGD' := hG'
  rw [← hD' (gaugeTransform T (fun _ => W) U)] at hGD'
  have hR : (colorMat W : Matrix (Fin 4 × Fin N) (Fin 4 × Fin N) ℂ)ᴴ = colorMat Wᴴ := by
    unfold colorMat
    rw [conjTranspose_kronecker, conjTranspose_one]
  have hWW : colorMat Wᴴ * colorMat W = (1 : Matrix (Fin 4 × Fin N) (Fin 4 × Fin N) ℂ) := by rw [colorMat_mul, hW, colorMat_one]
  have e1 : R = (colorMat W).submatrix component component := rfl
  have e2 : Rᴴ = (colorMat Wᴴ).submatrix component component := by rw [e1, conjTranspose_submatrix, hR]
  rw [C75_propagator T hD _ solve hs hGD m, C75_propagator T hD _ solve' hs' hGD' m, C75_vertex T hD _ solve hs hGD m v, C75_vertex T hD _ solve' hs' hGD' m v]
  generalize hX : (fun x y : S => Matrix.of fun p q : Fin 4 × Fin N => solve (unitField y q) x p.1 p.2) = X
  have eX : ∀ x y, (Matrix.of fun p q : Fin 4 × Fin N => solve (unitField y q) x p.1 p.2) = X x y := fun x y => congrFun (congrFun hX x) y
  rw [e2, e1]
  unfold inOrder
  rw [Matrix.mul_smul, Matrix.smul_mul, Matrix.mul_smul, Matrix.smul_mul, submatrix_mul_component, submatrix_mul_component, submatrix_mul_component,
    submatrix_mul_component]
  constructor
  · congr 2
    unfold momentumGreen
    simp only [eX, Finset.mul_sum, Finset.sum_mul, Matrix.mul_smul, Matrix.smul_mul]
  · congr 2
    unfold momentumVertex
    simp only [eX, Finset.mul_sum, Finset.sum_mul, Matrix.mul_smul, Matrix.smul_mul]
    refine Finset.sum_congr rfl fun z _ => Finset.sum_congr rfl fun x _ => Finset.sum_congr rfl fun y _ => ?_
    congr 1
    have hc := colorMat_comm (gammaBits v) Wᴴ
    generalize kroneckerMap (· * ·) (gammaBits v) (1 : Mat N) = K at *
    generalize colorMat W = a at *
    generalize colorMat Wᴴ = a' at *
    calc a * X z x * a' * K * (a * X x y * a') = a * X z x * (a' * K) * a * X x y * a' := by simp only [Matrix.mul_assoc]
      _ = a * X z x * K * (a' * a) * X x y * a' := by rw [hc]; simp only [Matrix.mul_assoc]
      _ = _ := by rw [hWW, Matrix.mul_one]; simp only [Matrix.mul_assoc]

/-- **C75**: the vertex function of the unit matrix is minus the derivative of the propagator with respect to the bare mass `1/(2κ) - 4`. -/
theorem C75_ward [Fintype S] (T : Torus S) (U : GField S N) (csw : ℝ) (solve : ℝ → SField S N → SField S N) {m₀ : ℝ} (hm : m₀ ≠ -4)
    (hs : ∀ᶠ m₁ in 𝓝 m₀, ∀ b, improvedMul T U (1 / (2 * (m₁ + 4))) csw false (solve m₁ b) = b) (m : Fin 4 → ℝ) (i j : Fin (N * 4)) :
    HasDerivAt (fun m₁ : ℝ => nprPropagator T (1 / (2 * (m₁ + 4))) (solve m₁) m i j)
      (-nprVertex T (1 / (2 * (m₀ + 4))) (solve m₀) m 0 i j) m₀ := by
  classical
  have hs' : ∀ᶠ m₁ in 𝓝 m₀, ∀ b, improvedSpec T U (1 / (2 * (m₁ + 4))) csw (solve m₁ b) = b := by
    filter_upwards [hs] with m₁ h b
    have := h b
    rwa [C33_improved, withGamma5, if_neg (by simp)] at this
  have hm4 : m₀ + 4 ≠ 0 := fun h => hm (by linarith)
  let G : ℝ → S → S → Matrix (Fin 4 × Fin N) (Fin 4 × Fin N) ℂ := fun M x y => Matrix.of fun p q => solve (M - 4) (unitField y q) x p.1 p.2
  have ht : Filter.Tendsto (fun M : ℝ => M - 4) (𝓝 (m₀ + 4)) (𝓝 m₀) := by
    have : Filter.Tendsto (fun M : ℝ => M - 4) (𝓝 (m₀ + 4)) (𝓝 (m₀ + 4 - 4)) := (continuous_id.sub continuous_const).tendsto _
    rwa [add_sub_cancel_right] at this
  have hGr : ∀ᶠ M in 𝓝 (m₀ + 4), IsGreen (improvedSpec T U (1 / (2 * M)) csw) (G M) := by
    filter_upwards [ht.eventually hs'] with M h
    rw [sub_add_cancel] at h
    exact green_exists h
  have hd := fun p q => hasDerivAt_green hm4 hGr p q
  have hd' : ∀ p q, HasDerivAt (fun m₁ : ℝ => (1 / ((m₁ + 4 : ℝ) : ℂ)) * greenMatrix (G (m₁ + 4)) p q)
      (-((1 / ((m₀ + 4 : ℝ) : ℂ)) ^ 2 * (greenMatrix (G (m₀ + 4)) * greenMatrix (G (m₀ + 4))) p q)) m₀ := by
    intro p q
    exact HasDerivAt.comp_add_const m₀ 4 (hd p q)
  have hP : (fun m₁ : ℝ => nprPropagator T (1 / (2 * (m₁ + 4))) (solve m₁) m i j) =ᶠ[𝓝 m₀] fun m₁ => ∑ x, ∑ y,
      (starRingEnd ℂ (planeWave T m x) * planeWave T m y / Fintype.card S) * ((1 / ((m₁ + 4 : ℝ) : ℂ)) * greenMatrix (G (m₁ + 4)) (x, component i) (y, component j)) := by
    filter_upwards [hs', isOpen_ne.mem_nhds hm] with m₁ h hm₁
    have hG₁ := green_exists h
    have hm₁' : ((m₁ + 4 : ℝ) : ℂ) ≠ 0 := by
      have : m₁ + 4 ≠ 0 := fun h => hm₁ (by linarith)
      exact_mod_cast this
    rw [nprPropagator_eq h hG₁]
    simp only [Matrix.smul_apply, submatrix_apply, Matrix.sum_apply, waveGreen, smul_eq_mul, Finset.mul_sum]
    refine Finset.sum_congr rfl fun x _ => Finset.sum_congr rfl fun y _ => ?_
    simp only [greenMatrix, Matrix.of_apply, G, add_sub_cancel_right]
    push_cast at hm₁' ⊢
    field_simp
  have hsum : HasDerivAt (fun m₁ : ℝ => ∑ x, ∑ y,
      (starRingEnd ℂ (planeWave T m x) * planeWave T m y / Fintype.card S) * ((1 / ((m₁ + 4 : ℝ) : ℂ)) * greenMatrix (G (m₁ + 4)) (x, component i) (y, component j)))
      (∑ x, ∑ y, (starRingEnd ℂ (planeWave T m x) * planeWave T m y / Fintype.card S)
        * (-((1 / ((m₀ + 4 : ℝ) : ℂ)) ^ 2 * (greenMatrix (G (m₀ + 4)) * greenMatrix (G (m₀ + 4))) (x, component i) (y, component j)))) m₀ :=
    HasDerivAt.fun_sum fun x _ => HasDerivAt.fun_sum fun y _ => (hd' _ _).const_mul _
  refine (hsum.congr_of_eventuallyEq hP).congr_deriv ?_
  have h0 := hs'.self_of_nhds
  have h0D : ∀ b, (fun U => improvedMul T U (1 / (2 * (m₀ + 4))) csw false) U (solve m₀ b) = b := hs.self_of_nhds
  have hG0 := green_exists h0
  rw [C75_vertex T (D := fun U => improvedMul T U (1 / (2 * (m₀ + 4))) csw false) (Or.inr (Or.inr ⟨csw, rfl⟩)) U (solve m₀) h0D (green_exists h0D) m 0]
  have hg : gammaBits 0 = 1 := by simp [gammaBits]
  have hk : (kroneckerMap (· * ·) (1 : SpinMat) (1 : Mat N)) = 1 := one_kronecker_one
  simp only [inOrder, Matrix.smul_apply, submatrix_apply, momentumVertex, hg, hk, Matrix.mul_one, Matrix.sum_apply, smul_eq_mul, Finset.mul_sum]
  rw [← Finset.sum_neg_distrib]
  refine Finset.sum_congr rfl fun x _ => ?_
  rw [Finset.sum_comm, ← Finset.sum_neg_distrib]
  refine Finset.sum_congr rfl fun y _ => ?_
  have hmul : (greenMatrix (G (m₀ + 4)) * greenMatrix (G (m₀ + 4))) (x, component i) (y, component j)
      = ∑ z, (G (m₀ + 4) x z * G (m₀ + 4) z y) (component i) (component j) := by
    rw [Matrix.mul_apply, Fintype.sum_prod_type]
    rfl
  rw [hmul, mul_neg, Finset.mul_sum, Finset.mul_sum, ← Finset.sum_neg_distrib, ← Finset.sum_neg_distrib]
  refine Finset.sum_congr rfl fun z _ => ?_
  have hGe : ∀ a b, G (m₀ + 4) a b = Matrix.of fun p q : Fin 4 × Fin N => solve m₀ (unitField b q) a p.1 p.2 := by
    intro a b
    simp only [G, add_sub_cancel_right]
  rw [hGe, hGe]
  have hm4' : ((m₀ : ℂ) + 4) ≠ 0 := by exact_mod_cast hm4
  push_cast
  field_simp
  try ring

end

end Leonard
