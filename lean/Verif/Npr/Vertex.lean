import Verif.Npr.Model
import Verif.Meson.NoiseProps
import Verif.Meson.Ineq
import Verif.Gauge.Torus

/-!
# The momentum sources and the Green function
-/

set_option autoImplicit false

namespace Leonard

open Matrix

noncomputable section

variable {S : Type} {N : ℕ}

/-- **Specification.** The plane wave with `m μ` periods in direction `μ`. -/
def planeWave (T : Torus S) (m : Fin 4 → ℝ) (x : S) : ℂ := Complex.exp (2 * Real.pi * Complex.I * ∑ μ, (m μ : ℂ) * T.coord x μ / T.ext μ)

/-- **Specification.** Spin and colour of the row `c*4 + alpha` of a matrix. -/
def component (i : Fin (N * 4)) : Fin 4 × Fin N := (spinOf i, colourOf i)

/-- The components in the order of the program. -/
def componentEquiv : Fin (N * 4) ≃ Fin 4 × Fin N where
  toFun := component
  invFun p := ⟨p.2.val * 4 + p.1.val, by have := p.1.isLt; have := p.2.isLt; omega⟩
  left_inv i := by
    apply Fin.ext
    have := Nat.div_add_mod i.val 4
    simp only [component, spinOf, colourOf]
    omega
  right_inv p := by
    obtain ⟨a, c⟩ := p
    have := a.isLt
    refine Prod.ext (Fin.ext ?_) (Fin.ext ?_)
    · simp only [component, spinOf]; omega
    · simp only [component, colourOf]; omega

theorem component_eq : (component : Fin (N * 4) → Fin 4 × Fin N) = componentEquiv := rfl

/-- A spin matrix on the components of a site. -/
def spinMat (Γ : SpinMat) : Matrix (Fin 4 × Fin N) (Fin 4 × Fin N) ℂ := kroneckerMap (· * ·) Γ (1 : Mat N)

theorem colourBlocks_eq (Γ : SpinMat) : colourBlocks N Γ = (spinMat Γ : Matrix (Fin 4 × Fin N) (Fin 4 × Fin N) ℂ).submatrix component component := by
  ext i j
  simp only [colourBlocks, Matrix.of_apply, submatrix_apply, spinMat, kroneckerMap_apply, component, one_apply, colourOf, Fin.mk.injEq, spinOf]
  split <;> simp

theorem planeWave_eq (T : Torus S) (m : Fin 4 → ℝ) (x : S) :
    (⟨Real.cos (sourcePhase T (nprMomentum T m) x), Real.sin (sourcePhase T (nprMomentum T m) x)⟩ : ℂ) = planeWave T m x := by
  have e : (2 * Real.pi * Complex.I * ∑ μ, (m μ : ℂ) * T.coord x μ / T.ext μ) = ((sourcePhase T (nprMomentum T m) x : ℝ) : ℂ) * Complex.I := by
    simp only [sourcePhase, nprMomentum, Fin.sum_univ_four]
    push_cast
    ring
  rw [planeWave, e, Complex.exp_mul_I]
  apply Complex.ext <;> simp [← Complex.ofReal_cos, ← Complex.ofReal_sin]

theorem nprSource_apply (T : Torus S) (m : Fin 4 → ℝ) (i : Fin (N * 4)) (x : S) (mu : Fin 4) (n : Fin N) :
    nprSource T m i x mu n = if (mu, n) = component i then planeWave T m x else 0 := by
  simp only [nprSource, momentumSource, Matrix.of_apply, planeWave_eq, component, Prod.mk.injEq]

theorem planeWave_conj (T : Torus S) (m : Fin 4 → ℝ) (x : S) : planeWave T m x * starRingEnd ℂ (planeWave T m x) = 1 := by
  rw [← planeWave_eq, Complex.mul_conj, Complex.normSq_mk]
  have := Real.cos_sq_add_sin_sq (sourcePhase T (nprMomentum T m) x)
  norm_cast
  nlinarith

/-- The Green function applied to the plane wave, with its phase taken off. -/
def waveGreen [Fintype S] (T : Torus S) (m : Fin 4 → ℝ) (G : S → S → Matrix (Fin 4 × Fin N) (Fin 4 × Fin N) ℂ) (x : S) :
    Matrix (Fin 4 × Fin N) (Fin 4 × Fin N) ℂ := ∑ y, (starRingEnd ℂ (planeWave T m x) * planeWave T m y) • G x y

section
variable [Fintype S] [DecidableEq S] {T : Torus S} {U : GField S N} {κ csw : ℝ} {solve : SField S N → SField S N}
  {G : S → S → Matrix (Fin 4 × Fin N) (Fin 4 × Fin N) ℂ}

theorem solve_source (hs : ∀ b, improvedSpec T U κ csw (solve b) = b) (hG : IsGreen (improvedSpec T U κ csw) G) (m : Fin 4 → ℝ) (j : Fin (N * 4))
    (x : S) (mu : Fin 4) (n : Fin N) : solve (nprSource T m j) x mu n = ∑ y, planeWave T m y * G x y (mu, n) (component j) := by
  rw [solve_green hs hG, Fintype.sum_prod_type]
  refine Finset.sum_congr rfl fun y _ => ?_
  simp only [nprSource_apply, greenMatrix, Matrix.of_apply]
  rw [Finset.sum_eq_single (component j)]
  · simp [mul_comm]
  · rintro q _ hq
    rw [if_neg hq, mul_zero]
  · simp

theorem nprLocal_eq (hs : ∀ b, improvedSpec T U κ csw (solve b) = b) (hG : IsGreen (improvedSpec T U κ csw) G) (m : Fin 4 → ℝ) (x : S) :
    nprLocal T solve m x = (waveGreen T m G x).submatrix component component := by
  ext i j
  simp only [nprLocal, Matrix.of_apply, nprSource_apply, solve_source hs hG, submatrix_apply, waveGreen, Matrix.sum_apply, Matrix.smul_apply, smul_eq_mul]
  have h : ∀ (f : Fin 4 × Fin N → ℂ), ∑ mu, ∑ n, f (mu, n) = ∑ q, f q := fun f => (Fintype.sum_prod_type f).symm
  rw [h fun q => starRingEnd ℂ (if q = component i then planeWave T m x else 0) * ∑ y, planeWave T m y * G x y q (component j),
    Finset.sum_eq_single (component i)]
  · rw [if_pos rfl, Finset.mul_sum]
    exact Finset.sum_congr rfl fun y _ => by ring
  · intro q _ hq
    rw [if_neg hq, map_zero, zero_mul]
  · simp

theorem nprPropagator_eq (hs : ∀ b, improvedSpec T U κ csw (solve b) = b) (hG : IsGreen (improvedSpec T U κ csw) G) (m : Fin 4 → ℝ) :
    nprPropagator T κ solve m = (2 * κ / Fintype.card S : ℂ) • (∑ x, waveGreen T m G x).submatrix component component := by
  ext i j
  have h : latticeDot (nprSource T m i) (solve (nprSource T m j)) = ∑ x, nprLocal T solve m x i j := rfl
  rw [nprPropagator, Matrix.of_apply, h]
  simp only [nprLocal_eq hs hG, submatrix_apply, Matrix.smul_apply, Matrix.sum_apply, smul_eq_mul]
  ring

theorem spinMat_gamma5 (A : Matrix (Fin 4 × Fin N) (Fin 4 × Fin N) ℂ) (i j : Fin 4 × Fin N) :
    ((spinMat tabGamma5 : Matrix (Fin 4 × Fin N) (Fin 4 × Fin N) ℂ) * A * (spinMat tabGamma5 : Matrix (Fin 4 × Fin N) (Fin 4 × Fin N) ℂ) : Matrix (Fin 4 × Fin N) (Fin 4 × Fin N) ℂ) i j = spinSign i.1 * A i j * spinSign j.1 := by
  have h : (spinMat tabGamma5 : Matrix (Fin 4 × Fin N) (Fin 4 × Fin N) ℂ) = diagonal fun p => spinSign p.1 := by
    ext ⟨a, c⟩ ⟨b, d⟩
    simp only [spinMat, gamma5_eq_diagonal, kroneckerMap_apply, diagonal_apply, one_apply, Prod.mk.injEq]
    by_cases h1 : a = b <;> by_cases h2 : c = d <;> simp [h1, h2]
  rw [h, mul_diagonal, diagonal_mul]

theorem chroma15 : tabChroma 15 = tabGamma5 := by
  unfold tabChroma tabGamma5
  exact congrArg toSpin (by decide +kernel)

theorem green_adjoint (hG : IsGreen (improvedSpec T U κ csw) G) (x y : S) :
    spinMat tabGamma5 * (G x y)ᴴ * spinMat tabGamma5 = G y x := by
  ext i j
  rw [spinMat_gamma5, conjTranspose_apply, green_gamma5 hG x y j i, Complex.star_def]
  ring

theorem waveGreen_adjoint (hG : IsGreen (improvedSpec T U κ csw) G) (m : Fin 4 → ℝ) (x : S) :
    spinMat tabGamma5 * (waveGreen T m G x)ᴴ * spinMat tabGamma5 = ∑ z, (starRingEnd ℂ (planeWave T m z) * planeWave T m x) • G z x := by
  simp only [waveGreen, conjTranspose_sum, conjTranspose_smul, Finset.mul_sum, Finset.sum_mul, Matrix.mul_smul, Matrix.smul_mul, green_adjoint hG]
  refine Finset.sum_congr rfl fun z _ => ?_
  congr 1
  simp only [Complex.star_def, map_mul, Complex.conj_conj]
  ring

/-- The sum of the waves over all sites is γ₅-Hermitian. -/
theorem sum_waveGreen_adjoint (hG : IsGreen (improvedSpec T U κ csw) G) (m : Fin 4 → ℝ) :
    spinMat tabGamma5 * (∑ x, waveGreen T m G x)ᴴ * spinMat tabGamma5 = ∑ x, waveGreen T m G x := by
  rw [conjTranspose_sum, Finset.mul_sum, Finset.sum_mul]
  simp only [waveGreen_adjoint hG]
  rw [Finset.sum_comm]
  rfl

theorem submatrix_mul_component (A B : Matrix (Fin 4 × Fin N) (Fin 4 × Fin N) ℂ) :
    A.submatrix component component * B.submatrix component component = (A * B).submatrix (component : Fin (N * 4) → _) component := by
  rw [component_eq, submatrix_mul_equiv]

theorem nprResult_eq (hs : ∀ b, improvedSpec T U κ csw (solve b) = b) (hG : IsGreen (improvedSpec T U κ csw) G) (m : Fin 4 → ℝ) (v : Fin 16) (x : S) :
    nprResult T solve m v x
      = ((spinMat tabGamma5 * (waveGreen T m G x)ᴴ * spinMat tabGamma5) * spinMat (tabChroma v) * waveGreen T m G x).submatrix component component := by
  rw [nprResult, nprLocal_eq hs hG, chroma15, colourBlocks_eq, colourBlocks_eq, conjTranspose_submatrix]
  simp only [submatrix_mul_component]

theorem nprVertex_eq (hs : ∀ b, improvedSpec T U κ csw (solve b) = b) (hG : IsGreen (improvedSpec T U κ csw) G) (m : Fin 4 → ℝ) (v : Fin 16) :
    nprVertex T κ solve m v = (4 * (κ : ℂ) ^ 2 / Fintype.card S) • (∑ x, (spinMat tabGamma5 * (waveGreen T m G x)ᴴ * spinMat tabGamma5) * spinMat (tabChroma v)
      * waveGreen T m G x).submatrix component component := by
  ext i j
  simp only [nprVertex, Matrix.of_apply, nprResult_eq hs hG, submatrix_apply, Matrix.smul_apply, Matrix.sum_apply, smul_eq_mul]
  ring

/-! ### Translations -/

theorem planeWave_sup (T : Torus S) (n : Fin 4 → ℤ) (ρ : Fin 4) (x : S) :
    planeWave T (fun μ => n μ) (T.sup ρ x) = Complex.exp (2 * Real.pi * Complex.I * (n ρ / T.ext ρ)) * planeWave T (fun μ => n μ) x := by
  have hL : ∀ μ, (T.ext μ : ℂ) ≠ 0 := fun μ => by
    have := T.coord_lt μ x
    exact_mod_cast (by omega : T.ext μ ≠ 0)
  obtain ⟨k, hk⟩ : ∃ k : ℕ, T.coord x ρ + 1 = T.coord (T.sup ρ x) ρ + T.ext ρ * k := by
    refine ⟨(T.coord x ρ + 1) / T.ext ρ, ?_⟩
    rw [T.coord_sup]
    exact (Nat.mod_add_div _ _).symm
  have hk' : (T.coord (T.sup ρ x) ρ : ℂ) = T.coord x ρ + 1 - T.ext ρ * k := by
    have := congrArg (Nat.cast (R := ℂ)) hk
    push_cast at this
    linear_combination -this
  have e : ∑ μ, (n μ : ℂ) * T.coord (T.sup ρ x) μ / T.ext μ = n ρ / T.ext ρ + ∑ μ, (n μ : ℂ) * T.coord x μ / T.ext μ - ((n ρ * k : ℤ) : ℂ) := by
    have h1 : ∀ μ, (n μ : ℂ) * T.coord (T.sup ρ x) μ / T.ext μ = (n μ : ℂ) * T.coord x μ / T.ext μ + if μ = ρ then (n ρ : ℂ) / T.ext ρ - ((n ρ * k : ℤ) : ℂ) else 0 := by
      intro μ
      by_cases h : μ = ρ
      · subst h
        rw [if_pos rfl, hk']
        have := hL μ
        push_cast
        field_simp
        ring
      · rw [if_neg h, add_zero, T.coord_sup_ne _ _ _ (Ne.symm h)]
    rw [Finset.sum_congr rfl fun μ _ => h1 μ, Finset.sum_add_distrib, Finset.sum_ite_eq' Finset.univ ρ, if_pos (Finset.mem_univ _)]
    ring
  simp only [planeWave, Complex.ofReal_intCast]
  rw [e, ← Complex.exp_add]
  have := Complex.exp_periodic.int_mul (-(n ρ * k)) (2 * Real.pi * Complex.I * (n ρ / T.ext ρ) + 2 * Real.pi * Complex.I * ∑ μ, (n μ : ℂ) * T.coord x μ / T.ext μ)
  rw [← this]
  congr 1
  push_cast
  ring

theorem green_unique {D : SField S N → SField S N} (hD : Function.Injective D) {G G' : S → S → Matrix (Fin 4 × Fin N) (Fin 4 × Fin N) ℂ}
    (hG : IsGreen D G) (hG' : IsGreen D G') : G = G' := by
  funext x y
  ext ⟨a, c⟩ j
  have h := hD ((hG y j).trans (hG' y j).symm)
  exact congrFun (congrFun (congrFun h x) a) c

theorem green_translate (hG : IsGreen (improvedSpec T U κ csw) G) (ρ : Fin 4) :
    IsGreen (improvedSpec T (fun x mu => U (T.sup ρ x) mu) κ csw) fun x y => G (T.sup ρ x) (T.sup ρ y) := by
  intro y j
  have h := improved_translate T U κ csw ρ fun x => Matrix.of fun mu i => G x (T.sup ρ y) (mu, i) j
  rw [h, hG]
  funext x
  simp only [unitField, (T.sup ρ).injective.eq_iff]

theorem waveGreen_sup (hinj : Function.Injective (improvedSpec T U κ csw)) (hG : IsGreen (improvedSpec T U κ csw) G) (hU : ∀ x ρ μ, U (T.sup ρ x) μ = U x μ) (n : Fin 4 → ℤ) (ρ : Fin 4) (x : S) :
    waveGreen T (fun μ => n μ) G (T.sup ρ x) = waveGreen T (fun μ => n μ) G x := by
  have h := green_translate hG ρ
  have hU' : (fun x mu => U (T.sup ρ x) mu) = U := funext fun x => funext fun μ => hU x ρ μ
  rw [hU'] at h
  have hg := green_unique hinj h hG
  unfold waveGreen
  rw [← Equiv.sum_comp (T.sup ρ) fun y => (starRingEnd ℂ (planeWave T (fun μ => n μ) (T.sup ρ x)) * planeWave T (fun μ => n μ) y) • G (T.sup ρ x) y]
  refine Finset.sum_congr rfl fun y _ => ?_
  rw [show G (T.sup ρ x) (T.sup ρ y) = G x y from congrFun (congrFun hg x) y, planeWave_sup, planeWave_sup]
  congr 1
  have e : starRingEnd ℂ (Complex.exp (2 * Real.pi * Complex.I * (n ρ / T.ext ρ))) * Complex.exp (2 * Real.pi * Complex.I * (n ρ / T.ext ρ)) = 1 := by
    rw [← Complex.exp_conj, ← Complex.exp_add]
    have h2 : starRingEnd ℂ 2 = 2 := Complex.conj_ofNat 2
    simp [h2]
  rw [map_mul]
  linear_combination (starRingEnd ℂ (planeWave T (fun μ => n μ) x) * planeWave T (fun μ => n μ) y) * e

end

/-- Where the coordinates name the sites, a function which no step changes is constant. -/
theorem constant_of_sup {T : Torus S} (hT : Function.Injective T.coord) {α : Type} {f : S → α} (hf : ∀ ρ x, f (T.sup ρ x) = f x) (x y : S) : f x = f y := by
  have hi : ∀ ρ n x, f ((T.sup ρ)^[n] x) = f x := by
    intro ρ n
    induction n with
    | zero => intro x; rfl
    | succ n ih => intro x; rw [Function.iterate_succ_apply, ih, hf]
  have hm : ∀ (ρ : Fin 4) (z : S), ∃ z', f z' = f z ∧ T.coord z' ρ = T.coord y ρ ∧ ∀ μ, μ ≠ ρ → T.coord z' μ = T.coord z μ := by
    intro ρ z
    refine ⟨(T.sup ρ)^[T.ext ρ - T.coord z ρ + T.coord y ρ] z, hi _ _ _, ?_, fun μ hμ => T.coord_iterate_ne ρ μ (Ne.symm hμ) _ _⟩
    rw [T.coord_iterate]
    have h1 := T.coord_lt ρ z
    have h2 := T.coord_lt ρ y
    rw [show T.coord z ρ + (T.ext ρ - T.coord z ρ + T.coord y ρ) = T.coord y ρ + T.ext ρ by omega, Nat.add_mod_right, Nat.mod_eq_of_lt h2]
  obtain ⟨a, ha, ha0, ha'⟩ := hm 0 x
  obtain ⟨b, hb, hb1, hb'⟩ := hm 1 a
  obtain ⟨c, hc, hc2, hc'⟩ := hm 2 b
  obtain ⟨d, hd, hd3, hd'⟩ := hm 3 c
  have : d = y := by
    apply hT
    funext μ
    fin_cases μ
    · exact (hd' 0 (by decide)).trans ((hc' 0 (by decide)).trans ((hb' 0 (by decide)).trans ha0))
    · exact (hd' 1 (by decide)).trans ((hc' 1 (by decide)).trans hb1)
    · exact (hd' 2 (by decide)).trans hc2
    · exact hd3
  rw [← ha, ← hb, ← hc, ← hd, this]

end

end Leonard
