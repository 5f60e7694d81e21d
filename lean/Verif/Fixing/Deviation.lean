import Verif.Fixing.Lemmas

/-!
# The deviation from the Landau gauge
-/

set_option autoImplicit false

namespace Leonard

open Matrix
open scoped Matrix.Norms.Operator

variable {S : Type} {N : ℕ}

/-- The sum of the differences of the field at a site. -/
noncomputable def divergence (T : Torus S) (U : GField S N) (s : S) : Mat N := ∑ μ, (lieField (U s μ) - lieField (U (T.sdn μ s) μ))

theorem lieField_herm (U : Mat N) : (lieField U)ᴴ = lieField U := by
  have hA : ((1 / (2 * Complex.I)) • (U - Uᴴ))ᴴ = (1 / (2 * Complex.I)) • (U - Uᴴ) := by
    rw [conjTranspose_smul, conjTranspose_sub, conjTranspose_conjTranspose]
    have : star (1 / (2 * Complex.I)) = -(1 / (2 * Complex.I)) := by
      simp [Complex.star_def]
    rw [this, neg_smul, ← smul_neg, neg_sub]
  unfold lieField
  simp only
  rw [conjTranspose_sub, hA, conjTranspose_smul, conjTranspose_one]
  congr 2
  rw [star_div₀, ← trace_conjTranspose, hA]
  simp

theorem trace_lieField (U : Mat N) : trace (lieField U) = 0 := by
  unfold lieField
  simp only [trace_sub, trace_smul, trace_one, Fintype.card_fin, smul_eq_mul]
  by_cases hN : N = 0
  · subst hN; simp [trace]
  · have : (N : ℂ) ≠ 0 := by exact_mod_cast hN
    field_simp
    ring

theorem lieField_sub (U V : Mat N) : lieField U - lieField V = lieField (U - V) := by
  unfold lieField
  simp only [conjTranspose_sub]
  have : (1 / (2 * Complex.I)) • (U - V - (Uᴴ - Vᴴ)) = (1 / (2 * Complex.I)) • (U - Uᴴ) - (1 / (2 * Complex.I)) • (V - Vᴴ) := by
    rw [← smul_sub]; congr 1; abel
  rw [this, trace_sub, sub_div, sub_smul]
  abel

theorem divergence_herm (T : Torus S) (U : GField S N) (s : S) : (divergence T U s)ᴴ = divergence T U s := by
  unfold divergence
  rw [conjTranspose_sum]
  exact Finset.sum_congr rfl fun μ _ => by rw [conjTranspose_sub, lieField_herm, lieField_herm]

theorem trace_divergence (T : Torus S) (U : GField S N) (s : S) : trace (divergence T U s) = 0 := by
  unfold divergence
  rw [trace_sum]
  exact Finset.sum_eq_zero fun μ _ => by rw [trace_sub, trace_lieField, trace_lieField, sub_zero]

theorem trace_herm_sq (A : Mat N) : (trace (A * Aᴴ)).re = ∑ i, ∑ j, Complex.normSq (A i j) := by
  rw [trace, Complex.re_sum]
  refine Finset.sum_congr rfl fun i _ => ?_
  rw [diag_apply, Matrix.mul_apply, Complex.re_sum]
  refine Finset.sum_congr rfl fun j _ => ?_
  rw [conjTranspose_apply, Complex.star_def, Complex.mul_conj, Complex.ofReal_re]

theorem trace_herm_sq_eq_zero (A : Mat N) : (trace (A * Aᴴ)).re = 0 ↔ A = 0 := by
  rw [trace_herm_sq]
  constructor
  · intro h
    ext i j
    have hi := (Finset.sum_eq_zero_iff_of_nonneg (s := Finset.univ) (f := fun i => ∑ j, Complex.normSq (A i j))
      fun i _ => Finset.sum_nonneg fun j _ => Complex.normSq_nonneg _).1 h i (Finset.mem_univ _)
    have hj := (Finset.sum_eq_zero_iff_of_nonneg (s := Finset.univ) (f := fun j => Complex.normSq (A i j))
      fun j _ => Complex.normSq_nonneg _).1 hi j (Finset.mem_univ _)
    exact Complex.normSq_eq_zero.1 hj
  · rintro rfl; simp

theorem landauDeviation_eq [Fintype S] (T : Torus S) (U : GField S N) :
    landauDeviation T U = (∑ s, (trace (divergence T U s * (divergence T U s)ᴴ)).re) / Fintype.card S := rfl

theorem landauDeviation_zero_iff [Fintype S] (T : Torus S) (U : GField S N) : landauDeviation T U = 0 ↔ ∀ s, divergence T U s = 0 := by
  rw [landauDeviation_eq]
  constructor
  · intro h s
    have hc : (Fintype.card S : ℝ) ≠ 0 := by
      have : 0 < Fintype.card S := Fintype.card_pos_iff.2 ⟨s⟩
      exact_mod_cast this.ne'
    have h0 := (div_eq_zero_iff.1 h).resolve_right hc
    rw [Finset.sum_eq_zero_iff_of_nonneg] at h0
    · exact (trace_herm_sq_eq_zero _).1 (h0 s (Finset.mem_univ _))
    · intro s _
      rw [trace_herm_sq]
      exact Finset.sum_nonneg fun i _ => Finset.sum_nonneg fun j _ => Complex.normSq_nonneg _
  · intro h
    simp [h]

/-- For an element of the algebra, only the algebra part of the other factor counts. -/
theorem re_trace_lie (X M : Mat N) (hX : IsLie X) : (trace (X * M)).re = (trace (X * (Complex.I • lieField M))).re := by
  have e : Complex.I • lieField M = (1 / 2 : ℂ) • (M - Mᴴ) - (Complex.I * (trace ((1 / (2 * Complex.I)) • (M - Mᴴ)) / N)) • 1 := by
    unfold lieField
    simp only
    rw [smul_sub, smul_smul, smul_smul]
    congr 2
    field_simp
  rw [e, Matrix.mul_sub, trace_sub, Matrix.mul_smul, Matrix.mul_smul, trace_smul, trace_smul, Matrix.mul_one, hX.2, smul_zero, sub_zero,
    Matrix.mul_sub, trace_sub]
  have h1 : trace (X * Mᴴ) = -star (trace (X * M)) := by
    rw [← trace_conjTranspose, conjTranspose_mul, hX.1, Matrix.mul_neg, trace_neg, neg_neg, trace_mul_comm]
  rw [h1, smul_eq_mul, sub_neg_eq_add, Complex.star_def, Complex.add_conj]
  simp

/-- The derivative of the functional along gauge transformations. -/
theorem hasDerivAt_landau [Fintype S] (T : Torus S) (U : GField S N) (X : S → Mat N) (hX : ∀ s, IsLie (X s)) :
    HasDerivAt (fun t : ℝ => landauFunctional (gaugeTransform T (fun s => NormedSpace.exp (t • X s)) U))
      (∑ s, (trace (X s * (Complex.I • divergence T U s))).re) 0 := by
  have h1 : ∀ s, HasDerivAt (fun t : ℝ => NormedSpace.exp (t • X s)) (X s) 0 := by
    intro s
    have h := hasDerivAt_exp_smul_const (𝕂 := ℝ) (X s) 0
    simp only [zero_smul, NormedSpace.exp_zero, one_mul] at h
    exact h
  have h2 : ∀ s μ, HasDerivAt (fun t : ℝ => (trace (gaugeTransform T (fun s => NormedSpace.exp (t • X s)) U s μ)).re)
      ((trace (X s * U s μ)).re - (trace (X (T.sup μ s) * U s μ)).re) 0 := by
    intro s μ
    have a := (h1 s).mul_const (U s μ)
    have b := ctL.hasFDerivAt.comp_hasDerivAt (0 : ℝ) (h1 (T.sup μ s))
    have c := trL.hasFDerivAt.comp_hasDerivAt (0 : ℝ) (a.mul b)
    refine c.congr_deriv ?_
    show (trace (X s * U s μ * (NormedSpace.exp ((0 : ℝ) • X (T.sup μ s)))ᴴ + NormedSpace.exp ((0 : ℝ) • X s) * U s μ * (X (T.sup μ s))ᴴ)).re = _
    rw [zero_smul, zero_smul, NormedSpace.exp_zero, conjTranspose_one, Matrix.mul_one, Matrix.one_mul, (hX _).1, Matrix.mul_neg, trace_add,
      trace_neg, trace_mul_comm (U s μ)]
    simp [sub_eq_add_neg]
  have h3 : HasDerivAt (fun t : ℝ => landauFunctional (gaugeTransform T (fun s => NormedSpace.exp (t • X s)) U))
      (∑ s, ∑ μ, ((trace (X s * U s μ)).re - (trace (X (T.sup μ s) * U s μ)).re)) 0 :=
    HasDerivAt.fun_sum fun s _ => HasDerivAt.fun_sum fun μ _ => h2 s μ
  refine h3.congr_deriv ?_
  have h4 : ∀ μ, ∑ s, (trace (X (T.sup μ s) * U s μ)).re = ∑ s, (trace (X s * U (T.sdn μ s) μ)).re := by
    intro μ
    rw [← Equiv.sum_comp (T.sup μ) fun s => (trace (X s * U (T.sdn μ s) μ)).re]
    simp only [Torus.sdn_sup]
  have h5 : ∑ s, ∑ μ, ((trace (X s * U s μ)).re - (trace (X (T.sup μ s) * U s μ)).re)
      = ∑ s, ∑ μ, ((trace (X s * U s μ)).re - (trace (X s * U (T.sdn μ s) μ)).re) := by
    simp only [Finset.sum_sub_distrib]
    congr 1
    rw [Finset.sum_comm, Finset.sum_comm (s := Finset.univ (α := S))]
    exact Finset.sum_congr rfl fun μ _ => h4 μ
  rw [h5]
  refine Finset.sum_congr rfl fun s _ => ?_
  unfold divergence
  rw [Finset.smul_sum, Matrix.mul_sum, trace_sum, Complex.re_sum]
  refine Finset.sum_congr rfl fun μ _ => ?_
  rw [lieField_sub, ← re_trace_lie _ _ (hX s), Matrix.mul_sub, trace_sub, Complex.sub_re]

end Leonard
