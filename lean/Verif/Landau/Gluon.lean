import Verif.Landau.Model
import Verif.Fixing.Deviation
import Mathlib.Analysis.SpecialFunctions.Complex.CircleAddChar
import Mathlib.Algebra.Order.Chebyshev

/-!
# The Fourier transform of the gluon field
-/

set_option autoImplicit false

namespace Leonard

open Matrix

noncomputable section

variable {S : Type} {N : ℕ}

/-- `e^{ix}`. -/
def eix (x : ℝ) : ℂ := Complex.exp (x * Complex.I)

theorem eix_eq (x : ℝ) : (⟨Real.cos x, Real.sin x⟩ : ℂ) = eix x := by
  unfold eix
  rw [Complex.exp_mul_I]
  apply Complex.ext <;> simp [← Complex.ofReal_cos, ← Complex.ofReal_sin]

theorem eix_neg_eq (x : ℝ) : (⟨Real.cos x, -Real.sin x⟩ : ℂ) = eix (-x) := by
  rw [← eix_eq, Real.cos_neg, Real.sin_neg]

theorem eix_add (x y : ℝ) : eix (x + y) = eix x * eix y := by
  unfold eix; rw [← Complex.exp_add]; push_cast; ring_nf

theorem star_eix (x : ℝ) : star (eix x) = eix (-x) := by
  unfold eix
  rw [Complex.star_def, ← Complex.exp_conj, map_mul, Complex.conj_ofReal, Complex.conj_I]
  push_cast; ring_nf

theorem eix_zero : eix 0 = 1 := by simp [eix]

theorem eix_mul_neg (x : ℝ) : eix x * eix (-x) = 1 := by rw [← eix_add, add_neg_cancel, eix_zero]

theorem normSq_eix (x : ℝ) : Complex.normSq (eix x) = 1 := by
  rw [Complex.normSq_eq_norm_sq, eix, Complex.norm_exp_ofReal_mul_I]; norm_num

theorem eix_two_pi (n : ℕ) : eix (n * (2 * Real.pi)) = 1 := by
  unfold eix
  have h := Complex.exp_nat_mul_two_pi_mul_I n
  rw [← h]; push_cast; ring_nf

/-! ### The plane waves -/

/-- `k·x`. -/
theorem ghostPhase_eq (T : Torus S) (k : Fin 4 → ℝ) (s : S) : ghostPhase T k s = ∑ ν, (T.coord s ν : ℝ) * k ν := by
  rw [Fin.sum_univ_four]; rfl

theorem gluonPhase_eq (T : Torus S) (k : Fin 4 → ℝ) (μ : Fin 4) (s : S) : gluonPhase T k μ s = ghostPhase T k s + k μ / 2 := by
  unfold gluonPhase ghostPhase midpoint
  fin_cases μ <;> simp <;> ring

theorem ext_pos (T : Torus S) (s : S) (μ : Fin 4) : 0 < T.ext μ := lt_of_le_of_lt (Nat.zero_le _) (T.coord_lt μ s)

/-- A plane wave with an allowed momentum moves by a phase. -/
theorem eix_sup (T : Torus S) (n : Fin 4 → ℕ) (μ : Fin 4) (s : S) :
    eix (ghostPhase T (waveVector T.ext n) (T.sup μ s)) = eix (waveVector T.ext n μ) * eix (ghostPhase T (waveVector T.ext n) s) := by
  have hL : (0 : ℝ) < T.ext μ := by exact_mod_cast ext_pos T s μ
  have h1 : ghostPhase T (waveVector T.ext n) (T.sup μ s)
      = ghostPhase T (waveVector T.ext n) s + (((T.coord (T.sup μ s) μ : ℕ) : ℝ) - T.coord s μ) * waveVector T.ext n μ := by
    rw [ghostPhase_eq, ghostPhase_eq, ← Finset.add_sum_erase _ _ (Finset.mem_univ μ),
      ← Finset.add_sum_erase _ (fun ν => (T.coord s ν : ℝ) * waveVector T.ext n ν) (Finset.mem_univ μ)]
    have : ∀ ν ∈ Finset.univ.erase μ, (T.coord (T.sup μ s) ν : ℝ) * waveVector T.ext n ν = (T.coord s ν : ℝ) * waveVector T.ext n ν := by
      intro ν hν
      rw [T.coord_sup_ne _ _ _ (Finset.ne_of_mem_erase hν).symm]
    rw [Finset.sum_congr rfl this]
    ring
  have h2 : T.coord s μ + 1 = T.coord (T.sup μ s) μ + T.ext μ * ((T.coord s μ + 1) / T.ext μ) := by
    rw [T.coord_sup]; exact (Nat.mod_add_div _ _).symm
  obtain ⟨q, hq⟩ : ∃ q, q = (T.coord s μ + 1) / T.ext μ := ⟨_, rfl⟩
  rw [← hq] at h2
  have h3 : ((T.coord (T.sup μ s) μ : ℕ) : ℝ) - T.coord s μ = 1 - T.ext μ * q := by
    have : ((T.coord s μ + 1 : ℕ) : ℝ) = ((T.coord (T.sup μ s) μ + T.ext μ * q : ℕ) : ℝ) := by exact_mod_cast h2
    push_cast at this
    linarith
  have h4 : eix (waveVector T.ext n μ) = eix ((1 - T.ext μ * q) * waveVector T.ext n μ) := by
    have e : waveVector T.ext n μ = (1 - T.ext μ * q) * waveVector T.ext n μ + ((q * n μ : ℕ) : ℝ) * (2 * Real.pi) := by
      unfold waveVector
      push_cast
      field_simp
      ring
    conv_lhs => rw [e, eix_add, eix_two_pi, mul_one]
  rw [h1, h3, eix_add, h4, mul_comm]

/-! ### The field in momentum space -/

/-- `Σ_x e^{ik(x+μ/2)} A_μ(x)`. -/
def gluonWave [Fintype S] (T : Torus S) (U : GField S N) (k : Fin 4 → ℝ) (μ : Fin 4) : Mat N :=
  ∑ s, eix (gluonPhase T k μ s) • lieField (U s μ)

variable [Fintype S]

theorem gluonPlus_eq (T : Torus S) (U : GField S N) (k : Fin 4 → ℝ) (μ : Fin 4) (c : Gen N) :
    gluonPlus T U k μ c = trace (gluonWave T U k μ * gens N c) := by
  unfold gluonPlus gluonWave
  rw [Finset.sum_mul, trace_sum]
  refine Finset.sum_congr rfl fun s _ => ?_
  rw [eix_eq, Matrix.smul_mul, trace_smul, smul_eq_mul]

theorem star_trace_gens (A : Mat N) (c : Gen N) : star (trace (A * gens N c)) = trace (Aᴴ * gens N c) := by
  rw [← trace_conjTranspose, conjTranspose_mul, (C30_generators N).hermitian, trace_mul_comm]

theorem gluonMinus_eq (T : Torus S) (U : GField S N) (k : Fin 4 → ℝ) (μ : Fin 4) (c : Gen N) :
    gluonMinus T U k μ c = star (gluonPlus T U k μ c) := by
  unfold gluonPlus gluonMinus
  rw [star_sum]
  refine Finset.sum_congr rfl fun s _ => ?_
  rw [eix_eq, eix_neg_eq, star_mul', star_eix, star_trace_gens, lieField_herm]

theorem gluonMinus_wave (T : Torus S) (U : GField S N) (k : Fin 4 → ℝ) (μ : Fin 4) (c : Gen N) :
    gluonMinus T U k μ c = trace ((gluonWave T U k μ)ᴴ * gens N c) := by
  rw [gluonMinus_eq, gluonPlus_eq, star_trace_gens]

theorem trace_gluonWave (T : Torus S) (U : GField S N) (k : Fin 4 → ℝ) (μ : Fin 4) : trace (gluonWave T U k μ) = 0 := by
  unfold gluonWave
  rw [trace_sum]
  exact Finset.sum_eq_zero fun s _ => by rw [trace_smul, trace_lieField, smul_zero]

omit [Fintype S] in
/-- The generators are a basis: half the trace of a product is the sum over the components. -/
theorem sum_trace_gens (X Y : Mat N) (hX : trace X = 0) : ∑ c, trace (X * gens N c) * trace (Y * gens N c) = trace (X * Y) / 2 := by
  conv_rhs => rw [C30_complete N X hX, Finset.sum_mul, trace_sum, Finset.sum_div]
  refine Finset.sum_congr rfl fun c _ => ?_
  rw [Matrix.smul_mul, trace_smul, smul_eq_mul, trace_mul_comm (gens N c) X, trace_mul_comm (gens N c) Y]
  ring

omit [Fintype S] in
theorem sum_normSq_gens (X : Mat N) (hX : trace X = 0) : ∑ c, Complex.normSq (trace (X * gens N c)) = (trace (X * Xᴴ)).re / 2 := by
  have h := sum_trace_gens X Xᴴ hX
  have e : ∀ c, trace (X * gens N c) * trace (Xᴴ * gens N c) = (Complex.normSq (trace (X * gens N c)) : ℂ) := fun c => by
    rw [← star_trace_gens, Complex.star_def, Complex.mul_conj]
  simp only [e] at h
  have h' := congrArg Complex.re h
  rw [← Complex.ofReal_sum, Complex.ofReal_re] at h'
  rw [h']
  simp

theorem plus_mul_minus (T : Torus S) (U : GField S N) (k : Fin 4 → ℝ) (μ : Fin 4) (c : Gen N) :
    (gluonPlus T U k μ c * gluonMinus T U k μ c).re = Complex.normSq (gluonPlus T U k μ c) := by
  rw [gluonMinus_eq, Complex.star_def, Complex.mul_conj, Complex.ofReal_re]

/-- The two-point function in terms of matrices. -/
theorem gluonTwoPoint_eq (T : Torus S) (U : GField S N) (k : Fin 4 → ℝ) :
    gluonTwoPoint T U k = (∑ μ, (trace (gluonWave T U k μ * (gluonWave T U k μ)ᴴ)).re / 2)
      / if momentumModulus k < 0.0000000000000001 then 4 else 3 := by
  unfold gluonTwoPoint
  congr 1
  refine Finset.sum_congr rfl fun μ _ => ?_
  simp only [plus_mul_minus]
  rw [← sum_normSq_gens _ (trace_gluonWave T U k μ)]
  simp only [gluonPlus_eq]

/-! ### Divergence -/

theorem gluonWave_divergence (T : Torus S) (U : GField S N) (n : Fin 4 → ℕ) :
    ∑ μ, (latticeMomentum (waveVector T.ext n) μ : ℂ) • gluonWave T U (waveVector T.ext n) μ
      = Complex.I • ∑ s, eix (ghostPhase T (waveVector T.ext n) s) • divergence T U s := by
  obtain ⟨k, hk⟩ : ∃ k, k = waveVector T.ext n := ⟨_, rfl⟩
  have hsup : ∀ μ s, eix (ghostPhase T k (T.sup μ s)) = eix (k μ) * eix (ghostPhase T k s) := by
    intro μ s; rw [hk]; exact eix_sup T n μ s
  rw [← hk]
  have h1 : ∀ μ, ∑ s, eix (ghostPhase T k s) • lieField (U (T.sdn μ s) μ) = eix (k μ) • ∑ s, eix (ghostPhase T k s) • lieField (U s μ) := by
    intro μ
    rw [← Equiv.sum_comp (T.sup μ), Finset.smul_sum]
    refine Finset.sum_congr rfl fun s _ => ?_
    rw [T.sdn_sup, hsup, smul_smul]
  have h2 : ∀ μ, gluonWave T U k μ = eix (k μ / 2) • ∑ s, eix (ghostPhase T k s) • lieField (U s μ) := by
    intro μ
    unfold gluonWave
    rw [Finset.smul_sum]
    refine Finset.sum_congr rfl fun s _ => ?_
    rw [gluonPhase_eq, eix_add, mul_comm, smul_smul]
  have h3 : ∀ x : ℝ, (((2 * Real.sin (x / 2) : ℝ)) : ℂ) * eix (x / 2) = Complex.I * (1 - eix x) := by
    intro x
    have a : eix x = eix (x / 2) * eix (x / 2) := by rw [← eix_add]; ring_nf
    have b := eix_mul_neg (x / 2)
    have c : ((2 * Real.sin (x / 2) : ℝ) : ℂ) = Complex.I * (eix (-(x / 2)) - eix (x / 2)) := by
      rw [← eix_eq, ← eix_eq, Real.cos_neg, Real.sin_neg]
      generalize Real.sin (x / 2) = y
      apply Complex.ext <;> simp <;> ring
    rw [c, a]
    linear_combination (Complex.I) * b
  unfold divergence
  simp only [Finset.smul_sum]
  rw [Finset.sum_comm (s := Finset.univ (α := S))]
  refine Finset.sum_congr rfl fun μ _ => ?_
  rw [h2, smul_smul]
  unfold latticeMomentum
  rw [h3, ← Finset.smul_sum, mul_smul]
  congr 1
  simp only [smul_sub, Finset.sum_sub_distrib]
  rw [h1, sub_smul, one_smul]

/-- The trace norm of a sum of waves. -/
theorem wave_bound (f : S → ℝ) (D : S → Mat N) :
    (trace ((∑ s, eix (f s) • D s) * (∑ s, eix (f s) • D s)ᴴ)).re ≤ Fintype.card S * ∑ s, (trace (D s * (D s)ᴴ)).re := by
  simp only [trace_herm_sq]
  have h : ∀ i j, Complex.normSq ((∑ s, eix (f s) • D s) i j) ≤ Fintype.card S * ∑ s, Complex.normSq (D s i j) := by
    intro i j
    rw [Matrix.sum_apply]
    have a : ‖∑ s, (eix (f s) • D s) i j‖ ≤ ∑ s, ‖D s i j‖ := by
      refine (norm_sum_le _ _).trans_eq (Finset.sum_congr rfl fun s _ => ?_)
      rw [Matrix.smul_apply, norm_smul, eix, Complex.norm_exp_ofReal_mul_I, one_mul]
    rw [Complex.normSq_eq_norm_sq]
    simp only [Complex.normSq_eq_norm_sq]
    calc _ ≤ (∑ s, ‖D s i j‖) ^ 2 := by gcongr
      _ ≤ _ := by
        have := sq_sum_le_card_mul_sum_sq (s := Finset.univ) (f := fun s => ‖D s i j‖)
        rwa [Finset.card_univ] at this
  calc _ ≤ ∑ i, ∑ j, Fintype.card S * ∑ s, Complex.normSq (D s i j) :=
        Finset.sum_le_sum fun i _ => Finset.sum_le_sum fun j _ => h i j
    _ = _ := by
      simp only [Finset.mul_sum]
      rw [Finset.sum_comm (s := Finset.univ (α := S))]
      refine Finset.sum_congr rfl fun i _ => ?_
      rw [Finset.sum_comm]

end

end Leonard
