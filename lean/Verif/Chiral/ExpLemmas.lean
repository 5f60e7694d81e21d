import Mathlib.Analysis.Normed.Algebra.Exponential
import Mathlib.Analysis.SpecialFunctions.Exponential
import Mathlib.Tactic.NoncommRing

/-!
# The product formula for the exponential
-/

set_option autoImplicit false

namespace Leonard

open scoped Nat

variable {R : Type} [NormedRing R] [NormedAlgebra ℂ R] [CompleteSpace R]

theorem norm_exp_rest (Y : R) : ‖NormedSpace.exp Y - 1 - Y‖ ≤ ‖Y‖ ^ 2 * Real.exp ‖Y‖ := by
  have h := NormedSpace.exp_series_hasSum_exp' (𝕂 := ℂ) Y
  have h2 := (hasSum_nat_add_iff' 2).2 h
  have e : NormedSpace.exp Y - ∑ i ∈ Finset.range 2, ((i ! : ℂ)⁻¹ • Y ^ i) = NormedSpace.exp Y - 1 - Y := by
    simp [Finset.sum_range_succ, sub_sub]
  rw [e] at h2
  have hr : HasSum (fun n : ℕ => ‖Y‖ ^ 2 * ((n ! : ℝ)⁻¹ * ‖Y‖ ^ n)) (‖Y‖ ^ 2 * Real.exp ‖Y‖) := by
    have := NormedSpace.exp_series_hasSum_exp' (𝕂 := ℝ) ‖Y‖
    rw [← Real.exp_eq_exp_ℝ] at this
    exact this.mul_left _
  rw [← h2.tsum_eq]
  refine tsum_of_norm_bounded hr fun n => ?_
  rw [norm_smul, norm_inv, Complex.norm_natCast]
  have h1 : ‖Y ^ (n + 2)‖ ≤ ‖Y‖ ^ (n + 2) := norm_pow_le' Y (by omega)
  have h3 : (((n + 2)! : ℕ) : ℝ)⁻¹ ≤ ((n ! : ℕ) : ℝ)⁻¹ :=
    inv_anti₀ (by exact_mod_cast Nat.factorial_pos n) (by exact_mod_cast Nat.factorial_le (by omega))
  calc (((n + 2)! : ℕ) : ℝ)⁻¹ * ‖Y ^ (n + 2)‖ ≤ ((n ! : ℕ) : ℝ)⁻¹ * ‖Y‖ ^ (n + 2) := by gcongr
    _ = _ := by ring

theorem norm_exp_le_exp (h1 : ‖(1 : R)‖ ≤ 1) (Y : R) : ‖NormedSpace.exp Y‖ ≤ Real.exp ‖Y‖ := by
  have h := NormedSpace.exp_series_hasSum_exp' (𝕂 := ℂ) Y
  have hr := NormedSpace.exp_series_hasSum_exp' (𝕂 := ℝ) ‖Y‖
  rw [← Real.exp_eq_exp_ℝ] at hr
  rw [← h.tsum_eq]
  refine tsum_of_norm_bounded hr fun n => ?_
  rw [norm_smul, norm_inv, Complex.norm_natCast, smul_eq_mul]
  refine mul_le_mul_of_nonneg_left ?_ (by positivity)
  rcases n with _ | n
  · simpa using h1
  · exact norm_pow_le' Y (by omega)

omit [NormedAlgebra ℂ R] [CompleteSpace R] in
theorem norm_pow_sub_pow (h1 : ‖(1 : R)‖ ≤ 1) (a b : R) (c : ℝ) (ha : ‖a‖ ≤ c) (hb : ‖b‖ ≤ c) (hc : 1 ≤ c) (n : ℕ) :
    ‖a ^ n - b ^ n‖ ≤ n * c ^ n * ‖a - b‖ := by
  have hbp : ∀ k, ‖b ^ k‖ ≤ c ^ k := by
    intro k
    induction k with
    | zero => simpa using h1
    | succ k ih =>
      rw [pow_succ, pow_succ]
      exact (norm_mul_le _ _).trans (mul_le_mul ih hb (norm_nonneg _) (by positivity))
  induction n with
  | zero => simp
  | succ n ih =>
    have e : a ^ (n + 1) - b ^ (n + 1) = a * (a ^ n - b ^ n) + (a - b) * b ^ n := by
      rw [pow_succ' a, pow_succ' b]; noncomm_ring
    have hcn : c ^ n ≤ c ^ (n + 1) := pow_le_pow_right₀ hc (by omega)
    calc ‖a ^ (n + 1) - b ^ (n + 1)‖ ≤ ‖a‖ * ‖a ^ n - b ^ n‖ + ‖a - b‖ * ‖b ^ n‖ := by
          rw [e]; exact (norm_add_le _ _).trans (add_le_add (norm_mul_le _ _) (norm_mul_le _ _))
      _ ≤ c * (n * c ^ n * ‖a - b‖) + ‖a - b‖ * c ^ (n + 1) := by
          refine add_le_add (mul_le_mul ha ih (norm_nonneg _) (by positivity)) ?_
          exact mul_le_mul_of_nonneg_left ((hbp n).trans hcn) (norm_nonneg _)
      _ = _ := by push_cast; ring

/-- `(1 + X/n)^n` differs from `exp X` by no more than `|X|² e^|X| / n`. -/
theorem norm_product_formula (h1 : ‖(1 : R)‖ ≤ 1) (X : R) (n : ℕ) (hn : n ≠ 0) :
    ‖(1 + (n : ℂ)⁻¹ • X) ^ n - NormedSpace.exp X‖ ≤ ‖X‖ ^ 2 * (Real.exp ‖X‖) ^ 2 / n := by
  have hn0 : (n : ℝ) ≠ 0 := by exact_mod_cast hn
  have hnp : (0 : ℝ) < n := by positivity
  obtain ⟨Y, hY⟩ : ∃ Y, Y = (n : ℂ)⁻¹ • X := ⟨_, rfl⟩
  have hnY : ‖Y‖ = ‖X‖ / n := by rw [hY, norm_smul, norm_inv, Complex.norm_natCast]; ring
  have hX : NormedSpace.exp X = NormedSpace.exp Y ^ n := by
    letI : NormedAlgebra ℚ R := NormedAlgebra.restrictScalars ℚ ℂ R
    rw [← NormedSpace.exp_nsmul, hY, ← Nat.cast_smul_eq_nsmul ℂ, smul_smul, mul_inv_cancel₀ (by exact_mod_cast hn), one_smul]
  have ha : ‖1 + Y‖ ≤ Real.exp ‖Y‖ := (norm_add_le _ _).trans (by linarith [Real.add_one_le_exp ‖Y‖])
  have hp := norm_pow_sub_pow h1 (1 + Y) (NormedSpace.exp Y) (Real.exp ‖Y‖) ha (norm_exp_le_exp h1 Y) (Real.one_le_exp (norm_nonneg _)) n
  have hr : ‖1 + Y - NormedSpace.exp Y‖ ≤ ‖Y‖ ^ 2 * Real.exp ‖Y‖ := by
    have := norm_exp_rest Y
    rwa [← norm_neg, show -(1 + Y - NormedSpace.exp Y) = NormedSpace.exp Y - 1 - Y by abel]
  have he : Real.exp ‖Y‖ ^ n = Real.exp ‖X‖ := by
    rw [← Real.exp_nat_mul, hnY, mul_div_cancel₀ _ hn0]
  have hle : Real.exp ‖Y‖ ≤ Real.exp ‖X‖ := by
    rw [hnY]
    refine Real.exp_le_exp.2 (div_le_self (norm_nonneg _) ?_)
    exact_mod_cast Nat.one_le_iff_ne_zero.2 hn
  rw [← hY, hX]
  calc _ ≤ n * Real.exp ‖X‖ * ‖1 + Y - NormedSpace.exp Y‖ := by rw [← he]; exact hp
    _ ≤ n * Real.exp ‖X‖ * (‖Y‖ ^ 2 * Real.exp ‖X‖) := by gcongr; exact hr.trans (by gcongr)
    _ = _ := by rw [hnY]; field_simp

end Leonard
