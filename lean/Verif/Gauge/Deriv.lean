import Verif.Gauge.Actions
import Mathlib.Analysis.SpecialFunctions.Exponential
import Mathlib.Analysis.Matrix.Normed
import Mathlib.Analysis.Normed.Algebra.MatrixExponential
import Mathlib.Analysis.Calculus.Deriv.Mul
import Mathlib.Analysis.Calculus.Deriv.Comp
import Mathlib.Analysis.Calculus.Deriv.Add
import Mathlib.Topology.Algebra.Module.FiniteDimension
import Mathlib.LinearAlgebra.Matrix.FiniteDimensional

/-!
# Derivatives along molecular dynamics
-/

set_option autoImplicit false

namespace Leonard

open Matrix
open scoped Matrix.Norms.Operator

variable {S : Type} {N : ℕ}

/-- All links moved along the directions `P`: `U(t) = exp(t P) U`. -/
noncomputable def moveLinks (P U : GField S N) (t : ℝ) : GField S N :=
  fun s μ => NormedSpace.exp (t • P s μ) * U s μ

theorem moveLinks_zero (P U : GField S N) : moveLinks P U 0 = U := by
  funext s μ
  simp [moveLinks]

/-- Conjugate transposition as a continuous real-linear map. -/
noncomputable def ctL : Mat N →L[ℝ] Mat N :=
  LinearMap.toContinuousLinearMap
    { toFun := fun A => Aᴴ
      map_add' := fun A B => conjTranspose_add A B
      map_smul' := fun r A => by simp [conjTranspose_smul] }

theorem ctL_apply (A : Mat N) : ctL A = Aᴴ := rfl

/-- Real part of the trace as a continuous real-linear map. -/
noncomputable def trL : Mat N →L[ℝ] ℝ :=
  LinearMap.toContinuousLinearMap
    { toFun := fun A => (trace A).re
      map_add' := fun A B => by simp [Matrix.trace_add]
      map_smul' := fun r A => by simp [Matrix.trace_smul] }

theorem trL_apply (A : Mat N) : trL A = (trace A).re := rfl

theorem hasDerivAt_moveLinks (P U : GField S N) (s : S) (μ : Fin 4) :
    HasDerivAt (fun t : ℝ => moveLinks P U t s μ) (P s μ * U s μ) 0 := by
  have h := hasDerivAt_exp_smul_const (𝕂 := ℝ) (P s μ) 0
  have h2 := h.mul_const (U s μ)
  simp only [zero_smul, NormedSpace.exp_zero, one_mul] at h2
  exact h2

theorem hasDerivAt_holo (T : Torus S) (P U : GField S N) (p : List Hop) (s : S) :
    HasDerivAt (fun t : ℝ => holo T (moveLinks P U t) s p) (dholo T U (fun s μ => P s μ * U s μ) s p) 0 := by
  induction p generalizing s with
  | nil => exact hasDerivAt_const (0 : ℝ) (1 : Mat N)
  | cons h p ih =>
    have hh : HasDerivAt (fun t : ℝ => hopMat T (moveLinks P U t) s h) (hopMat T (fun s μ => P s μ * U s μ) s h) 0 := by
      obtain ⟨μ, b⟩ := h
      cases b
      · have := ctL.hasFDerivAt.comp_hasDerivAt (0 : ℝ) (hasDerivAt_moveLinks P U (T.sdn μ s) μ)
        exact this
      · exact hasDerivAt_moveLinks P U s μ
    have := hh.mul (ih (T.hop h s))
    simp only [moveLinks_zero] at this
    exact this

theorem hasDerivAt_sum_holo [Fintype S] (T : Torus S) (P U : GField S N) (p : List Hop) (hc : ∀ s, T.walk p s = s) :
    HasDerivAt (fun t : ℝ => ∑ s, (trace (holo T (moveLinks P U t) s p)).re)
      (∑ s, ∑ ρ, (trace (P s ρ * (U s ρ * pathStaple T U s ρ [] p))).re) 0 := by
  have h : HasDerivAt (fun t : ℝ => ∑ s, (trace (holo T (moveLinks P U t) s p)).re)
      (∑ s, (trace (dholo T U (fun s μ => P s μ * U s μ) s p)).re) 0 := by
    apply HasDerivAt.fun_sum
    intro s _
    have := trL.hasFDerivAt.comp_hasDerivAt (0 : ℝ) (hasDerivAt_holo T P U p s)
    exact this
  rw [sum_dholo T U _ p hc] at h
  simpa only [Matrix.mul_assoc] using h

theorem sum_swap4 {A B C D : Type} [Fintype A] [Fintype B] [Fintype C] [Fintype D] (f : A → B → C → D → ℝ) :
    (∑ a, ∑ b, ∑ c, ∑ d, f a b c d) = ∑ c, ∑ d, ∑ a, ∑ b, f a b c d := by
  have h1 : ∀ a b, (∑ c, ∑ d, f a b c d) = ∑ x : C × D, f a b x.1 x.2 := fun a b => (Fintype.sum_prod_type' _).symm
  have h2 : ∀ c d, (∑ a, ∑ b, f a b c d) = ∑ x : A × B, f x.1 x.2 c d := fun c d => (Fintype.sum_prod_type' (fun a b => f a b c d)).symm
  simp only [h1, h2]
  rw [← Fintype.sum_prod_type' (fun a b => ∑ x : C × D, f a b x.1 x.2),
    ← Fintype.sum_prod_type' (fun c d => ∑ x : A × B, f x.1 x.2 c d), Finset.sum_comm]

theorem hasDerivAt_wilsonEnergy [Fintype S] (β : ℝ) (T : Torus S) (P U : GField S N) :
    HasDerivAt (fun t : ℝ => wilsonEnergy β T (moveLinks P U t))
      (∑ s, ∑ ρ, -(β / N) * (trace (P s ρ * (U s ρ * wilsonStaple T U s ρ))).re) 0 := by
  simp only [wilsonEnergy_eq]
  have h : HasDerivAt (fun t : ℝ => ∑ μ : Fin 4, ∑ ν : Fin 4,
      if μ < ν then ∑ s, (trace (holo T (moveLinks P U t) s (pl μ ν))).re else 0)
      (∑ μ : Fin 4, ∑ ν : Fin 4, if μ < ν then ∑ s, ∑ ρ, (trace (P s ρ * (U s ρ * pathStaple T U s ρ [] (pl μ ν)))).re else 0) 0 := by
    refine HasDerivAt.fun_sum fun μ _ => HasDerivAt.fun_sum fun ν _ => ?_
    split
    · exact hasDerivAt_sum_holo T P U _ (walk_pl T μ ν)
    · exact hasDerivAt_const _ _
  have h2 := h.const_mul (-(β / N))
  refine HasDerivAt.congr_deriv h2 ?_
  symm
  simp only [← Finset.mul_sum]
  congr 1
  simp only [wilsonStaple_eq, Finset.mul_sum, re_trace_sum]
  have : ∀ (μ ν : Fin 4), (if μ < ν then ∑ s, ∑ ρ, (trace (P s ρ * (U s ρ * pathStaple T U s ρ [] (pl μ ν)))).re else 0)
      = ∑ s, ∑ ρ, (trace (P s ρ * (U s ρ * if μ < ν then pathStaple T U s ρ [] (pl μ ν) else 0))).re := by
    intro μ ν
    split
    · rfl
    · simp
  simp only [this]
  exact sum_swap4 fun s ρ μ ν => (trace (P s ρ * (U s ρ * if μ < ν then pathStaple T U s ρ [] (pl μ ν) else 0))).re

theorem hasDerivAt_improvedEnergy [Fintype S] (u0 β : ℝ) (T : Torus S) (P U : GField S N) :
    HasDerivAt (fun t : ℝ => improvedEnergy u0 β T (moveLinks P U t))
      (∑ s, ∑ ρ, -(β / N) * (trace (P s ρ * (U s ρ * improvedStaple u0 T U s ρ))).re) 0 := by
  simp only [improvedEnergy_eq]
  have h : HasDerivAt (fun t : ℝ => ∑ μ : Fin 4, ∑ ν : Fin 4,
      if μ < ν then 5 / 3 * ∑ s, (trace (holo T (moveLinks P U t) s (pl μ ν))).re
        - 1 / (12 * u0 * u0) * ∑ s, (trace (holo T (moveLinks P U t) s (re1 μ ν))).re
        - 1 / (12 * u0 * u0) * ∑ s, (trace (holo T (moveLinks P U t) s (re2 μ ν))).re else 0)
      (∑ μ : Fin 4, ∑ ν : Fin 4, if μ < ν then
        5 / 3 * ∑ s, ∑ ρ, (trace (P s ρ * (U s ρ * pathStaple T U s ρ [] (pl μ ν)))).re
        - 1 / (12 * u0 * u0) * ∑ s, ∑ ρ, (trace (P s ρ * (U s ρ * pathStaple T U s ρ [] (re1 μ ν)))).re
        - 1 / (12 * u0 * u0) * ∑ s, ∑ ρ, (trace (P s ρ * (U s ρ * pathStaple T U s ρ [] (re2 μ ν)))).re else 0) 0 := by
    refine HasDerivAt.fun_sum fun μ _ => HasDerivAt.fun_sum fun ν _ => ?_
    split
    · exact (((hasDerivAt_sum_holo T P U _ (walk_pl T μ ν)).const_mul _).sub
        ((hasDerivAt_sum_holo T P U _ (walk_re1 T μ ν)).const_mul _)).sub
        ((hasDerivAt_sum_holo T P U _ (walk_re2 T μ ν)).const_mul _)
    · exact hasDerivAt_const _ _
  have h2 := h.const_mul (-(β / N))
  refine HasDerivAt.congr_deriv h2 ?_
  symm
  simp only [← Finset.mul_sum]
  congr 1
  simp only [improvedStaple_eq, Finset.mul_sum, re_trace_sum]
  rw [sum_swap4]
  refine Finset.sum_congr rfl fun μ _ => Finset.sum_congr rfl fun ν _ => ?_
  split
  · simp only [Matrix.mul_sub, Matrix.mul_smul, Matrix.trace_sub, Complex.sub_re, re_trace_smul, Finset.sum_sub_distrib]
  · simp

/-! ### The force -/

/-- The force is the projection of `U·staple` on the Lie algebra. -/
theorem gaugeForce_eq (β : ℝ) (U : GField S N) (st : Mat N) (s : S) (μ : Fin 4) :
    gaugeForce β U st s μ = (-((0.25 * β / N : ℝ) : ℂ)) • ((U s μ * st)ᴴ - U s μ * st)
      - (trace ((-((0.25 * β / N : ℝ) : ℂ)) • ((U s μ * st)ᴴ - U s μ * st)) / N) • (1 : Mat N) := by
  simp only [gaugeForce]
  congr 2
  apply Complex.ext
  · simp
  · simp

theorem gaugeForce_anti (β : ℝ) (U : GField S N) (st : Mat N) (s : S) (μ : Fin 4) :
    (gaugeForce β U st s μ)ᴴ = -gaugeForce β U st s μ := by
  rw [gaugeForce_eq]
  simp only [conjTranspose_sub, conjTranspose_smul, conjTranspose_conjTranspose, conjTranspose_one]
  have hc : star (-((0.25 * β / N : ℝ) : ℂ)) = -((0.25 * β / N : ℝ) : ℂ) := by
    rw [star_neg]; congr 1; exact Complex.conj_ofReal _
  rw [hc]
  set c : ℂ := -((0.25 * β / N : ℝ) : ℂ) with hcd
  have ht : star (trace (c • ((U s μ * st)ᴴ - U s μ * st)) / (N : ℂ))
      = -(trace (c • ((U s μ * st)ᴴ - U s μ * st)) / N) := by
    rw [Matrix.trace_smul, Matrix.trace_sub, trace_conjTranspose]
    simp only [smul_eq_mul, star_div₀, star_mul', star_sub, star_star, star_natCast]
    rw [hc]
    ring
  rw [ht]
  module

theorem gaugeForce_traceless (hN : 0 < N) (β : ℝ) (U : GField S N) (st : Mat N) (s : S) (μ : Fin 4) :
    trace (gaugeForce β U st s μ) = 0 := by
  rw [gaugeForce_eq, Matrix.trace_sub, Matrix.trace_smul _ (1 : Mat N), Matrix.trace_one, Fintype.card_fin, smul_eq_mul]
  have : (N : ℂ) ≠ 0 := by exact_mod_cast hN.ne'
  rw [div_mul_cancel₀ _ this, sub_self]

theorem re_trace_mul_force (β : ℝ) (U : GField S N) (st X : Mat N) (s : S) (μ : Fin 4)
    (hX : Xᴴ = -X) (htr : trace X = 0) :
    -2 * (trace (X * gaugeForce β U st s μ)).re = -(β / N) * (trace (X * (U s μ * st))).re := by
  rw [gaugeForce_eq, Matrix.mul_sub, Matrix.mul_smul, Matrix.mul_smul, Matrix.mul_one, Matrix.trace_sub,
    Matrix.trace_smul, Matrix.trace_smul, htr, smul_zero, sub_zero, Matrix.mul_sub, Matrix.trace_sub]
  have h1 : (trace (X * (U s μ * st)ᴴ)).re = -(trace (X * (U s μ * st))).re := by
    rw [← re_trace_conjTranspose, conjTranspose_mul, conjTranspose_conjTranspose, hX, Matrix.mul_neg, Matrix.trace_neg,
      Complex.neg_re, Matrix.trace_mul_comm]
  have hc : (-((0.25 * β / N : ℝ) : ℂ)) = ((-(0.25 * β / N) : ℝ) : ℂ) := by push_cast; ring
  rw [hc, smul_eq_mul, Complex.re_ofReal_mul, Complex.sub_re, h1]
  ring

end Leonard
