import Mathlib.Analysis.Complex.Norm
import Verif.Dirac.CloverLemmas
import Verif.Measure.Model
import Verif.Measure.BoxSymmetry

/-!
# Lemmas on the energy and the topological charge of a configuration
-/

set_option autoImplicit false

namespace Leonard

open Matrix

variable {S : Type} {N : ℕ}

theorem re_trace_antihermitian {A : Mat N} (h : Aᴴ = -A) : (trace (A * A)).re = -∑ i, ∑ j, ‖A i j‖ ^ 2 := by
  have hA : A * A = -(A * Aᴴ) := by rw [h, Matrix.mul_neg, neg_neg]
  rw [hA, trace_neg, Complex.neg_re]
  simp only [Matrix.trace, Matrix.diag, Matrix.mul_apply, conjTranspose_apply, Complex.re_sum]
  congr 1
  refine Finset.sum_congr rfl fun i _ => Finset.sum_congr rfl fun j _ => ?_
  rw [Complex.star_def, Complex.mul_conj, Complex.ofReal_re, Complex.normSq_eq_norm_sq]

theorem abs_re_trace_mul_le {A B : Mat N} (h : Bᴴ = -B) :
    |(trace (A * B)).re| ≤ (∑ i, ∑ j, ‖A i j‖ ^ 2 + ∑ i, ∑ j, ‖B i j‖ ^ 2) / 2 := by
  have hB : A * B = -(A * Bᴴ) := by rw [h, Matrix.mul_neg, neg_neg]
  rw [hB, trace_neg, Complex.neg_re, abs_neg]
  simp only [Matrix.trace, Matrix.diag, Matrix.mul_apply, conjTranspose_apply, Complex.re_sum]
  rw [← Finset.sum_add_distrib, Finset.sum_div]
  refine (Finset.abs_sum_le_sum_abs _ _).trans (Finset.sum_le_sum fun i _ => ?_)
  rw [← Finset.sum_add_distrib, Finset.sum_div]
  refine (Finset.abs_sum_le_sum_abs _ _).trans (Finset.sum_le_sum fun j _ => ?_)
  refine (Complex.abs_re_le_norm _).trans ?_
  rw [norm_mul, norm_star]
  nlinarith [sq_nonneg (‖A i j‖ - ‖B i j‖)]

section
variable (T : Torus S) (U : GField S N)

/-- Sum of the squares of all the entries of the field strength in the six planes. -/
theorem siteEnergy_eq (x : S) :
    (siteMeasure T U x).1 = -∑ μ, ∑ ν, if μ < ν then ∑ i, ∑ j, ‖cloverF T U μ ν x i j‖ ^ 2 else 0 := by
  have hs : (siteMeasure T U x).1 = ∑ k, (trace (fieldStrength T U x k * fieldStrength T U x k)).re := rfl
  rw [hs]
  have e : ∀ k, (trace (fieldStrength T U x k * fieldStrength T U x k)).re
      = -∑ i, ∑ j, ‖cloverF T U (planeOf k).1 (planeOf k).2 x i j‖ ^ 2 := by
    intro k
    rw [fieldStrength_eq, re_trace_antihermitian (cloverF_antihermitian T U _ _ x)]
  simp only [e]
  rw [Finset.sum_neg_distrib]
  congr 1
  simp only [Fin.sum_univ_six, Fin.sum_univ_four, planeOf, cons_val]
  simp [Fin.lt_def]
  ring

theorem siteCharge_eq (x : S) :
    (siteMeasure T U x).2 = ((trace (cloverF T U 0 3 x * cloverF T U 1 2 x)).re - (trace (cloverF T U 0 2 x * cloverF T U 1 3 x)).re
      + (trace (cloverF T U 0 1 x * cloverF T U 2 3 x)).re) / (4 * Real.pi ^ 2) := by
  have hs : (siteMeasure T U x).2 = (trace (fieldStrength T U x 2 * fieldStrength T U x 3)
    - trace (fieldStrength T U x 1 * fieldStrength T U x 4) + trace (fieldStrength T U x 0 * fieldStrength T U x 5)).re
      / (4 * Real.pi * Real.pi) := rfl
  rw [hs]
  simp only [fieldStrength_eq, planeOf, cons_val, Complex.add_re, Complex.sub_re]
  rw [show 4 * Real.pi ^ 2 = 4 * Real.pi * Real.pi by ring]

/-- The density `ε_{μνρσ} tr(F_{μν} F_{ρσ}) / 32π²`, the sum running over the permutations of the four axes. -/
theorem siteCharge_perm (x : S) :
    (siteMeasure T U x).2 = (∑ π : Equiv.Perm (Fin 4), ((Equiv.Perm.sign π : ℤ) : ℝ) *
      (trace (cloverF T U (π 0) (π 1) x * cloverF T U (π 2) (π 3) x)).re) / (32 * Real.pi ^ 2) := by
  rw [siteCharge_eq, sum_perm_four fun a b c d => (trace (cloverF T U a b x * cloverF T U c d x)).re]
  have c : ∀ A B : Mat N, (trace (A * B)).re = (trace (B * A)).re := fun A B => by rw [trace_mul_comm]
  have s := cloverF_swap T U
  rw [s 0 1, s 0 2, s 0 3, s 1 2, s 1 3, s 2 3]
  simp only [Matrix.mul_neg, Matrix.neg_mul, trace_neg, Complex.neg_re, neg_neg]
  rw [c (cloverF T U 2 3 x) (cloverF T U 0 1 x), c (cloverF T U 1 3 x) (cloverF T U 0 2 x),
    c (cloverF T U 1 2 x) (cloverF T U 0 3 x)]
  have hp : Real.pi ≠ 0 := Real.pi_ne_zero
  field_simp
  ring

theorem siteMeasure_gauge (ω : S → Mat N) (hω : ∀ s, (ω s)ᴴ * ω s = 1) (hω' : ∀ s, ω s * (ω s)ᴴ = 1) (x : S) :
    siteMeasure T (gaugeTransform T ω U) x = siteMeasure T U x := by
  have h : ∀ A B : Mat N, trace (ω x * A * (ω x)ᴴ * (ω x * B * (ω x)ᴴ)) = trace (A * B) := by
    intro A B
    have e : ω x * A * (ω x)ᴴ * (ω x * B * (ω x)ᴴ) = ω x * (A * ((ω x)ᴴ * ω x) * B * (ω x)ᴴ) := by
      simp only [Matrix.mul_assoc]
    rw [e, hω, Matrix.mul_one, trace_mul_comm, Matrix.mul_assoc, hω, Matrix.mul_one]
  unfold siteMeasure
  simp only [fieldStrength_eq, cloverF_gauge T U ω hω hω', h]

/-! ### Symmetries -/

variable {T}

theorem re_trace_pull (R : LatticeSymmetry T) (a b c d : Fin 4) (x : S) :
    (trace (cloverF T (R.pull U) a b x * cloverF T (R.pull U) c d x)).re
      = R.sgn a * R.sgn b * R.sgn c * R.sgn d *
        (trace (cloverF T U (R.axis a) (R.axis b) (R.map x) * cloverF T U (R.axis c) (R.axis d) (R.map x))).re := by
  rw [R.cloverF_pull, R.cloverF_pull, Matrix.smul_mul, Matrix.mul_smul, trace_smul, trace_smul, smul_smul, ← Complex.ofReal_mul,
    smul_eq_mul, Complex.re_ofReal_mul]
  ring

theorem sum_planes (f : Fin 4 → Fin 4 → ℝ) (s : ∀ μ ν, f ν μ = f μ ν) (z : ∀ μ, f μ μ = 0) :
    (-∑ μ, ∑ ν, if μ < ν then f μ ν else 0) = (∑ μ, ∑ ν, -f μ ν) / 2 := by
  simp only [Fin.sum_univ_four, s 0 1, s 0 2, s 0 3, s 1 2, s 1 3, s 2 3, z]
  simp [Fin.lt_def]
  ring

theorem siteEnergy_perm (x : S) :
    (siteMeasure T U x).1 = (∑ μ, ∑ ν, (trace (cloverF T U μ ν x * cloverF T U μ ν x)).re) / 2 := by
  rw [siteEnergy_eq]
  have e : ∀ μ ν, (trace (cloverF T U μ ν x * cloverF T U μ ν x)).re = -∑ i, ∑ j, ‖cloverF T U μ ν x i j‖ ^ 2 :=
    fun μ ν => re_trace_antihermitian (cloverF_antihermitian T U μ ν x)
  have z : ∀ μ, cloverF T U μ μ x = 0 := by
    intro μ
    have h := cloverF_swap T U μ μ x
    have h2 : (2 : ℂ) • cloverF T U μ μ x = 0 := by rw [two_smul]; nth_rewrite 1 [h]; simp
    exact (smul_eq_zero.1 h2).resolve_left two_ne_zero
  have s : ∀ μ ν, ∑ i, ∑ j, ‖cloverF T U ν μ x i j‖ ^ 2 = ∑ i, ∑ j, ‖cloverF T U μ ν x i j‖ ^ 2 := by
    intro μ ν
    rw [cloverF_swap T U μ ν]
    simp
  have z' : ∀ μ, ∑ i, ∑ j, ‖cloverF T U μ μ x i j‖ ^ 2 = 0 := fun μ => by simp [z μ]
  rw [Finset.sum_congr rfl fun μ _ => Finset.sum_congr rfl fun ν _ => e μ ν]
  generalize hf : (fun μ ν => ∑ i, ∑ j, ‖cloverF T U μ ν x i j‖ ^ 2) = f
  have hf' : ∀ μ ν, ∑ i, ∑ j, ‖cloverF T U μ ν x i j‖ ^ 2 = f μ ν := fun μ ν => congrFun (congrFun hf μ) ν
  simp only [hf'] at s z' ⊢
  exact sum_planes f s z'

theorem sgn_sq (R : LatticeSymmetry T) (μ : Fin 4) : R.sgn μ * R.sgn μ = 1 := by
  unfold LatticeSymmetry.sgn; split <;> norm_num

theorem siteEnergy_pull (R : LatticeSymmetry T) (x : S) : (siteMeasure T (R.pull U) x).1 = (siteMeasure T U (R.map x)).1 := by
  rw [siteEnergy_perm, siteEnergy_perm]
  refine congrArg (fun r : ℝ => r / 2) ?_
  have h : ∀ μ ν, (trace (cloverF T (R.pull U) μ ν x * cloverF T (R.pull U) μ ν x)).re
      = (trace (cloverF T U (R.axis μ) (R.axis ν) (R.map x) * cloverF T U (R.axis μ) (R.axis ν) (R.map x))).re := by
    intro μ ν
    rw [re_trace_pull, show R.sgn μ * R.sgn ν * R.sgn μ * R.sgn ν = (R.sgn μ * R.sgn μ) * (R.sgn ν * R.sgn ν) by ring, sgn_sq, sgn_sq,
      one_mul, one_mul]
  simp only [h]
  rw [Equiv.sum_comp R.axis fun μ => ∑ ν, (trace (cloverF T U μ (R.axis ν) (R.map x) * cloverF T U μ (R.axis ν) (R.map x))).re]
  refine Finset.sum_congr rfl fun μ _ => ?_
  exact Equiv.sum_comp R.axis fun ν => (trace (cloverF T U μ ν (R.map x) * cloverF T U μ ν (R.map x))).re

theorem siteCharge_pull (R : LatticeSymmetry T) (x : S) :
    (siteMeasure T (R.pull U) x).2 = R.det * (siteMeasure T U (R.map x)).2 := by
  rw [siteCharge_perm, siteCharge_perm, mul_div_assoc', Finset.mul_sum]
  congr 1
  rw [← Equiv.sum_comp (Equiv.mulLeft R.axis) fun π : Equiv.Perm (Fin 4) => R.det * (((Equiv.Perm.sign π : ℤ) : ℝ) *
    (trace (cloverF T U (π 0) (π 1) (R.map x) * cloverF T U (π 2) (π 3) (R.map x))).re)]
  refine Finset.sum_congr rfl fun π _ => ?_
  rw [re_trace_pull]
  have hp : R.sgn (π 0) * R.sgn (π 1) * R.sgn (π 2) * R.sgn (π 3) = ∏ μ, R.sgn μ := by
    rw [← Equiv.prod_comp π, Fin.prod_univ_four]
  rw [hp]
  simp only [Equiv.coe_mulLeft, Equiv.Perm.coe_mul, Function.comp, Equiv.Perm.sign_mul, LatticeSymmetry.det, Units.val_mul, Int.cast_mul]
  have hs : ((Equiv.Perm.sign R.axis : ℤ) : ℝ) * ((Equiv.Perm.sign R.axis : ℤ) : ℝ) = 1 := by
    have := Int.units_mul_self (Equiv.Perm.sign R.axis)
    have h2 : ((Equiv.Perm.sign R.axis * Equiv.Perm.sign R.axis : ℤˣ) : ℤ) = 1 := by rw [this]; rfl
    rw [Units.val_mul] at h2
    exact_mod_cast h2
  linear_combination (-(∏ μ, R.sgn μ) * ((Equiv.Perm.sign π : ℤ) : ℝ) *
    (trace (cloverF T U (R.axis (π 0)) (R.axis (π 1)) (R.map x) * cloverF T U (R.axis (π 2)) (R.axis (π 3)) (R.map x))).re) * hs

end

/-! ### Sums over time slices -/

theorem sum_slices [Fintype S] (T : Torus S) (f : S → ℝ) :
    ∑ t ∈ Finset.range (T.ext 3), (∑ x, if T.coord x 3 = t then f x else 0) = ∑ x, f x := by
  rw [Finset.sum_comm]
  refine Finset.sum_congr rfl fun x _ => ?_
  rw [Finset.sum_ite_eq, if_pos (Finset.mem_range.2 (T.coord_lt 3 x))]

end Leonard
