import Verif.Meson.Bound
import Verif.Meson.Props

/-!
# C63: bounds of the Wilson operators and solvability of the linear systems
-/

set_option autoImplicit false

namespace Leonard

open Matrix

variable {S : Type} {N : ℕ}

/-- **C63**: for unitary links the operators differ from the identity by at most `|κ| (8 + 6 |csw|)` in norm. The optimised and the basic
Wilson operator are the case `csw = 0`. -/
theorem C63_bounds [Fintype S] (T : Torus S) {U : GField S N} (hU : ∀ x μ, U x μ ∈ unitaryGroup (Fin N) ℂ) (κ csw : ℝ) (v : SField S N) :
    ((1 - 8 * |κ|) * fieldNorm v ≤ fieldNorm (optMul T U κ false v) ∧ fieldNorm (optMul T U κ false v) ≤ (1 + 8 * |κ|) * fieldNorm v)
    ∧ ((1 - 8 * |κ|) * fieldNorm v ≤ fieldNorm (basicMul T U κ false v) ∧ fieldNorm (basicMul T U κ false v) ≤ (1 + 8 * |κ|) * fieldNorm v)
    ∧ ((1 - |κ| * (8 + 6 * |csw|)) * fieldNorm v ≤ fieldNorm (improvedMul T U κ csw false v)
      ∧ fieldNorm (improvedMul T U κ csw false v) ≤ (1 + |κ| * (8 + 6 * |csw|)) * fieldNorm v) := by
  have key : ∀ c : ℝ, (1 - |κ| * (8 + 6 * |c|)) * fieldNorm v ≤ fieldNorm (improvedSpec T U κ c v)
      ∧ fieldNorm (improvedSpec T U κ c v) ≤ (1 + |κ| * (8 + 6 * |c|)) * fieldNorm v := by
    intro c
    simp only [← norm_toE]
    have h := norm_improved_sub (T := T) hU κ c v
    have h1 := norm_sub_norm_le (toE (improvedSpec T U κ c v)) (toE v)
    have h2 := norm_sub_norm_le (toE v) (toE (improvedSpec T U κ c v))
    rw [norm_sub_rev] at h2
    constructor <;> linarith
  have k0 := key 0
  rw [abs_zero, mul_zero, add_zero, mul_comm |κ|] at k0
  rw [improvedSpec_zero] at k0
  simp only [(C33_wilson T U κ false v).1, (C33_wilson T U κ false v).2, C33_improved, withGamma5, Bool.false_eq_true, if_false]
  exact ⟨k0, k0, key csw⟩

/-- **C63**: γ₅ does not change the norm, so the bounds hold for the Hermitian operators as well. -/
theorem C63_gamma5 [Fintype S] (T : Torus S) (U : GField S N) (κ csw : ℝ) (v : SField S N) :
    fieldNorm (optMul T U κ true v) = fieldNorm (optMul T U κ false v) ∧ fieldNorm (basicMul T U κ true v) = fieldNorm (basicMul T U κ false v)
    ∧ fieldNorm (improvedMul T U κ csw true v) = fieldNorm (improvedMul T U κ csw false v) := by
  have h : ∀ w : SField S N, fieldNorm (gamma5Field w) = fieldNorm w := by
    intro w
    unfold fieldNorm
    simp only [gamma5Field_apply, norm_mul]
    have : ∀ mu, ‖spinSign mu‖ = 1 := by intro mu; unfold spinSign; split <;> simp
    simp only [this, one_mul]
  simp only [(C33_wilson T U κ _ v).1, (C33_wilson T U κ _ v).2, C33_improved, withGamma5, Bool.false_eq_true, if_false, if_true, h, and_self]

theorem improved_bijective [Fintype S] {T : Torus S} {U : GField S N} (hU : ∀ x μ, U x μ ∈ unitaryGroup (Fin N) ℂ) {κ csw : ℝ}
    (hκ : |κ| * (8 + 6 * |csw|) < 1) : Function.Bijective (improvedSpec T U κ csw) := by
  have hi : Function.Injective (improvedLin T U κ csw) := by
    rw [← LinearMap.ker_eq_bot, LinearMap.ker_eq_bot']
    intro v hv
    have h := norm_improved_sub (T := T) hU κ csw v
    rw [show improvedSpec T U κ csw v = 0 from hv, toE_zero, zero_sub, norm_neg] at h
    have h0 : ‖toE v‖ = 0 := by
      have := norm_nonneg (toE v)
      nlinarith
    have h1 : toE v = 0 := norm_eq_zero.1 h0
    funext x
    ext mu i
    exact congrFun (congrArg WithLp.ofLp h1) (x, mu, i)
  exact ⟨hi, LinearMap.injective_iff_surjective.1 hi⟩

/-- **C63**: the linear systems which the inverters are asked to solve have exactly one solution, for every unitary configuration and every right
hand side, if the hopping parameter is small. -/
theorem C63_solvable [Fintype S] (T : Torus S) {U : GField S N} (hU : ∀ x μ, U x μ ∈ unitaryGroup (Fin N) ℂ) (κ csw : ℝ) (g5 : Bool) (b : SField S N) :
    (|κ| * (8 + 6 * |csw|) < 1 → ∃! v, improvedMul T U κ csw g5 v = b)
    ∧ (|κ| < 1 / 8 → (∃! v, optMul T U κ g5 v = b) ∧ ∃! v, basicMul T U κ g5 v = b) := by
  have hg : Function.Bijective (withGamma5 (S := S) (N := N) g5) := by
    cases g5
    · exact Function.bijective_id
    · exact Function.Involutive.bijective gamma5Field_gamma5Field
  refine ⟨fun hκ => ?_, fun hκ => ?_⟩
  · have h := (hg.comp (improved_bijective (T := T) hU hκ)).existsUnique b
    simpa only [Function.comp, ← C33_improved] using h
  · have h := (hg.comp (improved_bijective (T := T) (κ := κ) (csw := 0) hU (by rw [abs_zero]; linarith))).existsUnique b
    simp only [Function.comp, improvedSpec_zero] at h
    exact ⟨by simpa only [← (C33_wilson T U κ g5 _).1] using h, by simpa only [← (C33_wilson T U κ g5 _).2] using h⟩

/-- **C63**: the real part of the expectation value of the operators without γ₅ is positive, so that all of their eigenvalues lie in the right half of the plane. -/
theorem C63_positive [Fintype S] (T : Torus S) {U : GField S N} (hU : ∀ x μ, U x μ ∈ unitaryGroup (Fin N) ℂ) (κ csw : ℝ) (v : SField S N) :
    (1 - |κ| * (8 + 6 * |csw|)) * fieldNorm v ^ 2 ≤ (latticeDot v (improvedMul T U κ csw false v)).re
    ∧ (1 - 8 * |κ|) * fieldNorm v ^ 2 ≤ (latticeDot v (optMul T U κ false v)).re
    ∧ (1 - 8 * |κ|) * fieldNorm v ^ 2 ≤ (latticeDot v (basicMul T U κ false v)).re := by
  have key : ∀ c : ℝ, (1 - |κ| * (8 + 6 * |c|)) * fieldNorm v ^ 2 ≤ (latticeDot v (improvedSpec T U κ c v)).re := by
    intro c
    rw [← inner_toE, ← norm_toE]
    have h := norm_improved_sub (T := T) hU κ c v
    have e : toE (improvedSpec T U κ c v) = toE v + (toE (improvedSpec T U κ c v) - toE v) := by abel
    rw [e, inner_add_right, Complex.add_re, inner_self_eq_norm_sq_to_K]
    have hc := (Complex.abs_re_le_norm _).trans (norm_inner_le_norm (𝕜 := ℂ) (toE v) (toE (improvedSpec T U κ c v) - toE v))
    have hc' := neg_le_of_abs_le hc
    have hm := mul_le_mul_of_nonneg_left h (norm_nonneg (toE v))
    have hr : (((‖toE v‖ : ℝ) : ℂ) ^ 2).re = ‖toE v‖ ^ 2 := by norm_cast
    have hr' : ((RCLike.ofReal ‖toE v‖ : ℂ) ^ 2).re = ‖toE v‖ ^ 2 := hr
    rw [hr']
    nlinarith
  have k0 := key 0
  rw [abs_zero, mul_zero, add_zero, mul_comm |κ|, improvedSpec_zero] at k0
  simp only [(C33_wilson T U κ false v).1, (C33_wilson T U κ false v).2, C33_improved, withGamma5, Bool.false_eq_true, if_false]
  exact ⟨key csw, k0, k0⟩

/-- **C63**: the bound on the hopping parameter cannot be improved. On the free configuration, on every lattice, the operators multiply constant fields by
`1 - 8 κ`; at `κ = 1/8` the system has no unique solution. -/
theorem C63_sharp (T : Torus S) (κ csw : ℝ) (w : Matrix (Fin 4) (Fin N) ℂ) :
    (optMul T (fun _ _ => 1) κ false (fun _ => w) = fun _ => ((1 - 8 * κ : ℝ) : ℂ) • w)
    ∧ (basicMul T (fun _ _ => 1) κ false (fun _ => w) = fun _ => ((1 - 8 * κ : ℝ) : ℂ) • w)
    ∧ (improvedMul T (fun _ _ => 1) κ csw false (fun _ => w) = fun _ => ((1 - 8 * κ : ℝ) : ℂ) • w) := by
  have hw : wilsonSpec T (fun _ _ => (1 : Mat N)) κ (fun _ => w) = fun _ => ((1 - 8 * κ : ℝ) : ℂ) • w := by
    funext x
    have hh : hoppingSpec T (fun _ _ => (1 : Mat N)) (fun _ => w) x = (8 : ℂ) • w := by
      simp only [hoppingSpec, conjTranspose_one, transpose_one, Matrix.mul_one, ← Matrix.add_mul]
      have : ∀ μ : Fin 4, (1 - tabGamma μ + (1 + tabGamma μ)) * w = (2 : ℂ) • w := fun μ => by
        rw [show (1 - tabGamma μ) + (1 + tabGamma μ) = (2 : ℂ) • (1 : SpinMat) by rw [two_smul]; abel, Matrix.smul_mul, Matrix.one_mul]
      simp only [this, Finset.sum_const, Finset.card_univ, Fintype.card_fin]
      rw [← Nat.cast_smul_eq_nsmul ℂ, smul_smul]
      norm_num
    rw [wilsonSpec, hh, smul_smul]
    push_cast
    rw [sub_smul, one_smul, mul_comm]
  have hi : improvedSpec T (fun _ _ => (1 : Mat N)) κ csw (fun _ => w) = fun _ => ((1 - 8 * κ : ℝ) : ℂ) • w := by
    funext x
    have hF : ∀ μ ν, cloverF T (fun _ _ => (1 : Mat N)) μ ν x = 0 := by
      intro μ ν
      simp only [cloverF, cloverQ, holo_one]
      simp
    rw [improvedSpec, hw]
    simp [hF]
  simp only [(C33_wilson T _ κ false _).1, (C33_wilson T _ κ false _).2, C33_improved, withGamma5, Bool.false_eq_true, if_false]
  exact ⟨hw, hw, hi⟩

end Leonard
