import Verif.Hmc.Model
import Verif.Gauge.ExpMapProps

/-!
# C41, the link update without linear algebra library
-/

set_option autoImplicit false

namespace Leonard

open Matrix ComplexConjugate

/-- **C41**, without library: away from zero the update of a link multiplies with the exponential of the momentum. -/
theorem C41_toolkit_exponential (ε : ℝ) (P U : Mat 2) (hP : IsLie ((ε : ℂ) • P))
    (h : 0.0000001 ≤ Real.sqrt (((ε : ℂ) * P 0 0).im ^ 2 + ((ε : ℂ) * P 0 1).im ^ 2 + ((ε : ℂ) * P 0 1).re ^ 2)) :
    toolkitLink ε P U = NormedSpace.exp ((ε : ℂ) • P) * U := by
  unfold toolkitLink
  congr 1
  generalize hA : (ε : ℂ) • P = A at hP
  have hA0 : ∀ i j, (ε : ℂ) * P i j = A i j := fun i j => by rw [← hA]; rfl
  rw [hA0, hA0] at h
  have h0 : A ≠ 0 := by
    rintro rfl
    norm_num at h
  have he := C26_two_colours_partial A hP h0
  have hr : Real.sqrt ((A 0 0).im * (A 0 0).im + (A 0 1).im * (A 0 1).im + (A 0 1).re * (A 0 1).re)
      = Real.sqrt ((A 0 0).im * (A 0 0).im + (A 0 1).re * (A 0 1).re + (A 0 1).im * (A 0 1).im) := by congr 1; ring
  have h' : (0.0000001 : ℝ) ≤ Real.sqrt ((A 0 0).im * (A 0 0).im + (A 0 1).re * (A 0 1).re + (A 0 1).im * (A 0 1).im) := by
    rw [← hr]; convert h using 2; ring
  unfold expSu2 at he
  unfold matrixExp2
  simp only [hr] at he ⊢
  generalize Real.sqrt ((A 0 0).im * (A 0 0).im + (A 0 1).re * (A 0 1).re + (A 0 1).im * (A 0 1).im) = r at he h' ⊢
  have hr0 : r ≠ 0 := by intro h0; rw [h0] at h'; norm_num at h'
  have hrc : (r : ℂ) ≠ 0 := Complex.ofReal_ne_zero.2 hr0
  rw [if_neg hr0] at he
  rw [if_neg (not_lt.2 h'), ← Option.some.inj he]
  have key : ∀ z w : ℂ, 2 * (r : ℂ) * z = w → z = w / (2 * r) := fun z w hz => by rw [← hz]; field_simp
  have e00 : (⟨Real.cos r, (A 0 0).im * Real.sin r / r⟩ : ℂ)
      = (-(((A 0 0).im : ℂ) - r) * conj (⟨Real.cos r, Real.sin r⟩ : ℂ) + ((A 0 0).im + r) * ⟨Real.cos r, Real.sin r⟩) / (2 * r) := by
    apply key
    apply Complex.ext <;> simp <;> field_simp <;> ring
  have e01 : (⟨(A 0 1).re * Real.sin r / r, (A 0 1).im * Real.sin r / r⟩ : ℂ)
      = (⟨-(A 0 1).im, (A 0 1).re⟩ * conj (⟨Real.cos r, Real.sin r⟩ : ℂ) + ⟨(A 0 1).im, -(A 0 1).re⟩ * ⟨Real.cos r, Real.sin r⟩) / (2 * r) := by
    apply key
    apply Complex.ext <;> simp <;> field_simp <;> ring
  rw [← e00, ← e01]
  ext i j
  fin_cases i <;> fin_cases j <;> apply Complex.ext <;> simp <;> ring

/-- A momentum away from zero. -/
example : IsLie (((1 : ℝ) : ℂ) • (!![Complex.I, 0; 0, -Complex.I] : Mat 2))
    ∧ 0.0000001 ≤ Real.sqrt ((((1 : ℝ) : ℂ) * (!![Complex.I, 0; 0, -Complex.I] : Mat 2) 0 0).im ^ 2
      + (((1 : ℝ) : ℂ) * (!![Complex.I, 0; 0, -Complex.I] : Mat 2) 0 1).im ^ 2
      + (((1 : ℝ) : ℂ) * (!![Complex.I, 0; 0, -Complex.I] : Mat 2) 0 1).re ^ 2) := by
  refine ⟨⟨?_, ?_⟩, ?_⟩
  · ext i j; fin_cases i <;> fin_cases j <;> simp
  · simp [Matrix.trace_fin_two]
  · simp; norm_num

end Leonard
