import Mathlib.Analysis.SpecialFunctions.PolarCoord
import Mathlib.MeasureTheory.Function.JacobianOneDim
import Mathlib.Analysis.SpecialFunctions.Gaussian.GaussianIntegral
import Mathlib.Analysis.SpecialFunctions.Trigonometric.Inverse

/-!
Changes of variables in integrals: logarithms of uniform numbers, polar and spherical coordinates written with uniform numbers.
-/

set_option autoImplicit false

namespace Leonard

open MeasureTheory Set Real
open scoped ENNReal

/-- Minus the logarithm of a uniform number has the exponential distribution. -/
theorem lintegral_log (g : ℝ → ℝ≥0∞) :
    ∫⁻ ξ in Ico (0 : ℝ) 1, g (-log ξ) = ∫⁻ t in Ioi (0 : ℝ), ENNReal.ofReal (exp (-t)) * g t := by
  have him : (fun t : ℝ => exp (-t)) '' Ioi 0 = Ioo 0 1 := by
    ext x
    constructor
    · rintro ⟨t, ht, rfl⟩
      have ht' : 0 < t := ht
      exact ⟨exp_pos _, exp_lt_one_iff.2 (by linarith)⟩
    · rintro ⟨h0, h1⟩
      refine ⟨-log x, ?_, by simp [exp_log h0]⟩
      have := log_neg h0 h1
      change 0 < -log x
      linarith
  have hd : ∀ t ∈ Ioi (0 : ℝ), HasDerivWithinAt (fun t : ℝ => exp (-t)) (-exp (-t)) (Ioi 0) t := fun t _ => by
    have h1 : HasDerivAt (fun t : ℝ => exp (-t)) (exp (-t) * -1) t := ((hasDerivAt_id t).neg).exp
    rw [mul_neg, mul_one] at h1
    exact h1.hasDerivWithinAt
  have hinj : InjOn (fun t : ℝ => exp (-t)) (Ioi 0) := fun a _ b _ h => by simpa using h
  have h := lintegral_image_eq_lintegral_abs_deriv_mul measurableSet_Ioi hd hinj fun x => g (-log x)
  rw [him] at h
  rw [← setLIntegral_congr (Ioo_ae_eq_Ico (a := (0 : ℝ)) (b := 1)), h]
  refine lintegral_congr fun t => ?_
  rw [abs_neg, abs_of_pos (exp_pos _), log_exp, neg_neg]

/-- An affine change of variables to a uniform number. -/
theorem lintegral_uniform (a c : ℝ) (hc : 0 < c) (g : ℝ → ℝ≥0∞) :
    ∫⁻ x in Ioo a (a + c), g x = ENNReal.ofReal c * ∫⁻ ξ in Ico (0 : ℝ) 1, g (a + c * ξ) := by
  have him : (fun ξ : ℝ => a + c * ξ) '' Ioo 0 1 = Ioo a (a + c) := by
    ext x
    constructor
    · rintro ⟨t, ht, rfl⟩
      have h0 := ht.1
      have h1 := ht.2
      constructor
      · change a < a + c * t
        have := mul_pos hc h0
        linarith
      · change a + c * t < a + c
        nlinarith
    · rintro ⟨h0, h1⟩
      refine ⟨(x - a) / c, ⟨div_pos (by linarith) hc, by rw [div_lt_one hc]; linarith⟩, ?_⟩
      field_simp
      ring
  have hd : ∀ t ∈ Ioo (0 : ℝ) 1, HasDerivWithinAt (fun ξ : ℝ => a + c * ξ) c (Ioo 0 1) t := fun t _ => by
    have := ((hasDerivAt_id t).const_mul c).const_add a
    simpa using this.hasDerivWithinAt
  have hinj : InjOn (fun ξ : ℝ => a + c * ξ) (Ioo 0 1) := fun x _ y _ h => by
    have h' : a + c * x = a + c * y := h
    exact mul_left_cancel₀ hc.ne' (by linarith)
  have h := lintegral_image_eq_lintegral_abs_deriv_mul measurableSet_Ioo hd hinj g
  rw [him] at h
  rw [h, abs_of_pos hc, setLIntegral_congr (Ioo_ae_eq_Ico (a := (0 : ℝ)) (b := 1)), lintegral_const_mul' _ _ ENNReal.ofReal_ne_top]

/-- Polar coordinates with a uniform number for the angle. -/
theorem lintegral_polar_unit (F : ℝ × ℝ → ℝ≥0∞) (hF : Measurable F) :
    ∫⁻ p, F p = ∫⁻ ρ in Ioi (0 : ℝ), ENNReal.ofReal ρ * (ENNReal.ofReal (2 * π) *
      ∫⁻ ξ in Ico (0 : ℝ) 1, F (ρ * cos (2 * π * ξ), ρ * sin (2 * π * ξ))) := by
  have h0 : ∫⁻ p, F p = ∫⁻ p : ℝ × ℝ, F (-p) := ((Measure.measurePreserving_neg (volume : Measure (ℝ × ℝ))).lintegral_comp hF).symm
  have hm : Measurable fun p : ℝ × ℝ => ENNReal.ofReal p.1 • F (-(p.1 * cos p.2, p.1 * sin p.2)) := by
    simp only [smul_eq_mul]
    exact measurable_fst.ennreal_ofReal.mul (hF.comp (by fun_prop))
  rw [h0, ← lintegral_comp_polarCoord_symm, polarCoord_target]
  simp only [polarCoord_symm_apply]
  rw [Measure.volume_eq_prod, ← Measure.prod_restrict, lintegral_prod _ hm.aemeasurable]
  refine lintegral_congr fun ρ => ?_
  simp only [smul_eq_mul]
  rw [lintegral_const_mul' _ _ ENNReal.ofReal_ne_top]
  refine congrArg (fun z => ENNReal.ofReal ρ * z) ?_
  have h := lintegral_uniform (-π) (2 * π) (by positivity) fun φ => F (-(ρ * cos φ, ρ * sin φ))
  rw [show -π + 2 * π = π by ring] at h
  rw [h]
  refine congrArg (fun z => ENNReal.ofReal (2 * π) * z) (lintegral_congr fun ξ => ?_)
  have hc : cos (-π + 2 * π * ξ) = -cos (2 * π * ξ) := by rw [add_comm, ← sub_eq_add_neg, cos_sub_pi]
  have hs : sin (-π + 2 * π * ξ) = -sin (2 * π * ξ) := by rw [add_comm, ← sub_eq_add_neg, sin_sub_pi]
  rw [hc, hs]
  simp

/-- The cosine of an angle as variable. -/
theorem lintegral_cos (g : ℝ → ℝ≥0∞) : ∫⁻ s in Ioo (-1 : ℝ) 1, g s = ∫⁻ θ in Ioo 0 π, ENNReal.ofReal (sin θ) * g (cos θ) := by
  have him : cos '' Ioo 0 π = Ioo (-1) 1 := by
    ext x
    constructor
    · rintro ⟨t, ht, rfl⟩
      have h1 := strictAntiOn_cos ⟨le_rfl, pi_pos.le⟩ ⟨ht.1.le, ht.2.le⟩ ht.1
      have h2 := strictAntiOn_cos ⟨ht.1.le, ht.2.le⟩ ⟨pi_pos.le, le_rfl⟩ ht.2
      rw [cos_zero] at h1
      rw [cos_pi] at h2
      exact ⟨h2, h1⟩
    · rintro ⟨h0, h1⟩
      refine ⟨arccos x, ⟨arccos_pos.2 h1, ?_⟩, cos_arccos h0.le h1.le⟩
      refine lt_of_le_of_ne (arccos_le_pi x) fun h => ?_
      rw [arccos_eq_pi] at h
      linarith
  have hd : ∀ t ∈ Ioo (0 : ℝ) π, HasDerivWithinAt cos (-sin t) (Ioo 0 π) t := fun t _ => (hasDerivAt_cos t).hasDerivWithinAt
  have h := lintegral_image_eq_lintegral_abs_deriv_mul measurableSet_Ioo hd (injOn_cos.mono Ioo_subset_Icc_self) g
  rw [him] at h
  rw [h]
  refine setLIntegral_congr_fun measurableSet_Ioo fun t ht => ?_
  rw [abs_neg, abs_of_pos (sin_pos_of_mem_Ioo ht)]

/-- Polar coordinates of a half plane, with the cosine of the angle as variable. -/
theorem lintegral_half_plane (k : ℝ → ℝ → ℝ≥0∞) (hk : Measurable fun p : ℝ × ℝ => k p.1 p.2) :
    ∫⁻ x, ∫⁻ y in Ioi (0 : ℝ), ENNReal.ofReal y * k x y
      = ∫⁻ R in Ioi (0 : ℝ), ENNReal.ofReal (R ^ 2) * ∫⁻ s in Ioo (-1 : ℝ) 1, k (R * s) (R * √(1 - s ^ 2)) := by
  let F : ℝ × ℝ → ℝ≥0∞ := fun p => (Ioi (0 : ℝ)).indicator (fun y => ENNReal.ofReal y * k p.1 y) p.2
  have hF : Measurable F := by
    have : F = ({p : ℝ × ℝ | 0 < p.2}).indicator fun p => ENNReal.ofReal p.2 * k p.1 p.2 := by
      funext p
      simp [F, indicator]
    rw [this]
    exact (measurable_snd.ennreal_ofReal.mul hk).indicator (measurableSet_lt measurable_const measurable_snd)
  have h1 : ∫⁻ x, ∫⁻ y in Ioi (0 : ℝ), ENNReal.ofReal y * k x y = ∫⁻ p, F p := by
    rw [Measure.volume_eq_prod, lintegral_prod _ hF.aemeasurable]
    refine lintegral_congr fun x => ?_
    simp only [F]
    rw [lintegral_indicator measurableSet_Ioi]
  have hm : Measurable fun p : ℝ × ℝ => ENNReal.ofReal p.1 • F (p.1 * cos p.2, p.1 * sin p.2) := by
    simp only [smul_eq_mul]
    exact measurable_fst.ennreal_ofReal.mul (hF.comp (by fun_prop))
  rw [h1, ← lintegral_comp_polarCoord_symm, polarCoord_target]
  simp only [polarCoord_symm_apply]
  rw [Measure.volume_eq_prod, ← Measure.prod_restrict, lintegral_prod _ hm.aemeasurable]
  refine setLIntegral_congr_fun measurableSet_Ioi fun R hR => ?_
  have hR : 0 < R := hR
  simp only [smul_eq_mul]
  rw [lintegral_const_mul' _ _ ENNReal.ofReal_ne_top, lintegral_cos]
  have h2 : ∫⁻ φ in Ioo (-π) π, F (R * cos φ, R * sin φ) = ∫⁻ φ in Ioo 0 π, ENNReal.ofReal (R * sin φ) * k (R * cos φ) (R * sin φ) := by
    have e : EqOn (fun φ => F (R * cos φ, R * sin φ)) ((Ioo 0 π).indicator fun φ => ENNReal.ofReal (R * sin φ) * k (R * cos φ) (R * sin φ)) (Ioo (-π) π) := by
      intro φ hφ
      simp only [F, indicator]
      by_cases h : φ ∈ Ioo 0 π
      · rw [if_pos h, if_pos (show R * sin φ ∈ Ioi (0 : ℝ) from mul_pos hR (sin_pos_of_mem_Ioo h))]
      · rw [if_neg h, if_neg]
        have : φ ≤ 0 := by
          by_contra hc
          exact h ⟨not_le.1 hc, hφ.2⟩
        have hs := sin_nonpos_of_nonpos_of_neg_pi_le this hφ.1.le
        change ¬ 0 < R * sin φ
        nlinarith
    rw [setLIntegral_congr_fun measurableSet_Ioo e, setLIntegral_indicator measurableSet_Ioo]
    congr 2
    refine inter_eq_left.2 fun φ hφ => ⟨?_, hφ.2⟩
    have := pi_pos
    linarith [hφ.1]
  rw [h2, pow_two, ENNReal.ofReal_mul hR.le, mul_assoc]
  refine congrArg (fun z => ENNReal.ofReal R * z) ?_
  rw [← lintegral_const_mul' _ _ ENNReal.ofReal_ne_top]
  refine setLIntegral_congr_fun measurableSet_Ioo fun φ hφ => ?_
  have hs := sin_pos_of_mem_Ioo hφ
  have hq : √(1 - cos φ ^ 2) = sin φ := by
    rw [← sin_sq, sqrt_sq hs.le]
  rw [hq, ENNReal.ofReal_mul hR.le, mul_assoc]

/-- Spherical coordinates in four dimensions; `s` is the component along the first axis, `z` that along the last one of the rest. -/
theorem lintegral_spherical (h : ℝ → ℝ → ℝ × ℝ → ℝ≥0∞) (hh : Measurable fun x : ℝ × ℝ × ℝ × ℝ => h x.1 x.2.1 x.2.2) :
    ∫⁻ x0, ∫⁻ x3, ∫⁻ p, h x0 x3 p = ∫⁻ R in Ioi (0 : ℝ), ENNReal.ofReal (R ^ 2) * ∫⁻ s in Ioo (-1 : ℝ) 1, ENNReal.ofReal (R * √(1 - s ^ 2)) *
      ∫⁻ z in Ioo (-1 : ℝ) 1, ENNReal.ofReal (2 * π) * ∫⁻ ξ in Ico (0 : ℝ) 1,
        h (R * s) (R * √(1 - s ^ 2) * z) (R * √(1 - s ^ 2) * √(1 - z ^ 2) * cos (2 * π * ξ), R * √(1 - s ^ 2) * √(1 - z ^ 2) * sin (2 * π * ξ)) := by
  let k : ℝ → ℝ → ℝ → ℝ≥0∞ := fun x0 x3 ρ => ENNReal.ofReal (2 * π) * ∫⁻ ξ in Ico (0 : ℝ) 1, h x0 x3 (ρ * cos (2 * π * ξ), ρ * sin (2 * π * ξ))
  have hk : Measurable fun x : ℝ × ℝ × ℝ => k x.1 x.2.1 x.2.2 := by
    refine Measurable.const_mul ?_ _
    refine Measurable.lintegral_prod_right' (f := fun y : (ℝ × ℝ × ℝ) × ℝ => h y.1.1 y.1.2.1 (y.1.2.2 * cos (2 * π * y.2), y.1.2.2 * sin (2 * π * y.2))) ?_
    exact hh.comp (g := fun x : ℝ × ℝ × ℝ × ℝ => h x.1 x.2.1 x.2.2)
      (f := fun y : (ℝ × ℝ × ℝ) × ℝ => (y.1.1, y.1.2.1, (y.1.2.2 * cos (2 * π * y.2), y.1.2.2 * sin (2 * π * y.2)))) (by fun_prop)
  have h1 : ∀ x0 x3, ∫⁻ p, h x0 x3 p = ∫⁻ ρ in Ioi (0 : ℝ), ENNReal.ofReal ρ * k x0 x3 ρ := by
    intro x0 x3
    exact lintegral_polar_unit (h x0 x3) (hh.comp (by fun_prop : Measurable fun p : ℝ × ℝ => ((x0, x3, p) : ℝ × ℝ × ℝ × ℝ)))
  simp only [h1]
  let k2 : ℝ → ℝ → ℝ≥0∞ := fun x0 R => ENNReal.ofReal R * ∫⁻ z in Ioo (-1 : ℝ) 1, k x0 (R * z) (R * √(1 - z ^ 2))
  have hk2 : Measurable fun x : ℝ × ℝ => k2 x.1 x.2 := by
    refine measurable_snd.ennreal_ofReal.mul ?_
    refine Measurable.lintegral_prod_right' (f := fun y : (ℝ × ℝ) × ℝ => k y.1.1 (y.1.2 * y.2) (y.1.2 * √(1 - y.2 ^ 2))) ?_
    exact hk.comp (g := fun x : ℝ × ℝ × ℝ => k x.1 x.2.1 x.2.2) (f := fun y : (ℝ × ℝ) × ℝ => (y.1.1, y.1.2 * y.2, y.1.2 * √(1 - y.2 ^ 2)))
      (by fun_prop)
  have h2 : ∀ x0, ∫⁻ x3, ∫⁻ ρ in Ioi (0 : ℝ), ENNReal.ofReal ρ * k x0 x3 ρ = ∫⁻ R in Ioi (0 : ℝ), ENNReal.ofReal R * k2 x0 R := by
    intro x0
    rw [lintegral_half_plane (k x0) (hk.comp (by fun_prop : Measurable fun p : ℝ × ℝ => ((x0, p.1, p.2) : ℝ × ℝ × ℝ)))]
    refine setLIntegral_congr_fun measurableSet_Ioi fun R hR => ?_
    have hR : 0 < R := hR
    simp only [k2]
    rw [pow_two, ENNReal.ofReal_mul hR.le, mul_assoc]
  simp only [h2]
  exact lintegral_half_plane k2 hk2

end Leonard
