import Verif.Heat.OverProps

/-!
# C66: the random start is uniform

Exact arithmetic.
-/

set_option autoImplicit false

namespace Leonard

open MeasureTheory Set Real Matrix ComplexConjugate
open scoped ENNReal

/-- Integrals over the plane with a quadratic change of variables. -/
theorem lintegral_one_sub_sq (g : ℝ → ℝ≥0∞) : ∫⁻ ξ in Ico (0 : ℝ) 1, g ξ = ENNReal.ofReal 2 * ∫⁻ s in Ioo (0 : ℝ) 1, ENNReal.ofReal s * g (1 - s ^ 2) := by
  have him : (fun s : ℝ => 1 - s ^ 2) '' Ioo 0 1 = Ioo 0 1 := by
    ext x
    constructor
    · rintro ⟨s, hs, rfl⟩
      have h0 := hs.1
      have h1 := hs.2
      exact ⟨by simp only; nlinarith, by simp only; nlinarith⟩
    · rintro ⟨h0, h1⟩
      refine ⟨√(1 - x), ⟨sqrt_pos.2 (by linarith), ?_⟩, ?_⟩
      · rw [sqrt_lt' one_pos]
        linarith
      · simp only
        rw [sq_sqrt (by linarith)]
        ring
  have hd : ∀ s ∈ Ioo (0 : ℝ) 1, HasDerivWithinAt (fun s : ℝ => 1 - s ^ 2) (-(2 * s)) (Ioo 0 1) s := fun s _ => by
    have h1 : HasDerivAt (fun s : ℝ => 1 - s ^ 2) (-(2 * s)) s := by
      have := (hasDerivAt_pow 2 s).const_sub 1
      simpa using this
    exact h1.hasDerivWithinAt
  have hinj : InjOn (fun s : ℝ => 1 - s ^ 2) (Ioo 0 1) := fun a ha b hb h => by
    simp only at h
    have h1 : a ^ 2 = b ^ 2 := by linarith
    exact (pow_left_inj₀ ha.1.le hb.1.le two_ne_zero).1 h1
  have h := lintegral_image_eq_lintegral_abs_deriv_mul measurableSet_Ioo hd hinj g
  rw [him] at h
  rw [← setLIntegral_congr (Ioo_ae_eq_Ico (a := (0 : ℝ)) (b := 1)), h, ← lintegral_const_mul' _ _ ENNReal.ofReal_ne_top]
  refine setLIntegral_congr_fun measurableSet_Ioo fun s hs => ?_
  have h0 := hs.1
  rw [abs_neg, abs_of_pos (by linarith), ENNReal.ofReal_mul two_pos.le, mul_assoc]

/-- The point of the sphere with the given moduli and phases. -/
noncomputable def torusPoint (ρ1 ρ2 ξ1 ξ2 : ℝ) : Quat4 := (ρ1 * cos (2 * π * ξ2), ρ1 * sin (2 * π * ξ2), ρ2 * sin (2 * π * ξ1), ρ2 * cos (2 * π * ξ1))

theorem measurable_torusPoint : Measurable fun z : ℝ × ℝ × ℝ × ℝ => torusPoint z.1 z.2.1 z.2.2.1 z.2.2.2 := by
  unfold torusPoint
  fun_prop

theorem sqNorm_torusPoint (ρ1 ρ2 ξ1 ξ2 : ℝ) : sqNorm (torusPoint ρ1 ρ2 ξ1 ξ2) = ρ1 ^ 2 + ρ2 ^ 2 := by
  simp only [sqNorm, torusPoint, mul_pow]
  have h1 := sin_sq_add_cos_sq (2 * π * ξ1)
  have h2 := sin_sq_add_cos_sq (2 * π * ξ2)
  linear_combination ρ1 ^ 2 * h2 + ρ2 ^ 2 * h1

theorem torusPoint_smul (R ρ1 ρ2 ξ1 ξ2 : ℝ) : torusPoint (R * ρ1) (R * ρ2) ξ1 ξ2 = R • torusPoint ρ1 ρ2 ξ1 ξ2 := by
  simp only [torusPoint, Prod.smul_mk, smul_eq_mul, mul_assoc]

/-- Polar coordinates in two planes. -/
theorem lintegral_bipolar (G : Quat4 → ℝ≥0∞) (hG : Measurable G) :
    ∫⁻ x, G x = ENNReal.ofReal (2 * π) * ENNReal.ofReal (2 * π) * ∫⁻ ρ1 in Ioi (0 : ℝ), ∫⁻ ρ2 in Ioi (0 : ℝ), ENNReal.ofReal ρ2 *
      (ENNReal.ofReal ρ1 * ∫⁻ ξ2 in Ico (0 : ℝ) 1, ∫⁻ ξ1 in Ico (0 : ℝ) 1, G (torusPoint ρ1 ρ2 ξ1 ξ2)) := by
  -- the inner plane
  let k : ℝ → ℝ → ℝ → ℝ≥0∞ := fun a b ρ2 => ∫⁻ ξ1 in Ico (0 : ℝ) 1, G (a, b, ρ2 * sin (2 * π * ξ1), ρ2 * cos (2 * π * ξ1))
  have hk : Measurable fun y : ℝ × ℝ × ℝ => k y.1 y.2.1 y.2.2 := by
    refine Measurable.lintegral_prod_right' (f := fun y : (ℝ × ℝ × ℝ) × ℝ => G (y.1.1, y.1.2.1, y.1.2.2 * sin (2 * π * y.2), y.1.2.2 * cos (2 * π * y.2))) ?_
    exact hG.comp (by fun_prop)
  have h1 : ∀ a b, ∫⁻ p : ℝ × ℝ, G (a, b, p) = ENNReal.ofReal (2 * π) * ∫⁻ ρ2 in Ioi (0 : ℝ), ENNReal.ofReal ρ2 * k a b ρ2 := fun a b => by
    have hsw : ∫⁻ p : ℝ × ℝ, G (a, b, p) = ∫⁻ p : ℝ × ℝ, G (a, b, p.2, p.1) := by
      have hm : Measurable fun p : ℝ × ℝ => G (a, b, p) := hG.comp (by fun_prop)
      have := (Measure.measurePreserving_swap (μ := (volume : Measure ℝ)) (ν := (volume : Measure ℝ))).lintegral_comp hm
      rw [Measure.volume_eq_prod]
      exact this.symm
    rw [hsw, lintegral_polar_unit (fun p => G (a, b, p.2, p.1)) (hG.comp (by fun_prop)), ← lintegral_const_mul' _ _ ENNReal.ofReal_ne_top]
    refine lintegral_congr fun ρ2 => ?_
    rw [mul_left_comm]
  let J : ℝ × ℝ → ℝ≥0∞ := fun q => ∫⁻ ρ2 in Ioi (0 : ℝ), ENNReal.ofReal ρ2 * k q.1 q.2 ρ2
  have hJ : Measurable J := by
    refine Measurable.lintegral_prod_right' (f := fun y : (ℝ × ℝ) × ℝ => ENNReal.ofReal y.2 * k y.1.1 y.1.2 y.2) ?_
    exact measurable_snd.ennreal_ofReal.mul (hk.comp (g := fun y : ℝ × ℝ × ℝ => k y.1 y.2.1 y.2.2) (f := fun y : (ℝ × ℝ) × ℝ => (y.1.1, y.1.2, y.2)) (by fun_prop))
  have h2 : ∫⁻ x, G x = ENNReal.ofReal (2 * π) * ∫⁻ q, J q := by
    rw [Measure.volume_eq_prod, lintegral_prod _ hG.aemeasurable]
    have e : ∀ a : ℝ, ∫⁻ y : ℝ × ℝ × ℝ, G (a, y) = ∫⁻ b : ℝ, ENNReal.ofReal (2 * π) * J (a, b) := fun a => by
      rw [Measure.volume_eq_prod, lintegral_prod (fun y : ℝ × ℝ × ℝ => G (a, y)) (hG.comp measurable_prodMk_left).aemeasurable]
      exact lintegral_congr fun b => h1 a b
    simp only [e]
    rw [← lintegral_const_mul' _ _ ENNReal.ofReal_ne_top, Measure.volume_eq_prod, lintegral_prod _ (hJ.const_mul _).aemeasurable]
  rw [h2, lintegral_polar_unit J hJ, mul_assoc]
  refine congrArg (fun z => ENNReal.ofReal (2 * π) * z) ?_
  rw [← lintegral_const_mul' _ _ ENNReal.ofReal_ne_top]
  refine lintegral_congr fun ρ1 => ?_
  rw [mul_left_comm]
  refine congrArg (fun z => ENNReal.ofReal (2 * π) * z) ?_
  simp only [J]
  have hm : Measurable fun y : ℝ × ℝ => ENNReal.ofReal y.2 * k (ρ1 * cos (2 * π * y.1)) (ρ1 * sin (2 * π * y.1)) y.2 :=
    measurable_snd.ennreal_ofReal.mul (hk.comp (g := fun y : ℝ × ℝ × ℝ => k y.1 y.2.1 y.2.2)
      (f := fun y : ℝ × ℝ => (ρ1 * cos (2 * π * y.1), ρ1 * sin (2 * π * y.1), y.2)) (by fun_prop))
  rw [lintegral_lintegral_swap (f := fun ξ ρ2 => ENNReal.ofReal ρ2 * k (ρ1 * cos (2 * π * ξ)) (ρ1 * sin (2 * π * ξ)) ρ2) hm.aemeasurable,
    ← lintegral_const_mul' _ _ ENNReal.ofReal_ne_top]
  refine lintegral_congr fun ρ2 => ?_
  rw [lintegral_const_mul' _ _ ENNReal.ofReal_ne_top, mul_left_comm]
  rfl

/-- Integrals over SU(2) with two phases and the square of a modulus. -/
theorem lintegral_hot (haar : Measure (SU 2)) [IsFiniteMeasure haar] [haar.IsMulLeftInvariant] (f : SU 2 → ℝ≥0∞) (hf : Measurable f) :
    ∫⁻ g, f g ∂haar = haar univ * ∫⁻ ξ1 in Ico (0 : ℝ) 1, ∫⁻ ξ2 in Ico (0 : ℝ) 1, ∫⁻ ξ3 in Ico (0 : ℝ) 1, f (dir (torusPoint (√(1 - ξ3)) (√ξ3) ξ1 ξ2)) := by
  obtain ⟨c, hct, hc⟩ := haar_eq_dirMeasure haar
  have key : ∃ K : ℝ≥0∞, ∀ f : SU 2 → ℝ≥0∞, Measurable f → ∫⁻ g, f g ∂haar = K *
      ∫⁻ ξ1 in Ico (0 : ℝ) 1, ∫⁻ ξ2 in Ico (0 : ℝ) 1, ∫⁻ ξ3 in Ico (0 : ℝ) 1, f (dir (torusPoint (√(1 - ξ3)) (√ξ3) ξ1 ξ2)) := by
    refine ⟨c * (ENNReal.ofReal (2 * π) * ENNReal.ofReal (2 * π) * ((∫⁻ R in Ioo (0 : ℝ) 1, ENNReal.ofReal (R ^ 2) * ENNReal.ofReal R) * (ENNReal.ofReal 2)⁻¹)), fun f hf => ?_⟩
    rw [hc, lintegral_smul_measure, smul_eq_mul, mul_assoc]
    refine congrArg (fun y => c * y) ?_
    rw [dirMeasure, lintegral_map hf measurable_dir]
    have hF : Measurable (ball4.indicator fun x => f (dir x)) := (hf.comp measurable_dir).indicator isOpen_ball4.measurableSet
    rw [← lintegral_indicator isOpen_ball4.measurableSet, lintegral_bipolar _ hF, mul_assoc (ENNReal.ofReal (2 * π) * ENNReal.ofReal (2 * π)) (_ * _)]
    refine congrArg (fun y => ENNReal.ofReal (2 * π) * ENNReal.ofReal (2 * π) * y) ?_
    -- the two moduli
    let H : ℝ → ℝ → ℝ≥0∞ := fun ρ1 ρ2 => ∫⁻ ξ2 in Ico (0 : ℝ) 1, ∫⁻ ξ1 in Ico (0 : ℝ) 1, f (dir (torusPoint ρ1 ρ2 ξ1 ξ2))
    have hfd : Measurable fun z : ℝ × ℝ × ℝ × ℝ => f (dir (torusPoint z.1 z.2.1 z.2.2.1 z.2.2.2)) := hf.comp (measurable_dir.comp measurable_torusPoint)
    have hH : Measurable fun z : ℝ × ℝ => H z.1 z.2 := by
      have h1 : Measurable fun z : ((ℝ × ℝ) × ℝ) => ∫⁻ ξ1 in Ico (0 : ℝ) 1, f (dir (torusPoint z.1.1 z.1.2 ξ1 z.2)) := by
        refine Measurable.lintegral_prod_right' (f := fun y : ((ℝ × ℝ) × ℝ) × ℝ => f (dir (torusPoint y.1.1.1 y.1.1.2 y.2 y.1.2))) ?_
        exact hfd.comp (g := fun z : ℝ × ℝ × ℝ × ℝ => f (dir (torusPoint z.1 z.2.1 z.2.2.1 z.2.2.2)))
          (f := fun y : ((ℝ × ℝ) × ℝ) × ℝ => (y.1.1.1, y.1.1.2, y.2, y.1.2)) (by fun_prop)
      exact h1.lintegral_prod_right'
    let kk : ℝ → ℝ → ℝ≥0∞ := fun x y => (Ioi (0 : ℝ)).indicator (fun x => ENNReal.ofReal x * (if x ^ 2 + y ^ 2 < 1 then H x y else 0)) x
    have hkk : Measurable fun z : ℝ × ℝ => kk z.1 z.2 := by
      have : (fun z : ℝ × ℝ => kk z.1 z.2) = {z : ℝ × ℝ | 0 < z.1}.indicator fun z => ENNReal.ofReal z.1 * (if z.1 ^ 2 + z.2 ^ 2 < 1 then H z.1 z.2 else 0) := by
        funext z
        simp [kk, indicator]
      rw [this]
      refine Measurable.indicator (measurable_fst.ennreal_ofReal.mul (Measurable.ite ?_ hH measurable_const)) (measurableSet_lt measurable_const measurable_fst)
      exact measurableSet_lt ((measurable_fst.pow_const 2).add (measurable_snd.pow_const 2)) measurable_const
    have e1 : ∫⁻ ρ1 in Ioi (0 : ℝ), ∫⁻ ρ2 in Ioi (0 : ℝ), ENNReal.ofReal ρ2 *
        (ENNReal.ofReal ρ1 * ∫⁻ ξ2 in Ico (0 : ℝ) 1, ∫⁻ ξ1 in Ico (0 : ℝ) 1, ball4.indicator (fun x => f (dir x)) (torusPoint ρ1 ρ2 ξ1 ξ2))
        = ∫⁻ x, ∫⁻ y in Ioi (0 : ℝ), ENNReal.ofReal y * kk x y := by
      rw [← lintegral_indicator measurableSet_Ioi]
      refine lintegral_congr fun x => ?_
      by_cases hx : x ∈ Ioi (0 : ℝ)
      · rw [indicator_of_mem hx]
        refine lintegral_congr fun y => ?_
        refine congrArg (fun z => ENNReal.ofReal y * z) ?_
        simp only [kk]
        rw [indicator_of_mem hx]
        refine congrArg (fun z => ENNReal.ofReal x * z) ?_
        by_cases h : x ^ 2 + y ^ 2 < 1
        · rw [if_pos h]
          refine lintegral_congr fun ξ2 => lintegral_congr fun ξ1 => indicator_of_mem ?_ _
          change sqNorm _ < 1
          rw [sqNorm_torusPoint]
          exact h
        · rw [if_neg h]
          have e0 : ∀ ξ1 ξ2, ball4.indicator (fun x => f (dir x)) (torusPoint x y ξ1 ξ2) = 0 := fun ξ1 ξ2 => by
            refine indicator_of_notMem ?_ _
            change ¬ sqNorm _ < 1
            rw [sqNorm_torusPoint]
            exact h
          simp only [e0, lintegral_zero]
      · rw [indicator_of_notMem hx]
        simp only [kk, indicator_of_notMem hx, mul_zero, lintegral_zero]
    rw [e1, lintegral_half_plane kk hkk]
    -- the radius
    let M : ℝ≥0∞ := ∫⁻ s in Ioo (0 : ℝ) 1, ENNReal.ofReal s * H s (√(1 - s ^ 2))
    have e2 : ∫⁻ R in Ioi (0 : ℝ), ENNReal.ofReal (R ^ 2) * ∫⁻ s in Ioo (-1 : ℝ) 1, kk (R * s) (R * √(1 - s ^ 2))
        = (∫⁻ R in Ioo (0 : ℝ) 1, ENNReal.ofReal (R ^ 2) * ENNReal.ofReal R) * M := by
      have e3 : EqOn (fun R : ℝ => ENNReal.ofReal (R ^ 2) * ∫⁻ s in Ioo (-1 : ℝ) 1, kk (R * s) (R * √(1 - s ^ 2)))
          ((Ioo (0 : ℝ) 1).indicator fun R => (ENNReal.ofReal (R ^ 2) * ENNReal.ofReal R) * M) (Ioi 0) := by
        intro R hR
        have hR : 0 < R := hR
        have e4 : EqOn (fun s : ℝ => kk (R * s) (R * √(1 - s ^ 2))) ((Ioo (0 : ℝ) 1).indicator fun s => if R < 1 then ENNReal.ofReal R * (ENNReal.ofReal s * H s (√(1 - s ^ 2))) else 0) (Ioo (-1) 1) := by
          intro s hs
          simp only [kk]
          by_cases h0 : 0 < s
          · have hm : s ∈ Ioo (0 : ℝ) 1 := ⟨h0, hs.2⟩
            rw [indicator_of_mem hm, indicator_of_mem (show R * s ∈ Ioi (0 : ℝ) from mul_pos hR h0)]
            have hq : √(1 - s ^ 2) ^ 2 = 1 - s ^ 2 := sq_sqrt (by nlinarith [hs.1, hs.2])
            have hn : (R * s) ^ 2 + (R * √(1 - s ^ 2)) ^ 2 = R ^ 2 := by rw [mul_pow, mul_pow, hq]; ring
            have hH2 : H (R * s) (R * √(1 - s ^ 2)) = H s (√(1 - s ^ 2)) := by
              simp only [H]
              refine lintegral_congr fun ξ2 => lintegral_congr fun ξ1 => ?_
              rw [torusPoint_smul, dir_smul hR]
            rw [hn, hH2]
            by_cases h1 : R < 1
            · rw [if_pos h1, if_pos (by nlinarith), ENNReal.ofReal_mul hR.le, mul_assoc]
            · rw [if_neg h1, if_neg (by nlinarith [not_lt.1 h1]), mul_zero]
          · rw [indicator_of_notMem (fun h : s ∈ Ioo (0 : ℝ) 1 => h0 h.1), indicator_of_notMem]
            change ¬ 0 < R * s
            nlinarith [not_lt.1 h0]
        simp only
        rw [setLIntegral_congr_fun measurableSet_Ioo e4, setLIntegral_indicator measurableSet_Ioo,
          inter_eq_left.2 (Ioo_subset_Ioo_left (by norm_num) : Ioo (0 : ℝ) 1 ⊆ Ioo (-1) 1)]
        by_cases h1 : R < 1
        · rw [indicator_of_mem (show R ∈ Ioo (0 : ℝ) 1 from ⟨hR, h1⟩)]
          simp only [if_pos h1]
          rw [lintegral_const_mul' _ _ ENNReal.ofReal_ne_top, mul_assoc]
        · rw [indicator_of_notMem (fun h : R ∈ Ioo (0 : ℝ) 1 => h1 h.2)]
          simp only [if_neg h1, lintegral_zero, mul_zero]
      rw [setLIntegral_congr_fun measurableSet_Ioi e3, setLIntegral_indicator measurableSet_Ioo,
        inter_eq_left.2 (Ioo_subset_Ioi_self : Ioo (0 : ℝ) 1 ⊆ Ioi 0)]
      rw [lintegral_mul_const]
      fun_prop
    rw [e2, mul_assoc]
    refine congrArg (fun z => (∫⁻ R in Ioo (0 : ℝ) 1, ENNReal.ofReal (R ^ 2) * ENNReal.ofReal R) * z) ?_
    -- the square of the modulus
    have e5 : ∫⁻ ξ3 in Ico (0 : ℝ) 1, H (√(1 - ξ3)) (√ξ3) = ENNReal.ofReal 2 * M := by
      rw [lintegral_one_sub_sq]
      refine congrArg (fun z => ENNReal.ofReal 2 * z) (setLIntegral_congr_fun measurableSet_Ioo fun s hs => ?_)
      rw [sub_sub_cancel, sqrt_sq hs.1.le]
    have e6 : ∫⁻ ξ1 in Ico (0 : ℝ) 1, ∫⁻ ξ2 in Ico (0 : ℝ) 1, ∫⁻ ξ3 in Ico (0 : ℝ) 1, f (dir (torusPoint (√(1 - ξ3)) (√ξ3) ξ1 ξ2))
        = ∫⁻ ξ3 in Ico (0 : ℝ) 1, H (√(1 - ξ3)) (√ξ3) := by
      have hall : Measurable fun z : ℝ × ℝ × ℝ => f (dir (torusPoint (√(1 - z.2.2)) (√z.2.2) z.1 z.2.1)) :=
        hfd.comp (g := fun z : ℝ × ℝ × ℝ × ℝ => f (dir (torusPoint z.1 z.2.1 z.2.2.1 z.2.2.2)))
          (f := fun z : ℝ × ℝ × ℝ => (√(1 - z.2.2), √z.2.2, z.1, z.2.1)) (by fun_prop)
      -- move the integral over the modulus outside
      have s1 : ∀ ξ1, ∫⁻ ξ2 in Ico (0 : ℝ) 1, ∫⁻ ξ3 in Ico (0 : ℝ) 1, f (dir (torusPoint (√(1 - ξ3)) (√ξ3) ξ1 ξ2))
          = ∫⁻ ξ3 in Ico (0 : ℝ) 1, ∫⁻ ξ2 in Ico (0 : ℝ) 1, f (dir (torusPoint (√(1 - ξ3)) (√ξ3) ξ1 ξ2)) := fun ξ1 =>
        lintegral_lintegral_swap (f := fun ξ2 ξ3 => f (dir (torusPoint (√(1 - ξ3)) (√ξ3) ξ1 ξ2)))
          (hall.comp (f := fun z : ℝ × ℝ => ((ξ1, z.1, z.2) : ℝ × ℝ × ℝ)) (by fun_prop)).aemeasurable
      simp only [s1]
      have hin : Measurable fun z : ℝ × ℝ => ∫⁻ ξ2 in Ico (0 : ℝ) 1, f (dir (torusPoint (√(1 - z.2)) (√z.2) z.1 ξ2)) := by
        refine Measurable.lintegral_prod_right' (f := fun y : (ℝ × ℝ) × ℝ => f (dir (torusPoint (√(1 - y.1.2)) (√y.1.2) y.1.1 y.2))) ?_
        exact hall.comp (f := fun y : (ℝ × ℝ) × ℝ => ((y.1.1, y.2, y.1.2) : ℝ × ℝ × ℝ)) (by fun_prop)
      rw [lintegral_lintegral_swap (f := fun ξ1 ξ3 => ∫⁻ ξ2 in Ico (0 : ℝ) 1, f (dir (torusPoint (√(1 - ξ3)) (√ξ3) ξ1 ξ2))) hin.aemeasurable]
      refine lintegral_congr fun ξ3 => ?_
      simp only [H]
      exact lintegral_lintegral_swap (f := fun ξ1 ξ2 => f (dir (torusPoint (√(1 - ξ3)) (√ξ3) ξ1 ξ2)))
        (hall.comp (f := fun z : ℝ × ℝ => ((z.1, z.2, ξ3) : ℝ × ℝ × ℝ)) (by fun_prop)).aemeasurable
    rw [e6, e5, ← mul_assoc, ENNReal.inv_mul_cancel (by simp) ENNReal.ofReal_ne_top, one_mul]
  obtain ⟨K, hK⟩ := key
  have h1 := hK (fun _ => 1) measurable_const
  simp only [lintegral_const, Measure.restrict_apply MeasurableSet.univ, univ_inter, Real.volume_Ico, sub_zero, ENNReal.ofReal_one, mul_one] at h1
  rw [hK f hf, ← h1, one_mul]

/-- The link of the random start. -/
theorem hotLink2_eq (ξ : ℝ × ℝ × ℝ) (h : ξ.2.2 ∈ Ico (0 : ℝ) 1) : hotLink2 ξ.1 ξ.2.1 ξ.2.2 = (dir (torusPoint (√(1 - ξ.2.2)) (√ξ.2.2) ξ.1 ξ.2.1)).1 := by
  obtain ⟨ξ1, ξ2, ξ3⟩ := ξ
  obtain ⟨h0, h1⟩ := h
  simp only at h0 h1 ⊢
  have hs : ξ3 ^ (1 / 2 : ℝ) = √ξ3 := (sqrt_eq_rpow ξ3).symm
  have hs1 : √ξ3 ≤ 1 := by rw [sqrt_le_one]; exact h1.le
  have hsin : sin (arcsin √ξ3) = √ξ3 := sin_arcsin (by linarith [sqrt_nonneg ξ3]) hs1
  have hcos : cos (arcsin √ξ3) = √(1 - ξ3) := by rw [cos_arcsin, sq_sqrt h0]
  have hn : sqNorm (torusPoint (√(1 - ξ3)) (√ξ3) ξ1 ξ2) = 1 := by
    rw [sqNorm_torusPoint, sq_sqrt (by linarith), sq_sqrt h0]
    ring
  rw [dir_unit hn]
  simp only [hotLink2, hs, hsin, hcos, quatOf, su2Matrix, torusPoint]
  ext i j
  fin_cases i <;> fin_cases j <;> apply Complex.ext <;> simp [mul_comm]

end Leonard
