import Verif.Heat.Radius
import Verif.Heat.Haar
import Verif.Heat.Gibbs
import Verif.Gauge.UpdatesProps

/-!
The distribution of the matrices of the heat bath.
-/

set_option autoImplicit false

namespace Leonard

open MeasureTheory Set Real Matrix
open scoped ENNReal Classical

/-- The random numbers of one heat bath step: the attempts of `generate_radius`, then two numbers of `generate_vector`. -/
abbrev HeatStream := (ℕ → ℝ × ℝ × ℝ × ℝ) × ℝ × ℝ

/-- Independent uniform numbers. -/
noncomputable def heatMeasure : Measure HeatStream := (Measure.infinitePi fun _ : ℕ => unif4).prod (unif.prod unif)

instance : IsProbabilityMeasure heatMeasure := by unfold heatMeasure; infer_instance

/-- The random numbers as the program uses them, with at most `n` attempts. -/
def streamDraw (n : ℕ) (ω : HeatStream) : HeatBathDraw := ⟨(List.range n).map fun k => toRadiusDraw (ω.1 k), ω.2.1, ω.2.2⟩

/-- The random SU(2) matrix on an infinite sequence of attempts. -/
noncomputable def sampleSu2 (b : ℝ) (ω : HeatStream) : SU 2 := dir (spherePoint (radiusResult b ω.1) (2 * ω.2.2 - 1) ω.2.1)

theorem measurable_spherePoint : Measurable fun z : ℝ × ℝ × ℝ => spherePoint z.1 z.2.1 z.2.2 := by
  unfold spherePoint
  fun_prop

theorem measurable_sampleSu2 (b : ℝ) : Measurable (sampleSu2 b) := by
  have h : Measurable fun ω : HeatStream => (radiusResult b ω.1, 2 * ω.2.2 - 1, ω.2.1) :=
    ((measurable_radiusResult b).comp measurable_fst).prodMk (by fun_prop)
  exact measurable_dir.comp (measurable_spherePoint.comp h)

theorem randomSu2_quat (b : ℝ) (n : ℕ) (ω : HeatStream) (hξ : ω.2.2 ∈ Icc (0 : ℝ) 1) (hk : ∃ k < n, ω.1 k ∈ attemptOk b) :
    randomSu2 b (streamDraw n ω) = some (quatOf (spherePoint (radiusResult b ω.1) (2 * ω.2.2 - 1) ω.2.1)) := by
  unfold randomSu2
  have h := generateRadius_stream b n ω.1
  rw [if_pos hk] at h
  simp only [streamDraw]
  rw [h, Option.map_some]
  have h1 : sin (arccos (2 * ω.2.2 - 1)) = √(1 - (2 * ω.2.2 - 1) ^ 2) := sin_arccos _
  have h2 : cos (arccos (2 * ω.2.2 - 1)) = 2 * ω.2.2 - 1 := cos_arccos (by linarith [hξ.1]) (by linarith [hξ.2])
  simp only [generateVector, h1, h2, quatOf, spherePoint, ← pow_two]

/-- The number of the loop lies strictly between -1 and 1. -/
theorem radiusResult_mem (b : ℝ) (hb : 0 < b) :
    ∀ᵐ ω ∂(Measure.infinitePi fun _ : ℕ => unif4), radiusResult b ω ∈ Ioo (-1 : ℝ) 1 := by
  have h := (radius_law b hb).2 ((Ioo (-1 : ℝ) 1)ᶜ.indicator fun _ => 1) (measurable_const.indicator measurableSet_Ioo.compl)
  have h0 : ∫⁻ s in Ioo (-1 : ℝ) 1, ENNReal.ofReal (radialWeight b s) * (Ioo (-1 : ℝ) 1)ᶜ.indicator (fun _ => 1) s = 0 := by
    rw [setLIntegral_congr_fun (g := fun _ => 0) measurableSet_Ioo, lintegral_zero]
    intro s hs
    simp only
    rw [indicator_of_notMem (fun h : s ∈ (Ioo (-1 : ℝ) 1)ᶜ => h hs), mul_zero]
  have hmi : Measurable fun ω => (Ioo (-1 : ℝ) 1)ᶜ.indicator (fun _ => (1 : ℝ≥0∞)) (radiusResult b ω) :=
    (measurable_const.indicator measurableSet_Ioo.compl).comp (measurable_radiusResult b)
  rw [h0, mul_zero, lintegral_eq_zero_iff hmi] at h
  filter_upwards [h] with ω hω
  by_contra hc
  have : (Ioo (-1 : ℝ) 1)ᶜ.indicator (fun _ => (1 : ℝ≥0∞)) (radiusResult b ω) = 1 := indicator_of_mem hc _
  rw [this] at hω
  exact one_ne_zero hω

/-- The sequences on which the loop ends with a number between -1 and 1. -/
def GoodStream (b : ℝ) (ω : HeatStream) : Prop := (∃ k, ω.1 k ∈ attemptOk b) ∧ radiusResult b ω.1 ∈ Ioo (-1 : ℝ) 1 ∧ ω.2.2 ∈ Ico (0 : ℝ) 1

theorem ae_goodStream (b : ℝ) (hb : 0 < b) : ∀ᵐ ω ∂heatMeasure, GoodStream b ω := by
  have h1 : ∀ᵐ ω ∂heatMeasure, ∃ k, ω.1 k ∈ attemptOk b := Measure.quasiMeasurePreserving_fst.ae (radius_law b hb).1
  have h2 : ∀ᵐ ω ∂heatMeasure, radiusResult b ω.1 ∈ Ioo (-1 : ℝ) 1 := Measure.quasiMeasurePreserving_fst.ae (radiusResult_mem b hb)
  have h3 : ∀ᵐ ω ∂heatMeasure, ω.2.2 ∈ Ico (0 : ℝ) 1 := by
    have hu : ∀ᵐ x ∂unif, x ∈ Ico (0 : ℝ) 1 := ae_restrict_mem measurableSet_Ico
    have hp : ∀ᵐ z ∂(unif.prod unif), z.2 ∈ Ico (0 : ℝ) 1 := Measure.quasiMeasurePreserving_snd.ae hu
    exact Measure.quasiMeasurePreserving_snd.ae hp
  filter_upwards [h1, h2, h3] with ω a b c using ⟨a, b, c⟩

/-- On these sequences the program draws this matrix, once enough attempts are allowed. -/
theorem randomSu2_good {b : ℝ} {ω : HeatStream} (h : GoodStream b ω) : ∃ n0, ∀ n ≥ n0, randomSu2 b (streamDraw n ω) = some (sampleSu2 b ω).1 := by
  obtain ⟨⟨k, hk⟩, hr, hξ⟩ := h
  refine ⟨k + 1, fun n hn => ?_⟩
  have hξ' : ω.2.2 ∈ Icc (0 : ℝ) 1 := ⟨hξ.1, hξ.2.le⟩
  rw [randomSu2_quat b n ω hξ' ⟨k, by omega, hk⟩, sampleSu2, dir_unit]
  exact sqNorm_spherePoint ⟨hr.1.le, hr.2.le⟩ ⟨by linarith [hξ.1], by linarith [hξ.2]⟩ _

/-- With probability one the program draws this matrix, once enough attempts are allowed. -/
theorem randomSu2_stream (b : ℝ) (hb : 0 < b) :
    ∀ᵐ ω ∂heatMeasure, ∃ n0, ∀ n ≥ n0, randomSu2 b (streamDraw n ω) = some (sampleSu2 b ω).1 := by
  filter_upwards [ae_goodStream b hb] with ω hω using randomSu2_good hω

/-- The trace of a point of the sphere. -/
theorem trace_spherePoint {s z : ℝ} (hs : s ∈ Ioo (-1 : ℝ) 1) (hz : z ∈ Icc (-1 : ℝ) 1) (ξ : ℝ) :
    (trace (dir (spherePoint s z ξ)).1).re = 2 * s := by
  rw [dir_unit (sqNorm_spherePoint ⟨hs.1.le, hs.2.le⟩ hz ξ), trace_fin_two]
  simp [quatOf, su2Matrix, spherePoint]
  ring

theorem continuous_trace_re : Continuous fun g : SU 2 => (trace g.1).re :=
  Complex.continuous_re.comp (continuous_subtype_val (p := fun x : Mat 2 => x ∈ SU 2)).matrix_trace

/-- The matrix `R` has the density `exp(Re tr R / (2b))`. -/
theorem su2_law (haar : Measure (SU 2)) [IsFiniteMeasure haar] [haar.IsMulLeftInvariant] (h0 : haar ≠ 0) (b : ℝ) (hb : 0 < b) :
    (∫⁻ g, ENNReal.ofReal (exp ((trace g.1).re / (2 * b))) ∂haar) ≠ 0 ∧ (∫⁻ g, ENNReal.ofReal (exp ((trace g.1).re / (2 * b))) ∂haar) ≠ ∞ ∧
    ∀ f : SU 2 → ℝ≥0∞, Measurable f → ∫⁻ ω, f (sampleSu2 b ω) ∂heatMeasure
      = (∫⁻ g, ENNReal.ofReal (exp ((trace g.1).re / (2 * b))) ∂haar)⁻¹ * ∫⁻ g, ENNReal.ofReal (exp ((trace g.1).re / (2 * b))) * f g ∂haar := by
  obtain ⟨c, hct, hc⟩ := lintegral_su2 haar
  have hw : Measurable fun g : SU 2 => ENNReal.ofReal (exp ((trace g.1).re / (2 * b))) :=
    ((continuous_trace_re.div_const _).rexp).measurable.ennreal_ofReal
  -- the law of the sample
  have h1 : ∀ f : SU 2 → ℝ≥0∞, Measurable f → ∫⁻ ω, f (sampleSu2 b ω) ∂heatMeasure = (radialNorm b)⁻¹ * ∫⁻ s in Ioo (-1 : ℝ) 1, ENNReal.ofReal (radialWeight b s) *
      ∫⁻ ξ1 in Ico (0 : ℝ) 1, ∫⁻ ξ2 in Ico (0 : ℝ) 1, f (dir (spherePoint s (2 * ξ2 - 1) ξ1)) := fun f hf => by
    have hF : Measurable fun ω : HeatStream => f (sampleSu2 b ω) := hf.comp (measurable_sampleSu2 b)
    have hP : Measurable fun z : ℝ × ℝ × ℝ => f (dir (spherePoint z.1 (2 * z.2.2 - 1) z.2.1)) :=
      hf.comp (measurable_dir.comp (measurable_spherePoint.comp (by fun_prop : Measurable fun z : ℝ × ℝ × ℝ => (z.1, 2 * z.2.2 - 1, z.2.1))))
    let g : ℝ → ℝ≥0∞ := fun s => ∫⁻ z, f (dir (spherePoint s (2 * z.2 - 1) z.1)) ∂(unif.prod unif)
    have hg : Measurable g := Measurable.lintegral_prod_right' hP
    have h2 : ∫⁻ ω, f (sampleSu2 b ω) ∂heatMeasure = ∫⁻ ω, g (radiusResult b ω) ∂(Measure.infinitePi fun _ : ℕ => unif4) := by
      rw [heatMeasure, lintegral_prod _ hF.aemeasurable]
      rfl
    rw [h2, (radius_law b hb).2 g hg]
    congr 2
    funext s
    refine congrArg (fun z => ENNReal.ofReal (radialWeight b s) * z) ?_
    simp only [g]
    rw [lintegral_prod (fun z : ℝ × ℝ => f (dir (spherePoint s (2 * z.2 - 1) z.1))) (hP.comp measurable_prodMk_left).aemeasurable]
    rfl
  -- the integral over the group
  have h2 : ∀ f : SU 2 → ℝ≥0∞, Measurable f → ∫⁻ g, ENNReal.ofReal (exp ((trace g.1).re / (2 * b))) * f g ∂haar
      = (c * 2) * ∫⁻ s in Ioo (-1 : ℝ) 1, ENNReal.ofReal (radialWeight b s) * ∫⁻ ξ1 in Ico (0 : ℝ) 1, ∫⁻ ξ2 in Ico (0 : ℝ) 1, f (dir (spherePoint s (2 * ξ2 - 1) ξ1)) := fun f hf => by
    have hwf : Measurable fun g : SU 2 => ENNReal.ofReal (exp ((trace g.1).re / (2 * b))) * f g := hw.mul hf
    rw [hc _ hwf, mul_assoc]
    refine congrArg (fun z => c * z) ?_
    rw [← lintegral_const_mul' _ _ (by simp)]
    refine setLIntegral_congr_fun measurableSet_Ioo fun s hs => ?_
    have e1 : ∫⁻ z in Ioo (-1 : ℝ) 1, ∫⁻ ξ in Ico (0 : ℝ) 1, ENNReal.ofReal (exp ((trace (dir (spherePoint s z ξ)).1).re / (2 * b))) * f (dir (spherePoint s z ξ))
        = ENNReal.ofReal (exp (s / b)) * ∫⁻ z in Ioo (-1 : ℝ) 1, ∫⁻ ξ in Ico (0 : ℝ) 1, f (dir (spherePoint s z ξ)) := by
      rw [← lintegral_const_mul' _ _ ENNReal.ofReal_ne_top]
      refine setLIntegral_congr_fun measurableSet_Ioo fun z hz => ?_
      rw [← lintegral_const_mul' _ _ ENNReal.ofReal_ne_top]
      refine lintegral_congr fun ξ => ?_
      rw [trace_spherePoint hs ⟨hz.1.le, hz.2.le⟩]
      congr 3
      field_simp
    have hP : Measurable fun z : ℝ × ℝ => f (dir (spherePoint s z.1 z.2)) :=
      hf.comp (measurable_dir.comp (measurable_spherePoint.comp (by fun_prop : Measurable fun z : ℝ × ℝ => (s, z.1, z.2))))
    have e2 : ∫⁻ z in Ioo (-1 : ℝ) 1, ∫⁻ ξ in Ico (0 : ℝ) 1, f (dir (spherePoint s z ξ))
        = 2 * ∫⁻ ξ1 in Ico (0 : ℝ) 1, ∫⁻ ξ2 in Ico (0 : ℝ) 1, f (dir (spherePoint s (2 * ξ2 - 1) ξ1)) := by
      have h := lintegral_uniform (-1) 2 two_pos fun z => ∫⁻ ξ in Ico (0 : ℝ) 1, f (dir (spherePoint s z ξ))
      rw [show (-1 : ℝ) + 2 = 1 by norm_num] at h
      rw [h, lintegral_lintegral_swap]
      · have : ∀ x : ℝ, -1 + 2 * x = 2 * x - 1 := fun x => by ring
        simp only [this]
        congr 1
        simp
      · exact (hP.comp (by fun_prop : Measurable fun z : ℝ × ℝ => (-1 + 2 * z.1, z.2))).aemeasurable
    rw [e1, e2, radialWeight, ENNReal.ofReal_mul (sqrt_nonneg _)]
    ring
  have hN : ∫⁻ g, ENNReal.ofReal (exp ((trace g.1).re / (2 * b))) ∂haar = c * 2 * radialNorm b := by
    have := h2 (fun _ => 1) measurable_const
    simp only [mul_one, lintegral_const, Measure.restrict_apply MeasurableSet.univ, univ_inter, Real.volume_Ico, sub_zero, ENNReal.ofReal_one] at this
    exact this
  have hc0 : c ≠ 0 := by
    intro h
    have := hc (fun _ => 1) measurable_const
    rw [h, zero_mul, lintegral_const, one_mul] at this
    exact h0 (Measure.measure_univ_eq_zero.1 this)
  have hc2 : c * 2 ≠ 0 := mul_ne_zero hc0 two_ne_zero
  have hc2t : c * 2 ≠ ∞ := ENNReal.mul_ne_top hct (by simp)
  refine ⟨?_, ?_, fun f hf => ?_⟩
  · rw [hN]; exact mul_ne_zero hc2 (radialNorm_ne b).1
  · rw [hN]; exact ENNReal.mul_ne_top hc2t (radialNorm_ne b).2
  · rw [h1 f hf, h2 f hf, hN, ENNReal.mul_inv (Or.inl hc2) (Or.inl hc2t), mul_comm (c * 2)⁻¹, mul_assoc, ← mul_assoc (c * 2)⁻¹,
      ENNReal.inv_mul_cancel hc2 hc2t, one_mul]

end Leonard
