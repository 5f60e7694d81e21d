import Verif.Heat.Integrals
import Verif.Hmc.Measure
import Verif.Gauge.UpdatesLemmas
import Mathlib.MeasureTheory.Measure.Haar.Unique
import Mathlib.MeasureTheory.Measure.Lebesgue.EqHaar
import Mathlib.MeasureTheory.Constructions.BorelSpace.Basic

/-!
The invariant measure of SU(2) in spherical coordinates.
-/

set_option autoImplicit false

namespace Leonard

open MeasureTheory Set Real Matrix
open scoped ENNReal

/-- Four real numbers: the component along the identity, the third, and the first and second component. -/
abbrev Quat4 := ℝ × ℝ × ℝ × ℝ

/-- The matrix of four numbers. -/
noncomputable def quatOf (x : Quat4) : Mat 2 := su2Matrix x.1 x.2.2.1 x.2.2.2 x.2.1

/-- The sum of squares. -/
def sqNorm (x : Quat4) : ℝ := x.1 ^ 2 + x.2.2.1 ^ 2 + x.2.2.2 ^ 2 + x.2.1 ^ 2

/-- The four numbers of a matrix. -/
def coordsOf (M : Mat 2) : Quat4 := ((M 0 0).re, (M 0 0).im, (M 0 1).im, (M 0 1).re)

theorem isQuat_quatOf (x : Quat4) : IsQuat (quatOf x) := isQuat_su2Matrix _ _ _ _

theorem quatNorm_quatOf (x : Quat4) : quatNorm (quatOf x) = sqNorm x := quatNorm_su2Matrix _ _ _ _

theorem coordsOf_quatOf (x : Quat4) : coordsOf (quatOf x) = x := by
  simp [coordsOf, quatOf, su2Matrix]

theorem quatOf_coordsOf {M : Mat 2} (h : IsQuat M) : quatOf (coordsOf M) = M := by
  obtain ⟨h1, h2⟩ := h
  ext i j
  fin_cases i <;> fin_cases j <;> apply Complex.ext <;> simp [coordsOf, quatOf, su2Matrix, h1, h2]

theorem sqNorm_nonneg (x : Quat4) : 0 ≤ sqNorm x := by
  unfold sqNorm
  positivity

theorem sqNorm_eq_zero {x : Quat4} : sqNorm x = 0 ↔ x = 0 := by
  constructor
  · intro h
    obtain ⟨a, b, c, d⟩ := x
    simp only [sqNorm] at h
    have ha : a = 0 := by nlinarith [sq_nonneg a, sq_nonneg b, sq_nonneg c, sq_nonneg d]
    have hb : b = 0 := by nlinarith [sq_nonneg a, sq_nonneg b, sq_nonneg c, sq_nonneg d]
    have hc : c = 0 := by nlinarith [sq_nonneg a, sq_nonneg b, sq_nonneg c, sq_nonneg d]
    have hd : d = 0 := by nlinarith [sq_nonneg a, sq_nonneg b, sq_nonneg c, sq_nonneg d]
    subst ha hb hc hd
    rfl
  · rintro rfl
    simp [sqNorm]

theorem continuous_sqNorm : Continuous sqNorm := by
  unfold sqNorm
  fun_prop

theorem continuous_quatOf : Continuous quatOf := by
  refine continuous_matrix fun i j => ?_
  fin_cases i <;> fin_cases j <;> simp only [quatOf, su2Matrix, Matrix.of_apply, Matrix.cons_val', Matrix.cons_val_zero, Matrix.cons_val_one, Matrix.cons_val_fin_one, Fin.zero_eta, Fin.mk_one, Fin.isValue]
  · exact Complex.equivRealProdCLM.symm.continuous.comp (by fun_prop : Continuous fun x : Quat4 => (x.1, x.2.1))
  · exact Complex.equivRealProdCLM.symm.continuous.comp (by fun_prop : Continuous fun x : Quat4 => (x.2.2.2, x.2.2.1))
  · exact Complex.equivRealProdCLM.symm.continuous.comp (by fun_prop : Continuous fun x : Quat4 => (-x.2.2.2, x.2.2.1))
  · exact Complex.equivRealProdCLM.symm.continuous.comp (by fun_prop : Continuous fun x : Quat4 => (x.1, -x.2.1))

theorem dir_mem {x : Quat4} (h : sqNorm x ≠ 0) : ((1 / √(sqNorm x) : ℝ) : ℂ) • quatOf x ∈ SU 2 := by
  refine IsQuat.mem_su2 ((isQuat_quatOf x).smul _) ?_
  have hp : 0 < sqNorm x := lt_of_le_of_ne (sqNorm_nonneg x) (Ne.symm h)
  rw [IsQuat.quatNorm_smul, quatNorm_quatOf, div_pow, one_pow, sq_sqrt hp.le, one_div, inv_mul_cancel₀ h]

open Classical in
/-- The SU(2) matrix in the direction of four numbers. -/
noncomputable def dir (x : Quat4) : SU 2 := if h : sqNorm x ≠ 0 then ⟨_, dir_mem h⟩ else 1

theorem dir_val {x : Quat4} (h : sqNorm x ≠ 0) : (dir x).1 = ((1 / √(sqNorm x) : ℝ) : ℂ) • quatOf x := by
  rw [dir, dif_pos h]

theorem dir_unit {x : Quat4} (h : sqNorm x = 1) : (dir x).1 = quatOf x := by
  rw [dir_val (by rw [h]; exact one_ne_zero), h]
  simp

theorem measurable_dir : Measurable dir := by
  refine measurable_of_continuousOn_compl_singleton 0 ?_
  rw [Topology.IsInducing.subtypeVal.continuousOn_iff]
  have h : ContinuousOn (fun x : Quat4 => ((1 / √(sqNorm x) : ℝ) : ℂ) • quatOf x) {0}ᶜ := by
    refine ContinuousOn.smul (M := ℂ) (Complex.continuous_ofReal.comp_continuousOn ?_) continuous_quatOf.continuousOn
    refine ContinuousOn.div continuousOn_const (continuous_sqrt.comp continuous_sqNorm).continuousOn fun x hx => ?_
    have : 0 < sqNorm x := lt_of_le_of_ne (sqNorm_nonneg x) fun hc => hx (sqNorm_eq_zero.1 hc.symm)
    exact (sqrt_pos.2 this).ne'
  refine h.congr fun x hx => ?_
  exact dir_val fun hc => hx (sqNorm_eq_zero.1 hc)

/-! ### Left multiplication -/

/-- Left multiplication by a matrix of SU(2), on four numbers. -/
noncomputable def leftMul (g : Mat 2) : Quat4 →ₗ[ℝ] Quat4 where
  toFun x := coordsOf (g * quatOf x)
  map_add' x y := by
    simp only [coordsOf, quatOf, su2Matrix, Matrix.mul_apply, Fin.sum_univ_two, Prod.mk_add_mk, Prod.fst_add, Prod.snd_add]
    refine Prod.ext ?_ (Prod.ext ?_ (Prod.ext ?_ ?_)) <;> simp <;> ring
  map_smul' c x := by
    simp only [coordsOf, quatOf, su2Matrix, Matrix.mul_apply, Fin.sum_univ_two]
    refine Prod.ext ?_ (Prod.ext ?_ (Prod.ext ?_ ?_)) <;> simp <;> ring

theorem quatOf_leftMul (g : SU 2) (x : Quat4) : quatOf (leftMul g.1 x) = g.1 * quatOf x :=
  quatOf_coordsOf ((IsQuat.of_su2 g.2).1.mul (isQuat_quatOf x))

theorem sqNorm_leftMul (g : SU 2) (x : Quat4) : sqNorm (leftMul g.1 x) = sqNorm x := by
  rw [← quatNorm_quatOf, quatOf_leftMul, (IsQuat.of_su2 g.2).1.quatNorm_mul (isQuat_quatOf x), (IsQuat.of_su2 g.2).2, one_mul, quatNorm_quatOf]

theorem leftMul_inv (g : SU 2) (x : Quat4) : leftMul (g⁻¹).1 (leftMul g.1 x) = x := by
  change coordsOf ((g⁻¹).1 * quatOf (leftMul g.1 x)) = x
  rw [quatOf_leftMul, ← Matrix.mul_assoc]
  have : (g⁻¹).1 * g.1 = 1 := congrArg Subtype.val (inv_mul_cancel g)
  rw [this, Matrix.one_mul, coordsOf_quatOf]

theorem dir_leftMul (g : SU 2) (x : Quat4) (hx : x ≠ 0) : dir (leftMul g.1 x) = g * dir x := by
  have h : sqNorm x ≠ 0 := fun hc => hx (sqNorm_eq_zero.1 hc)
  have h' : sqNorm (leftMul g.1 x) ≠ 0 := by rwa [sqNorm_leftMul]
  refine Subtype.ext ?_
  rw [dir_val h', sqNorm_leftMul, quatOf_leftMul]
  change _ = g.1 * (dir x).1
  rw [dir_val h, Matrix.mul_smul]

/-- The unit ball. -/
def ball4 : Set Quat4 := {x | sqNorm x < 1}

theorem isOpen_ball4 : IsOpen ball4 := isOpen_lt continuous_sqNorm continuous_const

theorem ball4_ne_zero : volume ball4 ≠ 0 :=
  (isOpen_ball4.measure_pos volume ⟨0, by simp [ball4, sqNorm]⟩).ne'

theorem ball4_ne_top : volume ball4 ≠ ∞ := by
  refine ne_top_of_le_ne_top ?_ (measure_mono (μ := volume) (t := Icc (-1 : ℝ) 1 ×ˢ Icc (-1 : ℝ) 1 ×ˢ Icc (-1 : ℝ) 1 ×ˢ Icc (-1 : ℝ) 1) ?_)
  · refine (IsCompact.measure_lt_top ?_).ne
    exact isCompact_Icc.prod (isCompact_Icc.prod (isCompact_Icc.prod isCompact_Icc))
  · rintro ⟨a, b, c, d⟩ h
    have h : a ^ 2 + c ^ 2 + d ^ 2 + b ^ 2 < 1 := h
    have aux : ∀ x : ℝ, x ^ 2 < 1 → x ∈ Icc (-1 : ℝ) 1 := fun x hx => by
      rw [mem_Icc, ← abs_le]
      exact ((sq_lt_one_iff_abs_lt_one x).1 hx).le
    exact ⟨aux a (by nlinarith), aux b (by nlinarith), aux c (by nlinarith), aux d (by nlinarith)⟩

instance : (volume : Measure Quat4).IsAddHaarMeasure :=
  have h2 : ((volume : Measure ℝ).prod (volume : Measure ℝ)).IsAddHaarMeasure := Measure.prod.instIsAddHaarMeasure volume volume
  have h3 := Measure.prod.instIsAddHaarMeasure (volume : Measure ℝ) ((volume : Measure ℝ).prod (volume : Measure ℝ))
  Measure.prod.instIsAddHaarMeasure (volume : Measure ℝ) ((volume : Measure ℝ).prod ((volume : Measure ℝ).prod (volume : Measure ℝ)))

theorem leftMul_preserving (g : SU 2) : MeasurePreserving (leftMul g.1) (volume : Measure Quat4) volume := by
  have hc : ∀ h : SU 2, Continuous (leftMul h.1) := fun h => (leftMul h.1).continuous_of_finiteDimensional
  have hdet : LinearMap.det (leftMul g.1) ≠ 0 := by
    intro h0
    have h1 : leftMul (g⁻¹).1 ∘ₗ leftMul g.1 = LinearMap.id := LinearMap.ext fun x => leftMul_inv g x
    have h2 := congrArg LinearMap.det h1
    rw [LinearMap.det_comp, h0, mul_zero, LinearMap.det_id] at h2
    exact zero_ne_one h2
  have hm := Measure.map_linearMap_addHaar_eq_smul_addHaar (volume : Measure Quat4) hdet
  have hb : leftMul g.1 ⁻¹' ball4 = ball4 := by
    ext x
    change sqNorm (leftMul g.1 x) < 1 ↔ sqNorm x < 1
    rw [sqNorm_leftMul]
  have h3 := congrArg (fun m : Measure Quat4 => m ball4) hm
  rw [Measure.map_apply (hc g).measurable isOpen_ball4.measurableSet, hb, Measure.smul_apply, smul_eq_mul] at h3
  have h4 : ENNReal.ofReal |(LinearMap.det (leftMul g.1))⁻¹| = 1 := by
    have := ENNReal.mul_right_inj (a := volume ball4) ball4_ne_zero ball4_ne_top (b := ENNReal.ofReal |(LinearMap.det (leftMul g.1))⁻¹|) (c := 1)
    refine this.1 ?_
    rw [mul_one, mul_comm]
    exact h3.symm
  refine ⟨(hc g).measurable, ?_⟩
  rw [hm, h4, one_smul]

/-- The distribution of directions. -/
noncomputable def dirMeasure : Measure (SU 2) := (volume.restrict ball4).map dir

instance : IsFiniteMeasure (volume.restrict ball4 : Measure Quat4) := ⟨by
  rw [Measure.restrict_apply_univ]
  exact lt_top_iff_ne_top.2 ball4_ne_top⟩

instance : IsFiniteMeasure dirMeasure := by unfold dirMeasure; infer_instance

theorem dirMeasure_ne_zero : dirMeasure ≠ 0 := by
  intro h
  have h2 := congrArg (fun m : Measure (SU 2) => m univ) h
  simp only [dirMeasure, Measure.coe_zero, Pi.zero_apply] at h2
  rw [Measure.map_apply measurable_dir MeasurableSet.univ, preimage_univ, Measure.restrict_apply_univ] at h2
  exact ball4_ne_zero h2

instance : dirMeasure.IsMulLeftInvariant := ⟨fun g => by
  have h1 : MeasurePreserving (leftMul g.1) (volume.restrict ball4) (volume.restrict ball4) := by
    have hb : leftMul g.1 ⁻¹' ball4 = ball4 := by
      ext x
      change sqNorm (leftMul g.1 x) < 1 ↔ sqNorm x < 1
      rw [sqNorm_leftMul]
    have := (leftMul_preserving g).restrict_preimage isOpen_ball4.measurableSet
    rwa [hb] at this
  have h2 : (fun x => g * dir x) =ᵐ[volume.restrict ball4] fun x => dir (leftMul g.1 x) := by
    refine ae_restrict_of_ae ?_
    have : ∀ᵐ x : Quat4, x ≠ 0 := by
      rw [ae_iff]
      simp
    filter_upwards [this] with x hx
    exact (dir_leftMul g x hx).symm
  unfold dirMeasure
  rw [Measure.map_map (measurable_const_mul g) measurable_dir]
  change Measure.map (fun x => g * dir x) _ = _
  rw [Measure.map_congr h2]
  change Measure.map (dir ∘ leftMul g.1) _ = _
  rw [← Measure.map_map measurable_dir h1.measurable, h1.map_eq]⟩

/-- Every finite invariant measure of SU(2) is a multiple of the distribution of directions. -/
theorem haar_eq_dirMeasure (haar : Measure (SU 2)) [IsFiniteMeasure haar] [haar.IsMulLeftInvariant] :
    ∃ c : ℝ≥0∞, c ≠ ∞ ∧ haar = c • dirMeasure := by
  have hd : dirMeasure.IsHaarMeasure := by
    refine Measure.isHaarMeasure_of_isCompact_nonempty_interior dirMeasure univ isCompact_univ (by simp) ?_ (measure_ne_top _ _)
    exact fun h => dirMeasure_ne_zero (Measure.measure_univ_eq_zero.1 h)
  refine ⟨(Measure.haarScalarFactor haar dirMeasure : ℝ≥0∞), ENNReal.coe_ne_top, ?_⟩
  exact Measure.isMulInvariant_eq_smul_of_compactSpace haar dirMeasure

/-! ### Spherical coordinates -/

/-- The point of the sphere with first component `s`; `z` and `ξ` give the direction of the rest. -/
noncomputable def spherePoint (s z ξ : ℝ) : Quat4 :=
  (s, √(1 - s ^ 2) * z, √(1 - s ^ 2) * √(1 - z ^ 2) * cos (2 * π * ξ), √(1 - s ^ 2) * √(1 - z ^ 2) * sin (2 * π * ξ))

theorem sqNorm_spherePoint {s z : ℝ} (hs : s ∈ Icc (-1 : ℝ) 1) (hz : z ∈ Icc (-1 : ℝ) 1) (ξ : ℝ) : sqNorm (spherePoint s z ξ) = 1 := by
  have h1 : √(1 - s ^ 2) ^ 2 = 1 - s ^ 2 := sq_sqrt (by nlinarith [hs.1, hs.2])
  have h2 : √(1 - z ^ 2) ^ 2 = 1 - z ^ 2 := sq_sqrt (by nlinarith [hz.1, hz.2])
  have h3 := sin_sq_add_cos_sq (2 * π * ξ)
  simp only [sqNorm, spherePoint, mul_pow, h1, h2]
  linear_combination (1 - s ^ 2) * (1 - z ^ 2) * h3

theorem sqNorm_smul (R : ℝ) (x : Quat4) : sqNorm (R • x) = R ^ 2 * sqNorm x := by
  simp only [sqNorm, Prod.smul_fst, Prod.smul_snd, smul_eq_mul]
  ring

theorem dir_smul {R : ℝ} (hR : 0 < R) (x : Quat4) : dir (R • x) = dir x := by
  by_cases h : sqNorm x ≠ 0
  · have h' : sqNorm (R • x) ≠ 0 := by
      rw [sqNorm_smul]
      exact mul_ne_zero (pow_ne_zero _ hR.ne') h
    refine Subtype.ext ?_
    have hq : quatOf (R • x) = (R : ℂ) • quatOf x := by
      ext i j
      fin_cases i <;> fin_cases j <;> apply Complex.ext <;> simp [quatOf, su2Matrix]
    rw [dir_val h', dir_val h, hq, sqNorm_smul, sqrt_mul (sq_nonneg R), sqrt_sq hR.le, smul_smul]
    congr 1
    rw [← Complex.ofReal_mul]
    congr 1
    field_simp
  · have h0 := sqNorm_eq_zero.1 (not_not.1 h)
    rw [h0, smul_zero]

/-- Integrals over SU(2) in spherical coordinates. -/
theorem lintegral_su2 (haar : Measure (SU 2)) [IsFiniteMeasure haar] [haar.IsMulLeftInvariant] :
    ∃ c : ℝ≥0∞, c ≠ ∞ ∧ ∀ f : SU 2 → ℝ≥0∞, Measurable f → ∫⁻ g, f g ∂haar
      = c * ∫⁻ s in Ioo (-1 : ℝ) 1, ENNReal.ofReal (√(1 - s ^ 2)) * ∫⁻ z in Ioo (-1 : ℝ) 1, ∫⁻ ξ in Ico (0 : ℝ) 1, f (dir (spherePoint s z ξ)) := by
  obtain ⟨c, hct, hc⟩ := haar_eq_dirMeasure haar
  let K : ℝ≥0∞ := ∫⁻ R in Ioo (0 : ℝ) 1, ENNReal.ofReal (R ^ 2) * ENNReal.ofReal R
  have hK : K ≠ ∞ := by
    have hle : K ≤ ∫⁻ _ in Ioo (0 : ℝ) 1, 1 := by
      refine setLIntegral_mono measurable_const fun R hR => ?_
      rw [← ENNReal.ofReal_mul (by positivity), ← ENNReal.ofReal_one]
      refine ENNReal.ofReal_le_ofReal ?_
      have h0 := hR.1
      have h1 := hR.2
      have h2 : R ^ 2 ≤ 1 := by nlinarith
      nlinarith [sq_nonneg R]
    refine ne_top_of_le_ne_top ?_ hle
    rw [setLIntegral_const, Real.volume_Ioo]
    simp
  refine ⟨c * (K * ENNReal.ofReal (2 * π)), ENNReal.mul_ne_top hct (ENNReal.mul_ne_top hK ENNReal.ofReal_ne_top), fun f hf => ?_⟩
  rw [hc, lintegral_smul_measure, smul_eq_mul, mul_assoc]
  refine congrArg (fun y => c * y) ?_
  rw [dirMeasure, lintegral_map hf measurable_dir]
  have hF : Measurable (ball4.indicator fun x => f (dir x)) := (hf.comp measurable_dir).indicator isOpen_ball4.measurableSet
  rw [← lintegral_indicator isOpen_ball4.measurableSet, Measure.volume_eq_prod, lintegral_prod _ hF.aemeasurable]
  have e1 : ∀ x0 : ℝ, ∫⁻ y : ℝ × ℝ × ℝ, ball4.indicator (fun x => f (dir x)) (x0, y)
      = ∫⁻ x3 : ℝ, ∫⁻ p : ℝ × ℝ, ball4.indicator (fun x => f (dir x)) (x0, x3, p) := fun x0 => by
    rw [Measure.volume_eq_prod, lintegral_prod (fun y : ℝ × ℝ × ℝ => ball4.indicator (fun x => f (dir x)) (x0, y)) (hF.comp measurable_prodMk_left).aemeasurable]
  simp only [e1]
  rw [lintegral_spherical (fun x0 x3 p => ball4.indicator (fun x => f (dir x)) (x0, x3, p)) hF]
  have e2 : EqOn (fun R : ℝ => ENNReal.ofReal (R ^ 2) * ∫⁻ s in Ioo (-1 : ℝ) 1, ENNReal.ofReal (R * √(1 - s ^ 2)) *
      ∫⁻ z in Ioo (-1 : ℝ) 1, ENNReal.ofReal (2 * π) * ∫⁻ ξ in Ico (0 : ℝ) 1, ball4.indicator (fun x => f (dir x))
        (R * s, R * √(1 - s ^ 2) * z, R * √(1 - s ^ 2) * √(1 - z ^ 2) * cos (2 * π * ξ), R * √(1 - s ^ 2) * √(1 - z ^ 2) * sin (2 * π * ξ)))
      ((Ioo (0 : ℝ) 1).indicator fun R => (ENNReal.ofReal (R ^ 2) * ENNReal.ofReal R) * (ENNReal.ofReal (2 * π) *
        ∫⁻ s in Ioo (-1 : ℝ) 1, ENNReal.ofReal (√(1 - s ^ 2)) * ∫⁻ z in Ioo (-1 : ℝ) 1, ∫⁻ ξ in Ico (0 : ℝ) 1, f (dir (spherePoint s z ξ)))) (Ioi 0) := by
    intro R hR
    have hR : 0 < R := hR
    have e3 : ∀ s ∈ Ioo (-1 : ℝ) 1, ∀ z ∈ Ioo (-1 : ℝ) 1, ∀ ξ : ℝ, ball4.indicator (fun x => f (dir x))
        (R * s, R * √(1 - s ^ 2) * z, R * √(1 - s ^ 2) * √(1 - z ^ 2) * cos (2 * π * ξ), R * √(1 - s ^ 2) * √(1 - z ^ 2) * sin (2 * π * ξ))
        = if R < 1 then f (dir (spherePoint s z ξ)) else 0 := by
      intro s hs z hz ξ
      have e4 : (R * s, R * √(1 - s ^ 2) * z, R * √(1 - s ^ 2) * √(1 - z ^ 2) * cos (2 * π * ξ), R * √(1 - s ^ 2) * √(1 - z ^ 2) * sin (2 * π * ξ))
          = R • spherePoint s z ξ := by
        simp only [spherePoint, Prod.smul_mk, smul_eq_mul]
        refine Prod.ext rfl (Prod.ext ?_ (Prod.ext ?_ ?_)) <;> simp only <;> ring
      rw [e4]
      have hn : sqNorm (R • spherePoint s z ξ) = R ^ 2 := by
        rw [sqNorm_smul, sqNorm_spherePoint ⟨hs.1.le, hs.2.le⟩ ⟨hz.1.le, hz.2.le⟩, mul_one]
      by_cases h1 : R < 1
      · rw [if_pos h1, indicator_of_mem, dir_smul hR]
        change sqNorm _ < 1
        rw [hn]
        nlinarith
      · rw [if_neg h1, indicator_of_notMem]
        change ¬ sqNorm _ < 1
        rw [hn]
        nlinarith [not_lt.1 h1]
    simp only
    have e5 : ∫⁻ s in Ioo (-1 : ℝ) 1, ENNReal.ofReal (R * √(1 - s ^ 2)) *
        ∫⁻ z in Ioo (-1 : ℝ) 1, ENNReal.ofReal (2 * π) * ∫⁻ ξ in Ico (0 : ℝ) 1, ball4.indicator (fun x => f (dir x))
          (R * s, R * √(1 - s ^ 2) * z, R * √(1 - s ^ 2) * √(1 - z ^ 2) * cos (2 * π * ξ), R * √(1 - s ^ 2) * √(1 - z ^ 2) * sin (2 * π * ξ))
        = ∫⁻ s in Ioo (-1 : ℝ) 1, ENNReal.ofReal R * (ENNReal.ofReal (2 * π) * (ENNReal.ofReal (√(1 - s ^ 2)) *
          ∫⁻ z in Ioo (-1 : ℝ) 1, ∫⁻ ξ in Ico (0 : ℝ) 1, if R < 1 then f (dir (spherePoint s z ξ)) else 0)) := by
      refine setLIntegral_congr_fun measurableSet_Ioo fun s hs => ?_
      rw [ENNReal.ofReal_mul hR.le, mul_assoc]
      refine congrArg (fun y => ENNReal.ofReal R * y) ?_
      rw [mul_left_comm]
      refine congrArg (fun y => ENNReal.ofReal (√(1 - s ^ 2)) * y) ?_
      rw [← lintegral_const_mul' _ _ ENNReal.ofReal_ne_top]
      refine setLIntegral_congr_fun measurableSet_Ioo fun z hz => ?_
      simp only [e3 s hs z hz]
    rw [e5]
    by_cases h1 : R < 1
    · rw [indicator_of_mem (show R ∈ Ioo (0 : ℝ) 1 from ⟨hR, h1⟩)]
      simp only [if_pos h1]
      rw [lintegral_const_mul' _ _ ENNReal.ofReal_ne_top, lintegral_const_mul' _ _ ENNReal.ofReal_ne_top, mul_assoc]
    · rw [indicator_of_notMem (fun h => h1 h.2)]
      simp only [if_neg h1, lintegral_zero, mul_zero]
  rw [setLIntegral_congr_fun measurableSet_Ioi e2, setLIntegral_indicator measurableSet_Ioo,
    inter_eq_left.2 (Ioo_subset_Ioi_self : Ioo (0 : ℝ) 1 ⊆ Ioi 0), lintegral_mul_const _ (by fun_prop), mul_assoc]

end Leonard
