/-
Lemmas for the stationarity of the two-flavour update: Gaussian fermion fields, linear changes of variables, measurability.
-/
import Mathlib.MeasureTheory.Measure.Lebesgue.VolumeOfBalls
import Mathlib.RingTheory.Norm.Transitivity
import Mathlib.RingTheory.Complex
import Verif.Hmc.Stationary

set_option autoImplicit false

namespace Leonard

open Matrix MeasureTheory ProbabilityTheory
open scoped ENNReal

variable {κ : Type} [Fintype κ]

/-- The numbers drawn for a fermion field: `FermionHMCUpdater::generateGaussianDiracVector`, `FermionHMCUpdater.cpp:33-54`; the standard
deviation is `sqrt(0.5)` (line 9). -/
noncomputable def fermionDraws (κ : Type) [Fintype κ] : Measure (κ → ℝ × ℝ) := Measure.pi fun _ => (gaussianReal 0 (1 / 2)).prod (gaussianReal 0 (1 / 2))

instance : IsProbabilityMeasure (fermionDraws κ) := by unfold fermionDraws; infer_instance

/-- The fermion field with the real and imaginary parts drawn. -/
def fermionField (Y : κ → ℝ × ℝ) : κ → ℂ := fun k => ⟨(Y k).1, (Y k).2⟩

theorem fermionField_preserving : MeasurePreserving (fermionField (κ := κ)) volume volume :=
  volume_preserving_pi (f := fun _ p => Complex.measurableEquivRealProd.symm p) fun _ => Complex.volume_preserving_equiv_real_prod.symm

theorem fermionDraws_density : ∃ c : ℝ≥0∞, fermionDraws κ =
    (volume : Measure (κ → ℝ × ℝ)).withDensity fun Y => c * ENNReal.ofReal (Real.exp (-fermionNormSq (fermionField Y))) := by
  have h0 : gaussianReal 0 (1 / 2) = (volume : Measure ℝ).withDensity (gaussianPDF 0 (1 / 2)) := gaussianReal_of_var_ne_zero 0 (by norm_num)
  have m0 := measurable_gaussianPDF 0 (1 / 2)
  haveI i0 : SigmaFinite ((volume : Measure ℝ).withDensity (gaussianPDF 0 (1 / 2))) := by rw [← h0]; infer_instance
  have h1 : (gaussianReal 0 (1 / 2)).prod (gaussianReal 0 (1 / 2)) =
      (volume : Measure (ℝ × ℝ)).withDensity fun p => gaussianPDF 0 (1 / 2) p.1 * gaussianPDF 0 (1 / 2) p.2 := by
    rw [h0]; exact prod_withDensity m0 m0
  have m1 : Measurable fun p : ℝ × ℝ => gaussianPDF 0 (1 / 2) p.1 * gaussianPDF 0 (1 / 2) p.2 := (m0.comp measurable_fst).mul (m0.comp measurable_snd)
  haveI i1 : SigmaFinite ((volume : Measure (ℝ × ℝ)).withDensity fun p => gaussianPDF 0 (1 / 2) p.1 * gaussianPDF 0 (1 / 2) p.2) := by
    rw [← h1]; infer_instance
  have h2 : fermionDraws κ = (volume : Measure (κ → ℝ × ℝ)).withDensity
      fun Y => ∏ k, (gaussianPDF 0 (1 / 2) (Y k).1 * gaussianPDF 0 (1 / 2) (Y k).2) := by
    unfold fermionDraws
    rw [h1]; exact pi_withDensity volume _ m1
  have h : ∀ x : ℝ, gaussianPDF 0 (1 / 2) x = ENNReal.ofReal (Real.sqrt Real.pi)⁻¹ * ENNReal.ofReal (Real.exp (-(x ^ 2))) := by
    intro x
    unfold gaussianPDF gaussianPDFReal
    rw [ENNReal.ofReal_mul (by positivity)]
    congr 2
    · congr 2
      push_cast
      ring
    · congr 1
      push_cast
      ring
  generalize ENNReal.ofReal (Real.sqrt Real.pi)⁻¹ = c0 at h
  refine ⟨(c0 * c0) ^ Fintype.card κ, ?_⟩
  rw [h2]
  congr 1
  funext Y
  have h3 : ∀ x y : ℝ, gaussianPDF 0 (1 / 2) x * gaussianPDF 0 (1 / 2) y = (c0 * c0) * ENNReal.ofReal (Real.exp (-(x * x + y * y))) := by
    intro x y
    have : ENNReal.ofReal (Real.exp (-(x * x + y * y))) = ENNReal.ofReal (Real.exp (-(x ^ 2))) * ENNReal.ofReal (Real.exp (-(y ^ 2))) := by
      rw [← ENNReal.ofReal_mul (Real.exp_pos _).le, ← Real.exp_add]
      congr 2; ring
    rw [h, h, this]
    ring
  simp_rw [h3, prod_exp, Finset.sum_neg_distrib]
  rfl

theorem fermionNormSq_measurable : Measurable (fermionNormSq (κ := κ)) := by
  unfold fermionNormSq
  exact Finset.measurable_fun_sum _ fun k _ => Complex.continuous_normSq.measurable.comp (measurable_pi_apply k)

/-- Expectation values over Gaussian fermion fields. -/
theorem fermionDraws_integral : ∃ c : ℝ≥0∞, ∀ g : (κ → ℂ) → ℝ≥0∞, Measurable g →
    ∫⁻ Y, g (fermionField Y) ∂fermionDraws κ = c * ∫⁻ η : κ → ℂ, g η * ENNReal.ofReal (Real.exp (-fermionNormSq η)) := by
  obtain ⟨c, hc⟩ := fermionDraws_density (κ := κ)
  refine ⟨c, fun g hg => ?_⟩
  have hw : Measurable fun η : κ → ℂ => ENNReal.ofReal (Real.exp (-fermionNormSq η)) :=
    (Real.measurable_exp.comp fermionNormSq_measurable.neg).ennreal_ofReal
  have hY := (fermionField_preserving (κ := κ)).measurable
  have hgw : Measurable fun η => g η * ENNReal.ofReal (Real.exp (-fermionNormSq η)) := hg.mul hw
  have hwY : Measurable fun Y : κ → ℝ × ℝ => c * ENNReal.ofReal (Real.exp (-fermionNormSq (fermionField Y))) := (hw.comp hY).const_mul c
  have hgY : Measurable fun Y : κ → ℝ × ℝ => g (fermionField Y) := hg.comp hY
  have hgwY : Measurable fun Y : κ → ℝ × ℝ => g (fermionField Y) * ENNReal.ofReal (Real.exp (-fermionNormSq (fermionField Y))) := hgw.comp hY
  rw [hc, lintegral_withDensity_eq_lintegral_mul _ hwY hgY, ← (fermionField_preserving (κ := κ)).lintegral_comp hgw,
    ← lintegral_const_mul c hgwY]
  refine lintegral_congr fun Y => ?_
  change c * _ * g _ = c * (g _ * _)
  ring

/-- Change of variables by a complex matrix. -/
theorem lintegral_matrix [DecidableEq κ] (M : Matrix κ κ ℂ) (hM : M.det ≠ 0) (h : (κ → ℂ) → ℝ≥0∞) (hh : Measurable h) :
    ENNReal.ofReal (Complex.normSq M.det) * ∫⁻ η : κ → ℂ, h (M *ᵥ η) = ∫⁻ φ : κ → ℂ, h φ := by
  let f : (κ → ℂ) →ₗ[ℝ] (κ → ℂ) := (Matrix.toLin' M).restrictScalars ℝ
  have hdet : LinearMap.det f = Complex.normSq M.det := by
    rw [LinearMap.det_restrictScalars, LinearMap.det_toLin']
    exact Algebra.norm_complex_apply _
  have hpos : 0 < Complex.normSq M.det := Complex.normSq_pos.mpr hM
  have hmap := Measure.map_linearMap_addHaar_eq_smul_addHaar (volume : Measure (κ → ℂ)) (f := f) (by rw [hdet]; exact hpos.ne')
  have hfm : Measurable f := f.continuous_of_finiteDimensional.measurable
  have : ∫⁻ η : κ → ℂ, h (M *ᵥ η) = ∫⁻ φ, h φ ∂(volume.map f) := (lintegral_map hh hfm).symm
  rw [this, hmap, hdet, lintegral_smul_measure, smul_eq_mul, ← mul_assoc, ← ENNReal.ofReal_mul hpos.le, abs_of_pos (inv_pos.mpr hpos),
    mul_inv_cancel₀ hpos.ne', ENNReal.ofReal_one, one_mul]

/-- The fermion determinant is what the Gaussian fields produce. -/
theorem pseudofermion_integral [DecidableEq κ] : ∃ c : ℝ≥0∞, ∀ (M : Matrix κ κ ℂ) (_ : M.det ≠ 0) (g : (κ → ℂ) → ℝ≥0∞) (_ : Measurable g),
    (∫⁻ Y, g (M *ᵥ fermionField Y) ∂fermionDraws κ) * ENNReal.ofReal (Complex.normSq M.det) =
      c * ∫⁻ φ : κ → ℂ, g φ * ENNReal.ofReal (Real.exp (-fermionNormSq (M⁻¹ *ᵥ φ))) := by
  obtain ⟨c, hc⟩ := fermionDraws_integral (κ := κ)
  refine ⟨c, fun M hM g hg => ?_⟩
  have hmM : ∀ A : Matrix κ κ ℂ, Measurable fun η : κ → ℂ => A *ᵥ η := fun A =>
    (Matrix.toLin' A).continuous_of_finiteDimensional.measurable
  have hw : Measurable fun φ : κ → ℂ => ENNReal.ofReal (Real.exp (-fermionNormSq (M⁻¹ *ᵥ φ))) :=
    (Real.measurable_exp.comp (fermionNormSq_measurable.comp (hmM M⁻¹)).neg).ennreal_ofReal
  have hgw : Measurable fun φ => g φ * ENNReal.ofReal (Real.exp (-fermionNormSq (M⁻¹ *ᵥ φ))) := hg.mul hw
  rw [hc (fun η => g (M *ᵥ η)) (hg.comp (hmM M)), ← lintegral_matrix M hM _ hgw]
  have : ∀ η : κ → ℂ, (M⁻¹ *ᵥ (M *ᵥ η)) = η := fun η => by
    rw [Matrix.mulVec_mulVec, Matrix.nonsing_inv_mul M (Ne.isUnit hM), Matrix.one_mulVec]
  simp only [this]
  ring

/-! ### Measurability in the pseudofermion field -/

variable {N : ℕ} {S ι : Type} [Fintype S]

theorem param_mul {Ω Γ V : Type} [MeasurableSpace Ω] [Mul Γ] [MeasurableSpace Γ] [MeasurableMul₂ Γ] [MeasurableSpace V] (g : V → Γ) (hg : Measurable g) :
    Measurable fun p : Ω × (Γ × V) => (g p.2.2 * p.2.1, p.2.2) :=
  ((hg.comp (measurable_snd.comp measurable_snd)).mul (measurable_fst.comp measurable_snd)).prodMk (measurable_snd.comp measurable_snd)

theorem param_sub {Ω Γ V : Type} [MeasurableSpace Ω] [MeasurableSpace Γ] [Sub V] [MeasurableSpace V] [MeasurableSub₂ V] (g : Ω × Γ → V)
    (hg : Measurable g) : Measurable fun p : Ω × (Γ × V) => (p.2.1, p.2.2 - g (p.1, p.2.1)) :=
  have hp : Measurable fun p : Ω × (Γ × V) => (p.1, p.2.1) := measurable_fst.prodMk (measurable_fst.comp measurable_snd)
  (measurable_fst.comp measurable_snd).prodMk ((measurable_snd.comp measurable_snd).sub (hg.comp hp))

theorem phaseStep_param {Ω : Type} [MeasurableSpace Ω] (F : Ω → ι → GField S N → GField S N)
    (hF : ∀ i s μ k l, Measurable fun p : Ω × LinkSU S N => F p.1 i (linkMat p.2) s μ k l) (o : MdOp ι) :
    Measurable fun p : Ω × (LinkSU S N × Draws S N) => phaseStep (F p.1) o p.2 := by
  cases o with
  | link ε =>
    have hg : Measurable fun X : Draws S N => (fun s μ => expSU ε (X s μ) : LinkSU S N) :=
      measurable_pi_lambda _ fun s => measurable_pi_lambda _ fun ν =>
        (continuous_expSU ε).measurable.comp ((measurable_pi_apply ν).comp (measurable_pi_apply s))
    exact param_mul _ hg
  | mom i ε =>
    have hg : Measurable fun p : Ω × LinkSU S N => (fun s μ => ε • momentumCoords (F p.1 i (linkMat p.2) s μ) : Draws S N) :=
      measurable_pi_lambda _ fun s => measurable_pi_lambda _ fun ν => (measurable_coords _ (hF i s ν)).const_smul ε
    exact param_sub _ hg

theorem phaseRun_param {Ω : Type} [MeasurableSpace Ω] (F : Ω → ι → GField S N → GField S N)
    (hF : ∀ i s μ k l, Measurable fun p : Ω × LinkSU S N => F p.1 i (linkMat p.2) s μ k l) (l : List (MdOp ι)) :
    Measurable fun p : Ω × (LinkSU S N × Draws S N) => phaseRun (F p.1) l p.2 := by
  induction l with
  | nil => exact measurable_snd
  | cons o l ih => exact ih.comp (measurable_fst.prodMk (phaseStep_param F hF o))

/-- The expectation value over the momenta and the accept/reject step is measurable in the parameter and the links. -/
theorem hmcSweep_param {Ω : Type} [MeasurableSpace Ω] (F : Ω → ι → GField S N → GField S N)
    (hF : ∀ i s μ k l, Measurable fun p : Ω × LinkSU S N => F p.1 i (linkMat p.2) s μ k l) (l : List (MdOp ι)) (energy : Ω → LinkSU S N → ℝ)
    (hE : Measurable fun p : Ω × LinkSU S N => energy p.1 p.2) (f : LinkSU S N → ℝ≥0∞) (hf : Measurable f) :
    Measurable fun p : Ω × LinkSU S N => ∫⁻ X, (∫⁻ u in Set.Ico (0 : ℝ) 1, f (hmcSweep (F p.1) l (energy p.1) p.2 X u)) ∂gaussianDraws S N := by
  simp_rw [hmcSweep_integral]
  have hrun := phaseRun_param F hF l
  have hH : Measurable fun p : Ω × (LinkSU S N × Draws S N) => hmcEnergy (energy p.1) p.2 :=
    (measurable_momentaEnergy.comp (measurable_snd.comp measurable_snd)).add (hE.comp (measurable_fst.prodMk (measurable_fst.comp measurable_snd)))
  have hA : Measurable fun p : Ω × (LinkSU S N × Draws S N) => hmcAccept (F p.1) l (energy p.1) p.2 :=
    (measurable_const.min (Real.measurable_exp.comp ((hH.comp (measurable_fst.prodMk hrun)).sub hH).neg)).ennreal_ofReal
  have hI : Measurable fun p : Ω × (LinkSU S N × Draws S N) => hmcAccept (F p.1) l (energy p.1) p.2 * f (phaseRun (F p.1) l p.2).1 +
      (1 - hmcAccept (F p.1) l (energy p.1) p.2) * f p.2.1 :=
    (hA.mul (hf.comp (measurable_fst.comp hrun))).add ((measurable_const.sub hA).mul (hf.comp (measurable_fst.comp measurable_snd)))
  have hs : Measurable fun q : (Ω × LinkSU S N) × Draws S N => (q.1.1, (q.1.2, q.2)) :=
    (measurable_fst.comp measurable_fst).prodMk ((measurable_snd.comp measurable_fst).prodMk measurable_snd)
  exact (hI.comp hs).lintegral_prod_right'

end Leonard
