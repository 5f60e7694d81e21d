/-
Rotations of vectors of independent normal numbers.
-/
import Mathlib.Probability.Distributions.Gaussian.Multivariate
import Mathlib.Analysis.InnerProductSpace.PiL2

set_option autoImplicit false

namespace Leonard

open MeasureTheory ProbabilityTheory WithLp

theorem stdNormal_rotation {ι : Type} [Fintype ι] (f : (ι → ℝ) →ₗ[ℝ] (ι → ℝ)) (hf : ∀ x, ∑ i, f x i ^ 2 = ∑ i, x i ^ 2) :
    MeasurePreserving f (Measure.pi fun _ : ι => gaussianReal 0 1) (Measure.pi fun _ : ι => gaussianReal 0 1) := by
  classical
  let g : EuclideanSpace ℝ ι →ₗ[ℝ] EuclideanSpace ℝ ι :=
    (WithLp.linearEquiv 2 ℝ (ι → ℝ)).symm.toLinearMap ∘ₗ f ∘ₗ (WithLp.linearEquiv 2 ℝ (ι → ℝ)).toLinearMap
  have hg : ∀ x, ‖g x‖ = ‖x‖ := fun x => by
    rw [EuclideanSpace.norm_eq, EuclideanSpace.norm_eq]
    congr 1
    simp only [Real.norm_eq_abs, sq_abs]
    exact hf (ofLp x)
  let e : EuclideanSpace ℝ ι ≃ₗᵢ[ℝ] EuclideanSpace ℝ ι := (LinearIsometry.mk g hg).toLinearIsometryEquiv rfl
  have he : ∀ x, e (toLp 2 x) = toLp 2 (f x) := fun x => rfl
  have hfm : Measurable f := (LinearMap.continuous_of_finiteDimensional f).measurable
  refine ⟨hfm, ?_⟩
  have h1 := map_pi_eq_stdGaussian (ι := ι)
  have h2 := stdGaussian_map e
  have ht : Measurable (toLp 2 : (ι → ℝ) → EuclideanSpace ℝ ι) := by fun_prop
  have ho : Measurable (ofLp : EuclideanSpace ℝ ι → (ι → ℝ)) := by fun_prop
  have h3 : ((Measure.pi fun _ : ι => gaussianReal 0 1).map f).map (toLp 2) = stdGaussian (EuclideanSpace ℝ ι) := by
    rw [Measure.map_map ht hfm]
    conv_rhs => rw [← h2, ← h1, Measure.map_map e.continuous.measurable ht]
    rfl
  have h4 : ∀ μ : Measure (ι → ℝ), (μ.map (toLp 2)).map ofLp = μ := fun μ => by
    rw [Measure.map_map ho ht]
    exact Measure.map_id
  rw [← h4 ((Measure.pi fun _ : ι => gaussianReal 0 1).map f), h3, ← h1, h4]

theorem normal_rotation {ι : Type} [Fintype ι] (v : NNReal) (f : (ι → ℝ) →ₗ[ℝ] (ι → ℝ)) (hf : ∀ x, ∑ i, f x i ^ 2 = ∑ i, x i ^ 2) :
    MeasurePreserving f (Measure.pi fun _ : ι => gaussianReal 0 v) (Measure.pi fun _ : ι => gaussianReal 0 v) := by
  have hfm : Measurable f := (LinearMap.continuous_of_finiteDimensional f).measurable
  have hs : MeasurePreserving (fun x : ℝ => Real.sqrt v * x) (gaussianReal 0 1) (gaussianReal 0 v) := by
    refine ⟨by fun_prop, ?_⟩
    rw [gaussianReal_map_const_mul, mul_zero, mul_one]
    congr 1
    ext
    simp [Real.sq_sqrt]
  have hp : MeasurePreserving (fun (x : ι → ℝ) i => Real.sqrt v * x i) (Measure.pi fun _ : ι => gaussianReal 0 1)
      (Measure.pi fun _ : ι => gaussianReal 0 v) := measurePreserving_pi _ _ fun _ => hs
  have hr := stdNormal_rotation f hf
  refine ⟨hfm, ?_⟩
  conv_lhs => rw [← hp.map_eq]
  rw [Measure.map_map hfm hp.measurable]
  have hc : (f ∘ fun (x : ι → ℝ) i => Real.sqrt v * x i) = (fun (x : ι → ℝ) i => Real.sqrt v * x i) ∘ f := by
    funext x
    exact f.map_smul (Real.sqrt v) x
  rw [hc]
  exact (hp.comp hr).map_eq

end Leonard
