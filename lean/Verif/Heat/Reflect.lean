import Verif.Heat.OverModel
import Verif.Heat.Sweep
import Verif.Gauge.OverrelaxProps

/-!
Changes of one link that keep the Haar measure.
-/

set_option autoImplicit false

namespace Leonard

open MeasureTheory Set Real Matrix ComplexConjugate
open scoped ENNReal

variable {N : ℕ} {S : Type} [DecidableEq S]

/-- A map into the group is measurable when its entries are. -/
theorem measurable_su_of_entries {Ω : Type} [MeasurableSpace Ω] (f : Ω → SU N) (h : ∀ i j, Measurable fun ω => (f ω).1 i j) : Measurable f := by
  let val : SU N → Fin N → Fin N → ℂ := fun g => g.1
  have hb : (inferInstance : MeasurableSpace (SU N)) = MeasurableSpace.comap val inferInstance := by
    have h1 : (inferInstance : MeasurableSpace (Fin N → Fin N → ℂ)) = borel _ := BorelSpace.measurable_eq
    rw [h1]
    exact (borel_comap : @borel (SU N) (TopologicalSpace.induced val inferInstance) = _)
  have hv : Measurable (val ∘ f) := measurable_pi_lambda _ fun i => measurable_pi_lambda _ fun j => h i j
  intro s hs
  change MeasurableSet[(inferInstance : MeasurableSpace (SU N))] s at hs
  rw [hb] at hs
  obtain ⟨t, ht, rfl⟩ := hs
  exact hv ht

/-- A configuration with one link replaced. -/
def putLink (s : S) (μ : Fin 4) (g : SU N) (Q : LinkSU S N) : LinkSU S N := fun s' μ' => if s' = s ∧ μ' = μ then g else Q s' μ'

theorem putLink_same (s : S) (μ : Fin 4) (g : SU N) (Q : LinkSU S N) : putLink s μ g Q s μ = g := if_pos ⟨rfl, rfl⟩

theorem putLink_putLink (s : S) (μ : Fin 4) (g h : SU N) (Q : LinkSU S N) : putLink s μ g (putLink s μ h Q) = putLink s μ g Q := by
  funext s' μ'
  unfold putLink
  split <;> rfl

theorem putLink_self (s : S) (μ : Fin 4) (Q : LinkSU S N) : putLink s μ (Q s μ) Q = Q := by
  funext s' μ'
  unfold putLink
  split
  · rename_i h
    rw [h.1, h.2]
  · rfl

theorem linkMat_putLink (s : S) (μ : Fin 4) (g : SU N) (Q : LinkSU S N) : linkMat (putLink s μ g Q) = setLink (linkMat Q) s μ g.1 := by
  funext s' μ'
  unfold linkMat putLink setLink
  split <;> rfl

theorem mulLink_eq_putLink (s : S) (μ : Fin 4) (g : SU N) (Q : LinkSU S N) : mulLink s μ g Q = putLink s μ (g * Q s μ) Q := by
  funext s' μ'
  change (if s' = s ∧ μ' = μ then g else 1) * Q s' μ' = if s' = s ∧ μ' = μ then g * Q s μ else Q s' μ'
  split
  · rename_i h
    rw [h.1, h.2]
  · rw [one_mul]

theorem measurable_putLink (s : S) (μ : Fin 4) : Measurable fun z : SU N × LinkSU S N => putLink s μ z.1 z.2 := by
  refine measurable_pi_lambda _ fun s' => measurable_pi_lambda _ fun μ' => ?_
  unfold putLink
  split
  · exact measurable_fst
  · exact (measurable_pi_apply μ').comp ((measurable_pi_apply s').comp measurable_snd)

variable [Fintype S]

/-- Averaging over one link with the Haar measure does not change an integral. -/
theorem lintegral_putLink (haar : Measure (SU N)) [IsFiniteMeasure haar] [haar.IsMulLeftInvariant] (s : S) (μ : Fin 4) (F : LinkSU S N → ℝ≥0∞)
    (hF : Measurable F) : ∫⁻ Q, ∫⁻ g, F (putLink s μ g Q) ∂haar ∂linkMeasure S haar = (∫⁻ Q, F Q ∂linkMeasure S haar) * haar univ := by
  have hm : Measurable fun z : SU N × LinkSU S N => F (mulLink s μ z.1 z.2) := hF.comp (measurable_mulLink s μ)
  have h1 : ∫⁻ g, ∫⁻ Q, F (mulLink s μ g Q) ∂linkMeasure S haar ∂haar = (∫⁻ Q, F Q ∂linkMeasure S haar) * haar univ := by
    have e : ∀ g : SU N, ∫⁻ Q, F (mulLink s μ g Q) ∂linkMeasure S haar = ∫⁻ Q, F Q ∂linkMeasure S haar := fun g =>
      (measurePreserving_mul_left (linkMeasure S haar) (fun s' μ' => if s' = s ∧ μ' = μ then g else 1 : LinkSU S N)).lintegral_comp hF
    simp only [e, lintegral_const]
  rw [← h1, lintegral_lintegral_swap (f := fun g Q => F (mulLink s μ g Q)) hm.aemeasurable]
  refine lintegral_congr fun Q => ?_
  have hQ : Measurable fun g : SU N => F (putLink s μ g Q) := hF.comp ((measurable_putLink s μ).comp measurable_prodMk_right)
  rw [← lintegral_mul_right_of_finite haar (fun g => F (putLink s μ g Q)) hQ (Q s μ)]
  exact lintegral_congr fun g => by rw [mulLink_eq_putLink]

/-- A change of one link, determined by the other links, which keeps the Haar measure of the link, keeps the measure of the configurations. -/
theorem fibre_preserving (haar : Measure (SU N)) [IsFiniteMeasure haar] [haar.IsMulLeftInvariant] (s : S) (μ : Fin 4) (τ : LinkSU S N → SU N → SU N)
    (hτm : Measurable fun z : LinkSU S N × SU N => τ z.1 z.2) (hτi : ∀ Q g, τ (putLink s μ g Q) = τ Q)
    (hτ : ∀ Q (f : SU N → ℝ≥0∞), Measurable f → ∫⁻ g, f (τ Q g) ∂haar = ∫⁻ g, f g ∂haar) :
    MeasurePreserving (fun Q => putLink s μ (τ Q (Q s μ)) Q) (linkMeasure S haar) (linkMeasure S haar) := by
  have hev : Measurable fun Q : LinkSU S N => Q s μ := (measurable_pi_apply μ).comp (measurable_pi_apply s)
  have hTm : Measurable fun Q : LinkSU S N => putLink s μ (τ Q (Q s μ)) Q :=
    (measurable_putLink s μ).comp ((hτm.comp (measurable_id.prodMk hev)).prodMk measurable_id)
  by_cases h0 : haar univ = 0
  · have hz : linkMeasure S haar = 0 := by
      rw [← Measure.measure_univ_eq_zero]
      unfold linkMeasure
      rw [Measure.pi_univ]
      exact Finset.prod_eq_zero (Finset.mem_univ s) (by rw [Measure.pi_univ]; exact Finset.prod_eq_zero (Finset.mem_univ μ) h0)
    exact ⟨hTm, by rw [hz, Measure.map_zero]⟩
  refine ⟨hTm, Measure.ext_of_lintegral _ fun F hF => ?_⟩
  rw [lintegral_map hF hTm]
  have h1 := lintegral_putLink haar s μ (fun Q => F (putLink s μ (τ Q (Q s μ)) Q)) (hF.comp hTm)
  have h2 := lintegral_putLink haar s μ F hF
  have e : ∀ Q : LinkSU S N, ∫⁻ g, F (putLink s μ (τ (putLink s μ g Q) (putLink s μ g Q s μ)) (putLink s μ g Q)) ∂haar = ∫⁻ g, F (putLink s μ g Q) ∂haar := fun Q => by
    have hQ : Measurable fun g : SU N => F (putLink s μ g Q) := hF.comp ((measurable_putLink s μ).comp measurable_prodMk_right)
    rw [← hτ Q _ hQ]
    exact lintegral_congr fun g => by rw [putLink_putLink, hτi, putLink_same]
  simp only [e] at h1
  rw [h2] at h1
  exact ((ENNReal.mul_left_inj h0 (measure_ne_top _ _)).1 h1).symm

/-- The reflection `g ↦ A g⁻¹ A` keeps the Haar measure. -/
theorem lintegral_su_reflect (haar : Measure (SU N)) [IsFiniteMeasure haar] [haar.IsMulLeftInvariant] (A : SU N) (f : SU N → ℝ≥0∞) (hf : Measurable f) :
    ∫⁻ g, f (A * g⁻¹ * A) ∂haar = ∫⁻ g, f g ∂haar := by
  have h1 : Measurable fun g : SU N => f (A * g * A) := hf.comp ((measurable_const_mul A).mul_const A)
  have h2 : Measurable fun g : SU N => f (g * A) := hf.comp (measurable_id.mul_const A)
  rw [lintegral_inv_of_finite haar (fun g => f (A * g * A)) h1, lintegral_mul_left_eq_self (fun g => f (g * A)) A, lintegral_mul_right_of_finite haar f hf A]

end Leonard
