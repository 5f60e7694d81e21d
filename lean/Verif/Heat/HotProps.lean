import Verif.Heat.Hot
import Verif.Gauge.OverrelaxProps

/-!
# C66: the random start is uniform

Exact arithmetic, independent uniform numbers, two colours.
-/

set_option autoImplicit false

namespace Leonard

open MeasureTheory Set Real Matrix ComplexConjugate
open scoped ENNReal

variable {S : Type} [DecidableEq S]

/-- The link of the random start as an element of the group. -/
noncomputable def hotSU (ξ : ℝ × ℝ × ℝ) : SU 2 := ⟨hotLink2 ξ.1 ξ.2.1 ξ.2.2, C23_start.2.1 _ _ _⟩

theorem measurable_hotSU : Measurable hotSU := by
  refine measurable_su_of_entries _ fun i j => ?_
  unfold hotSU hotLink2
  have e : ∀ f g : ℝ × ℝ × ℝ → ℝ, Measurable f → Measurable g → Measurable fun z => (⟨f z, g z⟩ : ℂ) := fun f g hf hg => by
    have : (fun z => (⟨f z, g z⟩ : ℂ)) = fun z => (f z : ℂ) + (g z : ℂ) * Complex.I := by
      funext z
      apply Complex.ext <;> simp
    rw [this]
    exact (Complex.measurable_ofReal.comp hf).add ((Complex.measurable_ofReal.comp hg).mul_const _)
  have hphi : Measurable fun ξ : ℝ × ℝ × ℝ => arcsin (ξ.2.2 ^ (1 / 2 : ℝ)) := measurable_arcsin.comp (by fun_prop)
  have hc : Measurable fun ξ : ℝ × ℝ × ℝ => ((cos (arcsin (ξ.2.2 ^ (1 / 2 : ℝ))) : ℝ) : ℂ) := Complex.measurable_ofReal.comp (measurable_cos.comp hphi)
  have hs : Measurable fun ξ : ℝ × ℝ × ℝ => ((sin (arcsin (ξ.2.2 ^ (1 / 2 : ℝ))) : ℝ) : ℂ) := Complex.measurable_ofReal.comp (measurable_sin.comp hphi)
  fin_cases i <;> fin_cases j
  · exact hc.mul (e _ _ (by fun_prop) (by fun_prop))
  · exact (e _ _ (by fun_prop) (by fun_prop)).mul hs
  · exact ((e _ _ (by fun_prop) (by fun_prop)).mul hs).neg
  · exact hc.mul (e _ _ (by fun_prop) (by fun_prop))

/-- **C66, one link.** The matrix computed from three independent uniform numbers is uniformly distributed: its distribution is the probability measure
on SU(2) which no multiplication by a fixed element changes. -/
theorem C66_link (haar : Measure (SU 2)) [IsProbabilityMeasure haar] [haar.IsMulLeftInvariant] :
    ∃ link : ℝ × ℝ × ℝ → SU 2, (∀ ξ, reunit2 (hotLink2 ξ.1 ξ.2.1 ξ.2.2) = some (link ξ).1)
      ∧ Measurable link ∧ (unif.prod (unif.prod unif)).map link = haar := by
  refine ⟨hotSU, fun ξ => C25_two_colours_fixes _ (hotSU ξ).2, measurable_hotSU, ?_⟩
  refine Measure.ext_of_lintegral _ fun f hf => ?_
  rw [lintegral_map hf measurable_hotSU, lintegral_hot haar f hf, measure_univ, one_mul]
  have hm : Measurable fun ξ => f (hotSU ξ) := hf.comp measurable_hotSU
  rw [lintegral_prod _ hm.aemeasurable]
  refine lintegral_congr fun ξ1 => ?_
  rw [lintegral_prod (fun y : ℝ × ℝ => f (hotSU (ξ1, y))) (hm.comp measurable_prodMk_left).aemeasurable]
  refine lintegral_congr fun ξ2 => ?_
  refine setLIntegral_congr_fun measurableSet_Ico fun ξ3 h3 => ?_
  refine congrArg f (Subtype.ext ?_)
  exact hotLink2_eq (ξ1, ξ2, ξ3) h3

/-- **C66, the configuration.** The links of the random start, after the reunitarisation which ends it, are independent and uniformly distributed on
SU(2). -/
theorem C66_two_colours [Fintype S] (haar : Measure (SU 2)) [IsProbabilityMeasure haar] [haar.IsMulLeftInvariant] :
    ∃ start : (S → Fin 4 → ℝ × ℝ × ℝ) → LinkSU S 2,
      (∀ ξ s μ, reunit2 (hotLink2 (ξ s μ).1 (ξ s μ).2.1 (ξ s μ).2.2) = some (start ξ s μ).1)
      ∧ Measure.map start (Measure.pi fun _ => Measure.pi fun _ => unif.prod (unif.prod unif)) = linkMeasure S haar := by
  obtain ⟨link, h1, hm, h2⟩ := C66_link haar
  refine ⟨fun ξ s μ => link (ξ s μ), fun ξ s μ => h1 _, ?_⟩
  haveI : IsProbabilityMeasure ((unif.prod (unif.prod unif)).map link) := by rw [h2]; infer_instance
  have hin : (Measure.pi fun _ : Fin 4 => unif.prod (unif.prod unif)).map (fun (ξ : Fin 4 → ℝ × ℝ × ℝ) μ => link (ξ μ)) = Measure.pi fun _ => haar := by
    rw [Measure.pi_map_pi (fun _ => hm.aemeasurable)]
    simp only [h2]
  have hmi : Measurable fun (ξ : Fin 4 → ℝ × ℝ × ℝ) μ => link (ξ μ) := measurable_pi_lambda _ fun μ => hm.comp (measurable_pi_apply μ)
  haveI : IsProbabilityMeasure ((Measure.pi fun _ : Fin 4 => unif.prod (unif.prod unif)).map (fun (ξ : Fin 4 → ℝ × ℝ × ℝ) μ => link (ξ μ))) := by
    rw [hin]; infer_instance
  have hout := Measure.pi_map_pi (ι := S) (μ := fun _ => Measure.pi fun _ : Fin 4 => unif.prod (unif.prod unif))
    (f := fun _ (ξ : Fin 4 → ℝ × ℝ × ℝ) μ => link (ξ μ)) fun _ => hmi.aemeasurable
  rw [linkMeasure, ← hin]
  exact hout

/-- The hypothesis is met by the normalised Haar measure. -/
example : ∃ haar : Measure (SU 2), IsProbabilityMeasure haar ∧ haar.IsMulLeftInvariant := by
  refine ⟨(Measure.haar (univ : Set (SU 2)))⁻¹ • Measure.haar, ⟨?_⟩, inferInstance⟩
  rw [Measure.smul_apply, smul_eq_mul]
  exact ENNReal.inv_mul_cancel (NeZero.ne _) (measure_ne_top _ _)

end Leonard
