/-
Lemmas for the stationarity of the hybrid Monte Carlo update: the density of the momenta, the accept/reject step on a general space.
-/
import Mathlib.Probability.Distributions.Gaussian.Real
import Verif.Hmc.Measure

set_option autoImplicit false

namespace Leonard

open Matrix MeasureTheory ProbabilityTheory
open scoped ENNReal

/-! ### Densities of product measures -/

theorem lintegral_fin_prod {E : Type} [MeasurableSpace E] (n : ℕ) (μ : Fin n → Measure E) [∀ i, SigmaFinite (μ i)] (f : Fin n → E → ℝ≥0∞)
    (hf : ∀ i, Measurable (f i)) : ∫⁻ x, ∏ i, f i (x i) ∂(Measure.pi μ) = ∏ i, ∫⁻ x, f i x ∂(μ i) := by
  induction n with
  | zero => simp
  | succ n ih =>
    rw [← ((measurePreserving_piFinSuccAbove μ 0).symm).lintegral_comp_emb (MeasurableEquiv.measurableEmbedding _)]
    simp_rw [MeasurableEquiv.piFinSuccAbove_symm_apply, Fin.insertNthEquiv,
            Fin.prod_univ_succ, Fin.insertNth_zero, Equiv.coe_fn_mk, Fin.cons_succ,
            Fin.zero_succAbove, cast_eq, Fin.cons_zero]
    have hm : Measurable fun x : Fin n → E => ∏ i : Fin n, f i.succ (x i) :=
      Finset.measurable_fun_prod _ fun i _ => (hf i.succ).comp (measurable_pi_apply i)
    rw [lintegral_prod_mul (μ := μ 0) (ν := Measure.pi fun i : Fin n => μ i.succ) (f := f 0) (g := fun x => ∏ i : Fin n, f i.succ (x i))
      (hf 0).aemeasurable hm.aemeasurable, ih (fun i => μ i.succ) (fun i => f i.succ) fun i => hf i.succ]

theorem lintegral_pi_prod {κ E : Type} [Fintype κ] [MeasurableSpace E] (μ : κ → Measure E) [∀ i, SigmaFinite (μ i)] (f : κ → E → ℝ≥0∞)
    (hf : ∀ i, Measurable (f i)) : ∫⁻ x, ∏ i, f i (x i) ∂(Measure.pi μ) = ∏ i, ∫⁻ x, f i x ∂(μ i) := by
  let e := (Fintype.equivFin κ).symm
  rw [← (measurePreserving_piCongrLeft μ e).lintegral_comp_emb (MeasurableEquiv.measurableEmbedding _)]
  simp_rw [← e.prod_comp, MeasurableEquiv.coe_piCongrLeft]
  have : ∀ (a : Fin (Fintype.card κ) → E) i, (Equiv.piCongrLeft (fun _ => E) e) a (e i) = a i := fun a i => Equiv.piCongrLeft_apply_apply (fun _ => E) e a i
  simp_rw [this]
  exact lintegral_fin_prod _ (fun i => μ (e i)) (fun i => f (e i)) fun i => hf (e i)

theorem pi_withDensity {κ E : Type} [Fintype κ] [MeasurableSpace E] (μ : Measure E) [SigmaFinite μ] (f : E → ℝ≥0∞) (hf : Measurable f)
    [SigmaFinite (μ.withDensity f)] :
    (Measure.pi fun _ : κ => μ.withDensity f) = (Measure.pi fun _ : κ => μ).withDensity fun x => ∏ i, f (x i) := by
  refine Measure.pi_eq fun s hs => ?_
  rw [withDensity_apply _ (MeasurableSet.univ_pi hs), Measure.restrict_pi_pi]
  rw [lintegral_pi_prod (fun i => μ.restrict (s i)) (fun _ => f) fun _ => hf]
  exact Finset.prod_congr rfl fun i _ => (withDensity_apply _ (hs i)).symm

variable {N : ℕ} {S : Type} [Fintype S]

/-- Independent standard normal numbers for all positions of all links. -/
noncomputable def gaussianDraws (S : Type) [Fintype S] (N : ℕ) : Measure (Draws S N) :=
  Measure.pi fun _ => Measure.pi fun _ => Measure.pi fun _ => gaussianReal 0 1

instance : IsProbabilityMeasure (gaussianDraws S N) := by unfold gaussianDraws; infer_instance

theorem gaussianDraws_density : gaussianDraws S N =
    (volume : Measure (Draws S N)).withDensity fun X => ∏ s, ∏ μ, ∏ p, gaussianPDF 0 1 (X s μ p) := by
  unfold gaussianDraws
  have h0 : gaussianReal 0 1 = (volume : Measure ℝ).withDensity (gaussianPDF 0 1) := gaussianReal_of_var_ne_zero 0 one_ne_zero
  have m0 := measurable_gaussianPDF 0 1
  haveI i0 : SigmaFinite ((volume : Measure ℝ).withDensity (gaussianPDF 0 1)) := by rw [← h0]; infer_instance
  have h1 : (Measure.pi fun _ : DrawIndex N => gaussianReal 0 1) = volume.withDensity fun x => ∏ p, gaussianPDF 0 1 (x p) := by
    rw [h0]; exact pi_withDensity volume _ m0
  have m1 : Measurable fun x : DrawIndex N → ℝ => ∏ p, gaussianPDF 0 1 (x p) :=
    Finset.measurable_fun_prod _ fun p _ => m0.comp (measurable_pi_apply p)
  haveI i1 : SigmaFinite ((volume : Measure (DrawIndex N → ℝ)).withDensity fun x => ∏ p, gaussianPDF 0 1 (x p)) := by rw [← h1]; infer_instance
  have h2 : (Measure.pi fun _ : Fin 4 => Measure.pi fun _ : DrawIndex N => gaussianReal 0 1) =
      volume.withDensity fun x => ∏ μ, ∏ p, gaussianPDF 0 1 (x μ p) := by
    rw [h1]; exact pi_withDensity volume _ m1
  have m2 : Measurable fun x : Fin 4 → DrawIndex N → ℝ => ∏ μ, ∏ p, gaussianPDF 0 1 (x μ p) :=
    Finset.measurable_fun_prod _ fun p _ => m1.comp (measurable_pi_apply p)
  haveI i2 : SigmaFinite ((volume : Measure (Fin 4 → DrawIndex N → ℝ)).withDensity fun x => ∏ μ, ∏ p, gaussianPDF 0 1 (x μ p)) := by
    rw [← h2]; infer_instance
  rw [h2]; exact pi_withDensity volume _ m2

theorem prod_exp {κ : Type} [Fintype κ] (c : ℝ≥0∞) (f : κ → ℝ) :
    ∏ i, (c * ENNReal.ofReal (Real.exp (f i))) = c ^ Fintype.card κ * ENNReal.ofReal (Real.exp (∑ i, f i)) := by
  rw [Finset.prod_mul_distrib, Finset.prod_const, Finset.card_univ, Real.exp_sum, ENNReal.ofReal_prod_of_nonneg fun i _ => (Real.exp_pos _).le]

/-- The density of the momenta is `exp` of minus their kinetic energy, up to a finite factor. -/
theorem gaussianDraws_energy : ∃ c : ℝ≥0∞, gaussianDraws S N =
    (volume : Measure (Draws S N)).withDensity fun X => c * ENNReal.ofReal (Real.exp (-momentaEnergy (momMat X))) := by
  have h : ∀ x : ℝ, gaussianPDF 0 1 x = ENNReal.ofReal (Real.sqrt (2 * Real.pi))⁻¹ * ENNReal.ofReal (Real.exp (-(x ^ 2 / 2))) := by
    intro x
    unfold gaussianPDF gaussianPDFReal
    rw [ENNReal.ofReal_mul (by positivity)]
    congr 2
    · simp
    · simp [neg_div]
  have hE : ∀ X : Draws S N, momentaEnergy (momMat X) = ∑ s, ∑ μ, ∑ p, X s μ p ^ 2 / 2 := by
    intro X
    unfold momentaEnergy momMat
    refine Finset.sum_congr rfl fun s _ => Finset.sum_congr rfl fun μ _ => ?_
    rw [C45_energy, Finset.sum_div]
  generalize ENNReal.ofReal (Real.sqrt (2 * Real.pi))⁻¹ = c0 at h
  refine ⟨((c0 ^ Fintype.card (DrawIndex N)) ^ Fintype.card (Fin 4)) ^ Fintype.card S, ?_⟩
  rw [gaussianDraws_density]
  congr 1
  funext X
  simp_rw [h, prod_exp, hE, ← Finset.sum_neg_distrib]

/-! ### Accept/reject on a general space -/

/-- For an involution that preserves the measure, accepting the image with probability `min(1, exp(H(z) - H(T z)))` preserves the
measure with density `exp(-H)`. -/
theorem metropolis_stationary {Z : Type} [MeasurableSpace Z] (ν : Measure Z) (T : Z → Z) (hT : MeasurePreserving T ν ν) (hTT : ∀ z, T (T z) = z)
    (H : Z → ℝ) (hH : Measurable H) (f : Z → ℝ≥0∞) (hf : Measurable f) :
    ∫⁻ z, (ENNReal.ofReal (min 1 (Real.exp (-(H (T z) - H z)))) * f (T z) + (1 - ENNReal.ofReal (min 1 (Real.exp (-(H (T z) - H z))))) * f z) *
        ENNReal.ofReal (Real.exp (-H z)) ∂ν = ∫⁻ z, f z * ENNReal.ofReal (Real.exp (-H z)) ∂ν := by
  let A : Z → ℝ≥0∞ := fun z => ENNReal.ofReal (min 1 (Real.exp (-(H (T z) - H z))))
  let w : Z → ℝ≥0∞ := fun z => ENNReal.ofReal (Real.exp (-H z))
  let m : Z → ℝ≥0∞ := fun z => min (w z) (w (T z))
  have hA1 : ∀ z, A z ≤ 1 := fun z => ENNReal.ofReal_le_one.mpr (min_le_left _ _)
  have hAw : ∀ z, A z * w z = m z := by
    intro z
    change ENNReal.ofReal _ * ENNReal.ofReal _ = min (ENNReal.ofReal _) (ENNReal.ofReal _)
    rw [← ENNReal.ofReal_mul (le_min zero_le_one (Real.exp_pos _).le), min_mul_of_nonneg _ _ (Real.exp_pos _).le, one_mul, ← Real.exp_add,
      (ENNReal.ofReal_mono).map_min]
    congr 3
    ring
  have hmT : ∀ z, m (T z) = m z := fun z => by
    change min _ (w (T (T z))) = min _ _
    rw [hTT, min_comm]
  have hw : Measurable w := (Real.measurable_exp.comp hH.neg).ennreal_ofReal
  have hm : Measurable m := hw.min (hw.comp hT.measurable)
  have hAm : Measurable A := (measurable_const.min (Real.measurable_exp.comp ((hH.comp hT.measurable).sub hH).neg)).ennreal_ofReal
  have e1 : ∀ z, (A z * f (T z) + (1 - A z) * f z) * w z = m (T z) * f (T z) + (1 - A z) * f z * w z := by
    intro z
    rw [add_mul, hmT, ← hAw]
    ring
  have e2 : ∀ z, m z * f z + (1 - A z) * f z * w z = f z * w z := by
    intro z
    rw [← hAw]
    calc A z * w z * f z + (1 - A z) * f z * w z = (A z + (1 - A z)) * (f z * w z) := by ring
      _ = f z * w z := by rw [add_tsub_cancel_of_le (hA1 z), one_mul]
  calc ∫⁻ z, (A z * f (T z) + (1 - A z) * f z) * w z ∂ν = ∫⁻ z, m (T z) * f (T z) + (1 - A z) * f z * w z ∂ν := lintegral_congr e1
    _ = ∫⁻ z, m (T z) * f (T z) ∂ν + ∫⁻ z, (1 - A z) * f z * w z ∂ν :=
      lintegral_add_left ((hm.comp hT.measurable).mul (hf.comp hT.measurable)) _
    _ = ∫⁻ z, m z * f z ∂ν + ∫⁻ z, (1 - A z) * f z * w z ∂ν := by
      rw [hT.lintegral_comp (f := fun z => m z * f z) (hm.mul hf)]
    _ = ∫⁻ z, m z * f z + (1 - A z) * f z * w z ∂ν := (lintegral_add_left (hm.mul hf) _).symm
    _ = ∫⁻ z, f z * w z ∂ν := lintegral_congr e2

/-! ### Hybrid Monte Carlo in phase space -/

/-- For a random number uniform in `[0,1)` the proposal is accepted with probability `min(1, exp(-ΔH))`. -/
theorem accept_probability (a b : ℝ) :
    (volume.restrict (Set.Ico (0 : ℝ) 1)) {u | metropolisLocal (some a) (some b) u = true} = ENNReal.ofReal (min 1 (Real.exp (-(b - a)))) := by
  have hset : {u | metropolisLocal (some a) (some b) u = true} ∩ Set.Ico (0 : ℝ) 1 = Set.Ico 0 (min 1 (Real.exp (-(b - a)))) := by
    ext u
    simp only [metropolisLocal, Set.mem_inter_iff, Set.mem_setOf_eq, Set.mem_Ico, lt_min_iff]
    by_cases h : b - a < 0
    · have h1 : 1 < Real.exp (-(b - a)) := Real.one_lt_exp_iff.mpr (by linarith)
      rw [if_pos h]
      constructor
      · rintro ⟨-, h2, h3⟩; exact ⟨h2, h3, h3.trans h1⟩
      · rintro ⟨h2, h3, -⟩; exact ⟨rfl, h2, h3⟩
    · rw [if_neg h]
      by_cases h2 : u < Real.exp (-(b - a))
      · rw [if_pos h2]; exact ⟨fun h => ⟨h.2.1, h.2.2, h2⟩, fun h => ⟨rfl, h.1, h.2.1⟩⟩
      · rw [if_neg h2]; exact ⟨fun h => absurd h.1 Bool.false_ne_true, fun h => absurd h.2.2 h2⟩
  rw [Measure.restrict_apply' measurableSet_Ico, hset, Real.volume_Ico, sub_zero]

/-- The integral over the random number of the accept/reject step. -/
theorem lintegral_accept (a b : ℝ) (x y : ℝ≥0∞) :
    ∫⁻ u in Set.Ico (0 : ℝ) 1, (if metropolisLocal (some a) (some b) u = true then x else y) =
      ENNReal.ofReal (min 1 (Real.exp (-(b - a)))) * x + (1 - ENNReal.ofReal (min 1 (Real.exp (-(b - a))))) * y := by
  have hm : MeasurableSet {u | metropolisLocal (some a) (some b) u = true} := by
    have : {u | metropolisLocal (some a) (some b) u = true} = {u : ℝ | b - a < 0 ∨ u < Real.exp (-(b - a))} := by
      ext u
      simp only [metropolisLocal, Set.mem_setOf_eq]
      by_cases h : b - a < 0
      · simp [h]
      · simp [h]
    rw [this]
    by_cases h : b - a < 0
    · simp [h]
    · simp only [h, false_or]; exact measurableSet_Iio
  have e : ∀ u, (if metropolisLocal (some a) (some b) u = true then x else y) =
      Set.indicator {u | metropolisLocal (some a) (some b) u = true} (fun _ => x) u +
      Set.indicator {u | metropolisLocal (some a) (some b) u = true}ᶜ (fun _ => y) u := by
    intro u
    by_cases h : metropolisLocal (some a) (some b) u = true
    · simp [Set.indicator, h]
    · simp [Set.indicator, h]
  simp_rw [e]
  rw [lintegral_add_left (measurable_const.indicator hm), lintegral_indicator_const hm, lintegral_indicator_const hm.compl,
    measure_compl hm (measure_ne_top _ _), accept_probability, mul_comm x, mul_comm y]
  simp

theorem measurable_momentaEnergy : Measurable fun X : Draws S N => momentaEnergy (momMat X) := by
  have hE : ∀ X : Draws S N, momentaEnergy (momMat X) = ∑ s, ∑ μ, ∑ p, X s μ p ^ 2 / 2 := by
    intro X
    unfold momentaEnergy momMat
    refine Finset.sum_congr rfl fun s _ => Finset.sum_congr rfl fun μ _ => ?_
    rw [C45_energy, Finset.sum_div]
  simp_rw [hE]
  fun_prop

/-- Reversal of the momenta in phase space. -/
def phaseFlip (z : LinkSU S N × Draws S N) : LinkSU S N × Draws S N := (z.1, -z.2)

theorem momentaEnergy_flip (P : GField S N) : momentaEnergy (fun s μ => -P s μ) = momentaEnergy P := by
  unfold momentaEnergy
  simp


theorem expSU_neg_mul (ε : ℝ) (x : DrawIndex N → ℝ) : expSU ε (-x) * expSU ε x = 1 := by
  apply Subtype.ext
  change NormedSpace.exp (ε • momentumOf (-x)) * NormedSpace.exp (ε • momentumOf x) = 1
  rw [momentumOf_neg, smul_neg, exp_neg_mul_exp]

variable {ι : Type}

theorem phaseStep_flip (F : ι → GField S N → GField S N) (o : MdOp ι) (z : LinkSU S N × Draws S N) :
    phaseStep F o (phaseFlip (phaseStep F o z)) = phaseFlip z := by
  cases o with
  | link ε =>
    refine Prod.ext ?_ rfl
    funext s μ
    change expSU ε (-z.2 s μ) * (expSU ε (z.2 s μ) * z.1 s μ) = z.1 s μ
    rw [← mul_assoc, expSU_neg_mul, one_mul]
  | mom i ε =>
    refine Prod.ext rfl ?_
    funext s μ
    change -(z.2 s μ - ε • momentumCoords (F i (linkMat z.1) s μ)) - ε • momentumCoords (F i (linkMat z.1) s μ) = -z.2 s μ
    abel

theorem phaseRun_flip (F : ι → GField S N → GField S N) (l : List (MdOp ι)) (z : LinkSU S N × Draws S N) :
    phaseRun F l.reverse (phaseFlip (phaseRun F l z)) = phaseFlip z := by
  induction l generalizing z with
  | nil => rfl
  | cons o l ih =>
    have := ih (phaseStep F o z)
    unfold phaseRun at this ⊢
    simp only [List.reverse_cons, List.foldl_append, List.foldl_cons, List.foldl_nil]
    rw [this]
    exact phaseStep_flip F o z

/-- The total energy. -/
noncomputable def hmcEnergy (energy : LinkSU S N → ℝ) (z : LinkSU S N × Draws S N) : ℝ := momentaEnergy (momMat z.2) + energy z.1

/-- Integration and accept/reject step in phase space. -/
noncomputable def hmcSweep (F : ι → GField S N → GField S N) (l : List (MdOp ι)) (energy : LinkSU S N → ℝ) (Q : LinkSU S N) (X : Draws S N)
    (u : ℝ) : LinkSU S N :=
  if metropolisLocal (some (hmcEnergy energy (Q, X))) (some (hmcEnergy energy (phaseRun F l (Q, X)))) u = true then (phaseRun F l (Q, X)).1 else Q

theorem hmcEnergy_measurable (energy : LinkSU S N → ℝ) (hE : Measurable energy) : Measurable (hmcEnergy energy) :=
  (measurable_momentaEnergy.comp measurable_snd).add (hE.comp measurable_fst)

/-- The probability of acceptance. -/
noncomputable def hmcAccept (F : ι → GField S N → GField S N) (l : List (MdOp ι)) (energy : LinkSU S N → ℝ) (z : LinkSU S N × Draws S N) : ℝ≥0∞ :=
  ENNReal.ofReal (min 1 (Real.exp (-(hmcEnergy energy (phaseRun F l z) - hmcEnergy energy z))))

theorem hmcSweep_integral (F : ι → GField S N → GField S N) (l : List (MdOp ι)) (energy : LinkSU S N → ℝ) (f : LinkSU S N → ℝ≥0∞) (Q : LinkSU S N)
    (X : Draws S N) : ∫⁻ u in Set.Ico (0 : ℝ) 1, f (hmcSweep F l energy Q X u) =
      hmcAccept F l energy (Q, X) * f (phaseRun F l (Q, X)).1 + (1 - hmcAccept F l energy (Q, X)) * f Q := by
  unfold hmcAccept
  rw [← lintegral_accept]
  refine lintegral_congr fun u => ?_
  unfold hmcSweep
  rw [apply_ite f]

theorem hmc_stationary (F : ι → GField S N → GField S N) (hF : ∀ i, MeasurableForce (F i)) (energy : LinkSU S N → ℝ) (hE : Measurable energy)
    (haar : Measure (SU N)) [IsFiniteMeasure haar] [haar.IsMulLeftInvariant] (name : String) (forces : List ι) (steps : List ℕ) (t : ℝ)
    (l : List (MdOp ι)) (hl : mdIntegrate name forces steps t = .ok l) (f : LinkSU S N → ℝ≥0∞) (hf : Measurable f) :
    ∫⁻ Q, (∫⁻ X, (∫⁻ u in Set.Ico (0 : ℝ) 1, f (hmcSweep F l energy Q X u)) ∂gaussianDraws S N) * ENNReal.ofReal (Real.exp (-energy Q))
      ∂linkMeasure S haar = ∫⁻ Q, f Q * ENNReal.ofReal (Real.exp (-energy Q)) ∂linkMeasure S haar := by
  let H : LinkSU S N × Draws S N → ℝ := hmcEnergy energy
  have hH : Measurable H := hmcEnergy_measurable energy hE
  let T : LinkSU S N × Draws S N → LinkSU S N × Draws S N := fun z => phaseFlip (phaseRun F l z)
  have hTT : ∀ z, T (T z) = z := by
    intro z
    have := phaseRun_flip F l z
    rw [mdIntegrate_palindrome name forces steps t l hl] at this
    change phaseFlip (phaseRun F l (phaseFlip (phaseRun F l z))) = z
    rw [this]
    exact Prod.ext rfl (neg_neg _)
  have hflip : MeasurePreserving (phaseFlip (S := S) (N := N)) (phaseVolume S haar) (phaseVolume S haar) := by
    haveI h1 : (volume : Measure (DrawIndex N → ℝ)).IsNegInvariant := inferInstance
    haveI h2 : (volume : Measure (Fin 4 → DrawIndex N → ℝ)).IsNegInvariant := Measure.pi.isNegInvariant _
    haveI h3 : (volume : Measure (Draws S N)).IsNegInvariant := Measure.pi.isNegInvariant _
    exact (MeasurePreserving.id (linkMeasure S haar)).prod (Measure.measurePreserving_neg (volume : Measure (Draws S N)))
  have hT : MeasurePreserving T (phaseVolume S haar) (phaseVolume S haar) := hflip.comp (phaseRun_preserving haar F hF l)
  have hHflip : ∀ z, H (phaseFlip z) = H z := by
    intro z
    change momentaEnergy (momMat (-z.2)) + _ = momentaEnergy (momMat z.2) + _
    have : momMat (-z.2) = fun s μ => -momMat z.2 s μ := by
      funext s μ
      exact momentumOf_neg _
    rw [this, momentaEnergy_flip]
    rfl
  have hst := metropolis_stationary (phaseVolume S haar) T hT hTT H hH (fun z => f z.1) (hf.comp measurable_fst)
  have hfst : ∀ z, (T z).1 = (phaseRun F l z).1 := fun z => rfl
  have hHT : ∀ z, H (T z) = H (phaseRun F l z) := fun z => hHflip _
  simp only [hfst, hHT] at hst
  obtain ⟨c, hc⟩ := gaussianDraws_energy (S := S) (N := N)
  have hK : Measurable fun X : Draws S N => c * ENNReal.ofReal (Real.exp (-momentaEnergy (momMat X))) :=
    ((Real.measurable_exp.comp measurable_momentaEnergy.neg).ennreal_ofReal).const_mul c
  have hw : Measurable fun Q : LinkSU S N => ENNReal.ofReal (Real.exp (-energy Q)) := (Real.measurable_exp.comp hE.neg).ennreal_ofReal
  have hwH : Measurable fun z : LinkSU S N × Draws S N => ENNReal.ofReal (Real.exp (-H z)) := (Real.measurable_exp.comp hH.neg).ennreal_ofReal
  have key : ∀ g : LinkSU S N × Draws S N → ℝ≥0∞, Measurable g →
      ∫⁻ Q, (∫⁻ X, g (Q, X) ∂gaussianDraws S N) * ENNReal.ofReal (Real.exp (-energy Q)) ∂linkMeasure S haar =
        c * ∫⁻ z, g z * ENNReal.ofReal (Real.exp (-H z)) ∂phaseVolume S haar := by
    intro g hg
    have hgw : Measurable fun z => g z * ENNReal.ofReal (Real.exp (-H z)) := hg.mul hwH
    rw [← lintegral_const_mul c hgw]
    unfold phaseVolume
    rw [lintegral_prod _ (hgw.const_mul c).aemeasurable]
    refine lintegral_congr fun Q => ?_
    have hgQ : Measurable fun X => g (Q, X) := hg.comp measurable_prodMk_left
    rw [hc, lintegral_withDensity_eq_lintegral_mul _ hK hgQ, ← lintegral_mul_const _ (hK.mul hgQ)]
    refine lintegral_congr fun X => ?_
    have : ENNReal.ofReal (Real.exp (-H (Q, X))) = ENNReal.ofReal (Real.exp (-momentaEnergy (momMat X))) *
        ENNReal.ofReal (Real.exp (-energy Q)) := by
      rw [← ENNReal.ofReal_mul (Real.exp_pos _).le, ← Real.exp_add]
      congr 2
      change -(_ + _) = _
      ring
    rw [this]
    change c * _ * g (Q, X) * _ = _
    ring
  have hrm : Measurable (phaseRun F l) := (phaseRun_preserving haar F hF l).measurable
  have hAm : Measurable fun z => ENNReal.ofReal (min 1 (Real.exp (-(H (phaseRun F l z) - H z)))) :=
    (measurable_const.min (Real.measurable_exp.comp ((hH.comp hrm).sub hH).neg)).ennreal_ofReal
  have k1 := key (fun z => ENNReal.ofReal (min 1 (Real.exp (-(H (phaseRun F l z) - H z)))) * f (phaseRun F l z).1 +
    (1 - ENNReal.ofReal (min 1 (Real.exp (-(H (phaseRun F l z) - H z))))) * f z.1)
    ((hAm.mul (hf.comp (measurable_fst.comp hrm))).add ((measurable_const.sub hAm).mul (hf.comp measurable_fst)))
  have k2 := key (fun z => f z.1) (hf.comp measurable_fst)
  rw [hst, ← k2] at k1
  simp only [lintegral_const, measure_univ, mul_one] at k1
  rw [← k1]
  refine lintegral_congr fun Q => ?_
  congr 1
  refine lintegral_congr fun X => ?_
  exact hmcSweep_integral F l energy f Q X

end Leonard
