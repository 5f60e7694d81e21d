/-
Lemmas for rational hybrid Monte Carlo: accept/reject steps with an energy that is slightly wrong, and rational functions of Hermitian matrices.
-/
import Mathlib.Analysis.Matrix.Spectrum
import Verif.Hmc.TwoFlavorProps
import Verif.Rhmc.Model

set_option autoImplicit false

namespace Leonard

open Matrix MeasureTheory ProbabilityTheory
open scoped ENNReal NNReal

/-! ### Accept/reject with an approximate energy -/

theorem abs_exp_sub_one_le_exp_abs (s : ℝ) : |Real.exp s - 1| ≤ Real.exp |s| - 1 := by
  rcases le_total 0 s with h | h
  · rw [abs_of_nonneg h, abs_of_nonneg (by linarith [Real.one_le_exp h])]
  · rw [abs_of_nonpos h, abs_of_nonpos (by linarith [Real.exp_le_one_iff.mpr h])]
    have h1 : Real.exp s * Real.exp (-s) = 1 := by rw [← Real.exp_add, add_neg_cancel, Real.exp_zero]
    have h2 := Real.exp_pos s
    have h3 := Real.exp_pos (-s)
    nlinarith [sq_nonneg (Real.exp s - 1), sq_nonneg (Real.exp (-s) - 1), sq_nonneg (Real.exp s - Real.exp (-s))]

/-- Mixing two numbers with slightly different weights. -/
theorem mix_le {α β : ℝ} (hα : 0 ≤ α) (hα1 : α ≤ 1) (hβ : 0 ≤ β) (hβ1 : β ≤ 1) {x y C : ℝ≥0∞} (hx : x ≤ C) (hy : y ≤ C) :
    ENNReal.ofReal α * x + (1 - ENNReal.ofReal α) * y ≤
      ENNReal.ofReal β * x + (1 - ENNReal.ofReal β) * y + ENNReal.ofReal |α - β| * C := by
  have h1 : ∀ γ : ℝ, 0 ≤ γ → 1 - ENNReal.ofReal γ = ENNReal.ofReal (1 - γ) := fun γ h => by
    rw [ENNReal.ofReal_sub _ h, ENNReal.ofReal_one]
  rw [h1 α hα, h1 β hβ]
  rcases le_total β α with h | h
  · have e : ENNReal.ofReal α = ENNReal.ofReal β + ENNReal.ofReal |α - β| := by
      rw [← ENNReal.ofReal_add hβ (abs_nonneg _), abs_of_nonneg (by linarith)]; congr 1; ring
    have e2 : ENNReal.ofReal (1 - α) ≤ ENNReal.ofReal (1 - β) := ENNReal.ofReal_le_ofReal (by linarith)
    rw [e, add_mul, add_right_comm]
    gcongr
  · have e : ENNReal.ofReal (1 - α) = ENNReal.ofReal (1 - β) + ENNReal.ofReal |α - β| := by
      rw [← ENNReal.ofReal_add (by linarith) (abs_nonneg _), abs_of_nonpos (by linarith)]; congr 1; ring
    have e2 : ENNReal.ofReal α ≤ ENNReal.ofReal β := ENNReal.ofReal_le_ofReal h
    rw [e, add_mul, ← add_assoc]
    gcongr

/-- An accept/reject step that compares the energy `H` of the old state with an approximation `G` of the energy of the new state. -/
theorem metropolis_bias {Z : Type} [MeasurableSpace Z] (ν : Measure Z) (T : Z → Z) (hT : MeasurePreserving T ν ν) (hTT : ∀ z, T (T z) = z)
    (H G d : Z → ℝ) (hH : Measurable H) (hd : Measurable d) (hGH : ∀ z, |G z - H z| ≤ d z) (f : Z → ℝ≥0∞)
    (hf : Measurable f) (C : ℝ≥0∞) (hC : ∀ z, f z ≤ C) :
    ∫⁻ z, (ENNReal.ofReal (min 1 (Real.exp (-(G (T z) - H z)))) * f (T z) + (1 - ENNReal.ofReal (min 1 (Real.exp (-(G (T z) - H z))))) * f z) *
        ENNReal.ofReal (Real.exp (-H z)) ∂ν ≤
      ∫⁻ z, f z * ENNReal.ofReal (Real.exp (-H z)) ∂ν + C * ∫⁻ z, ENNReal.ofReal (Real.exp (d z) - 1) * ENNReal.ofReal (Real.exp (-H z)) ∂ν ∧
    ∫⁻ z, f z * ENNReal.ofReal (Real.exp (-H z)) ∂ν ≤
      ∫⁻ z, (ENNReal.ofReal (min 1 (Real.exp (-(G (T z) - H z)))) * f (T z) +
        (1 - ENNReal.ofReal (min 1 (Real.exp (-(G (T z) - H z))))) * f z) * ENNReal.ofReal (Real.exp (-H z)) ∂ν +
      C * ∫⁻ z, ENNReal.ofReal (Real.exp (d z) - 1) * ENNReal.ofReal (Real.exp (-H z)) ∂ν := by
  let α : Z → ℝ := fun z => min 1 (Real.exp (-(G (T z) - H z)))
  let β : Z → ℝ := fun z => min 1 (Real.exp (-(H (T z) - H z)))
  have hα0 : ∀ z, 0 ≤ α z := fun z => le_min zero_le_one (Real.exp_pos _).le
  have hβ0 : ∀ z, 0 ≤ β z := fun z => le_min zero_le_one (Real.exp_pos _).le
  have hα1 : ∀ z, α z ≤ 1 := fun z => min_le_left _ _
  have hβ1 : ∀ z, β z ≤ 1 := fun z => min_le_left _ _
  let w : Z → ℝ≥0∞ := fun z => ENNReal.ofReal (Real.exp (-H z))
  let g : Z → ℝ≥0∞ := fun z => ENNReal.ofReal (Real.exp (d z) - 1) * w z
  have hw : Measurable w := (Real.measurable_exp.comp hH.neg).ennreal_ofReal
  have hg : Measurable g := ((Real.measurable_exp.comp hd).sub_const 1).ennreal_ofReal.mul hw
  have hgap : ∀ z, ENNReal.ofReal |α z - β z| * w z ≤ g (T z) := by
    intro z
    change ENNReal.ofReal _ * ENNReal.ofReal _ ≤ ENNReal.ofReal _ * ENNReal.ofReal _
    rw [← ENNReal.ofReal_mul (abs_nonneg _), ← ENNReal.ofReal_mul (by linarith [Real.one_le_exp ((abs_nonneg _).trans (hGH (T z)))])]
    refine ENNReal.ofReal_le_ofReal ?_
    have h1 : |α z - β z| ≤ |Real.exp (-(G (T z) - H z)) - Real.exp (-(H (T z) - H z))| := by
      refine (abs_min_sub_min_le_max _ _ _ _).trans ?_
      rw [sub_self, abs_zero]
      exact max_le (abs_nonneg _) le_rfl
    have h2 : |Real.exp (-(G (T z) - H z)) - Real.exp (-(H (T z) - H z))| * Real.exp (-H z) =
        |Real.exp (-(G (T z) - H (T z))) - 1| * Real.exp (-H (T z)) := by
      rw [← abs_of_pos (Real.exp_pos (-H z)), ← abs_of_pos (Real.exp_pos (-H (T z))), ← abs_mul, ← abs_mul, sub_mul, sub_mul, one_mul, ← Real.exp_add, ← Real.exp_add, ← Real.exp_add]
      congr 3 <;> ring
    calc |α z - β z| * Real.exp (-H z) ≤ |Real.exp (-(G (T z) - H z)) - Real.exp (-(H (T z) - H z))| * Real.exp (-H z) := by
          gcongr
      _ = |Real.exp (-(G (T z) - H (T z))) - 1| * Real.exp (-H (T z)) := h2
      _ ≤ (Real.exp (d (T z)) - 1) * Real.exp (-H (T z)) := by
          gcongr
          refine (abs_exp_sub_one_le_exp_abs _).trans ?_
          rw [abs_neg]
          gcongr
          exact hGH _
  have hexact := metropolis_stationary ν T hT hTT H hH f hf
  have hint : ∫⁻ z, g (T z) ∂ν = ∫⁻ z, g z ∂ν := hT.lintegral_comp hg
  have hgT : Measurable fun z => g (T z) := hg.comp hT.measurable
  have hrest : ∀ z, ENNReal.ofReal |α z - β z| * C * w z ≤ C * g (T z) := fun z => by
    rw [mul_comm _ C, mul_assoc]
    gcongr
    exact hgap z
  constructor
  · calc _ ≤ ∫⁻ z, ((ENNReal.ofReal (β z) * f (T z) + (1 - ENNReal.ofReal (β z)) * f z) * w z + C * g (T z)) ∂ν := by
          refine lintegral_mono fun z => ?_
          refine (mul_le_mul_left (mix_le (hα0 z) (hα1 z) (hβ0 z) (hβ1 z) (hC (T z)) (hC z)) (w z)).trans ?_
          rw [add_mul]
          exact add_le_add_right (hrest z) _
      _ = ∫⁻ z, (ENNReal.ofReal (β z) * f (T z) + (1 - ENNReal.ofReal (β z)) * f z) * w z ∂ν + ∫⁻ z, C * g (T z) ∂ν :=
          lintegral_add_right _ (hgT.const_mul C)
      _ = _ := by rw [lintegral_const_mul C hgT, hint]; exact congrArg (· + _) hexact
  · calc _ = ∫⁻ z, (ENNReal.ofReal (β z) * f (T z) + (1 - ENNReal.ofReal (β z)) * f z) * w z ∂ν := hexact.symm
      _ ≤ ∫⁻ z, ((ENNReal.ofReal (α z) * f (T z) + (1 - ENNReal.ofReal (α z)) * f z) * w z + C * g (T z)) ∂ν := by
          refine lintegral_mono fun z => ?_
          refine (mul_le_mul_left (mix_le (hβ0 z) (hβ1 z) (hα0 z) (hα1 z) (hC (T z)) (hC z)) (w z)).trans ?_
          rw [add_mul, abs_sub_comm]
          exact add_le_add_right (hrest z) _
      _ = _ := by rw [lintegral_add_right _ (hgT.const_mul C), lintegral_const_mul C hgT, hint]

variable {N : ℕ} {S ι : Type} [Fintype S]

/-- Integration and accept/reject step in phase space with different functions for the energy of the old and of the new links. -/
noncomputable def hmcSweep2 (F : ι → GField S N → GField S N) (l : List (MdOp ι)) (old new : LinkSU S N → ℝ) (Q : LinkSU S N) (X : Draws S N)
    (u : ℝ) : LinkSU S N :=
  if metropolisLocal (some (hmcEnergy old (Q, X))) (some (hmcEnergy new (phaseRun F l (Q, X)))) u = true then (phaseRun F l (Q, X)).1 else Q

theorem hmcSweep2_integral (F : ι → GField S N → GField S N) (l : List (MdOp ι)) (old new : LinkSU S N → ℝ) (f : LinkSU S N → ℝ≥0∞)
    (Q : LinkSU S N) (X : Draws S N) : ∫⁻ u in Set.Ico (0 : ℝ) 1, f (hmcSweep2 F l old new Q X u) =
      ENNReal.ofReal (min 1 (Real.exp (-(hmcEnergy new (phaseRun F l (Q, X)) - hmcEnergy old (Q, X))))) * f (phaseRun F l (Q, X)).1 +
        (1 - ENNReal.ofReal (min 1 (Real.exp (-(hmcEnergy new (phaseRun F l (Q, X)) - hmcEnergy old (Q, X)))))) * f Q := by
  rw [← lintegral_accept]
  refine lintegral_congr fun u => ?_
  unfold hmcSweep2
  rw [apply_ite f]

theorem hmcSweep2_param {Ω : Type} [MeasurableSpace Ω] (F : Ω → ι → GField S N → GField S N)
    (hF : ∀ i s μ k l, Measurable fun p : Ω × LinkSU S N => F p.1 i (linkMat p.2) s μ k l) (l : List (MdOp ι)) (old new : Ω → LinkSU S N → ℝ)
    (hold : Measurable fun p : Ω × LinkSU S N => old p.1 p.2) (hnew : Measurable fun p : Ω × LinkSU S N => new p.1 p.2)
    (f : LinkSU S N → ℝ≥0∞) (hf : Measurable f) :
    Measurable fun p : Ω × LinkSU S N => ∫⁻ X, (∫⁻ u in Set.Ico (0 : ℝ) 1, f (hmcSweep2 (F p.1) l (old p.1) (new p.1) p.2 X u)) ∂gaussianDraws S N := by
  simp_rw [hmcSweep2_integral]
  have hrun := phaseRun_param F hF l
  have hH : ∀ e : Ω → LinkSU S N → ℝ, Measurable (fun p : Ω × LinkSU S N => e p.1 p.2) →
      Measurable fun p : Ω × (LinkSU S N × Draws S N) => hmcEnergy (e p.1) p.2 := fun e he =>
    (measurable_momentaEnergy.comp (measurable_snd.comp measurable_snd)).add (he.comp (measurable_fst.prodMk (measurable_fst.comp measurable_snd)))
  have hA : Measurable fun p : Ω × (LinkSU S N × Draws S N) =>
      ENNReal.ofReal (min 1 (Real.exp (-(hmcEnergy (new p.1) (phaseRun (F p.1) l p.2) - hmcEnergy (old p.1) p.2)))) :=
    (measurable_const.min (Real.measurable_exp.comp (((hH new hnew).comp (measurable_fst.prodMk hrun)).sub (hH old hold)).neg)).ennreal_ofReal
  have hI : Measurable fun p : Ω × (LinkSU S N × Draws S N) =>
      ENNReal.ofReal (min 1 (Real.exp (-(hmcEnergy (new p.1) (phaseRun (F p.1) l p.2) - hmcEnergy (old p.1) p.2)))) * f (phaseRun (F p.1) l p.2).1 +
      (1 - ENNReal.ofReal (min 1 (Real.exp (-(hmcEnergy (new p.1) (phaseRun (F p.1) l p.2) - hmcEnergy (old p.1) p.2))))) * f p.2.1 :=
    (hA.mul (hf.comp (measurable_fst.comp hrun))).add ((measurable_const.sub hA).mul (hf.comp (measurable_fst.comp measurable_snd)))
  have hs : Measurable fun q : (Ω × LinkSU S N) × Draws S N => (q.1.1, (q.1.2, q.2)) :=
    (measurable_fst.comp measurable_fst).prodMk ((measurable_snd.comp measurable_fst).prodMk measurable_snd)
  exact (hI.comp hs).lintegral_prod_right'

/-- One sweep with an approximate energy of the new links changes expectation values only by the error of the approximation. -/
theorem hmc_bias (F : ι → GField S N → GField S N) (hF : ∀ i, MeasurableForce (F i)) (old new d : LinkSU S N → ℝ) (hold : Measurable old)
    (hnew : Measurable new) (hd : Measurable d) (hgap : ∀ Q, |new Q - old Q| ≤ d Q)
    (haar : Measure (SU N)) [IsFiniteMeasure haar] [haar.IsMulLeftInvariant] (name : String) (forces : List ι) (steps : List ℕ) (t : ℝ)
    (l : List (MdOp ι)) (hl : mdIntegrate name forces steps t = .ok l) (f : LinkSU S N → ℝ≥0∞) (hf : Measurable f) (C : ℝ≥0∞) (hC : ∀ Q, f Q ≤ C) :
    ∫⁻ Q, (∫⁻ X, (∫⁻ u in Set.Ico (0 : ℝ) 1, f (hmcSweep2 F l old new Q X u)) ∂gaussianDraws S N) * ENNReal.ofReal (Real.exp (-old Q))
      ∂linkMeasure S haar ≤ ∫⁻ Q, f Q * ENNReal.ofReal (Real.exp (-old Q)) ∂linkMeasure S haar +
        C * ∫⁻ Q, ENNReal.ofReal (Real.exp (d Q) - 1) * ENNReal.ofReal (Real.exp (-old Q)) ∂linkMeasure S haar ∧
    ∫⁻ Q, f Q * ENNReal.ofReal (Real.exp (-old Q)) ∂linkMeasure S haar ≤
      ∫⁻ Q, (∫⁻ X, (∫⁻ u in Set.Ico (0 : ℝ) 1, f (hmcSweep2 F l old new Q X u)) ∂gaussianDraws S N) * ENNReal.ofReal (Real.exp (-old Q))
        ∂linkMeasure S haar + C * ∫⁻ Q, ENNReal.ofReal (Real.exp (d Q) - 1) * ENNReal.ofReal (Real.exp (-old Q)) ∂linkMeasure S haar := by
  let H : LinkSU S N × Draws S N → ℝ := hmcEnergy old
  let G : LinkSU S N × Draws S N → ℝ := hmcEnergy new
  have hH : Measurable H := hmcEnergy_measurable old hold
  have hG : Measurable G := hmcEnergy_measurable new hnew
  let T : LinkSU S N × Draws S N → LinkSU S N × Draws S N := fun z => phaseFlip (phaseRun F l z)
  have hTT : ∀ z, T (T z) = z := by
    intro z
    have := phaseRun_flip F l z
    rw [mdIntegrate_palindrome name forces steps t l hl] at this
    change phaseFlip (phaseRun F l (phaseFlip (phaseRun F l z))) = z
    rw [this]
    exact Prod.ext rfl (neg_neg _)
  have hflip : MeasurePreserving (phaseFlip (S := S) (N := N)) (phaseVolume S haar) (phaseVolume S haar) := by
    haveI h1 : (volume : Measure (DrawIndex N → ℝ)).IsNegInvariant := inferInstance
    haveI h2 : (volume : Measure (Fin 4 → DrawIndex N → ℝ)).IsNegInvariant := Measure.pi.isNegInvariant _
    haveI h3 : (volume : Measure (Draws S N)).IsNegInvariant := Measure.pi.isNegInvariant _
    exact (MeasurePreserving.id (linkMeasure S haar)).prod (Measure.measurePreserving_neg (volume : Measure (Draws S N)))
  have hT : MeasurePreserving T (phaseVolume S haar) (phaseVolume S haar) := hflip.comp (phaseRun_preserving haar F hF l)
  have hGflip : ∀ z, G (phaseFlip z) = G z := by
    intro z
    change momentaEnergy (momMat (-z.2)) + _ = momentaEnergy (momMat z.2) + _
    have : momMat (-z.2) = fun s μ => -momMat z.2 s μ := by
      funext s μ
      exact momentumOf_neg _
    rw [this, momentaEnergy_flip]
    rfl
  have hGH : ∀ z, |G z - H z| ≤ d z.1 := by
    intro z
    have : G z - H z = new z.1 - old z.1 := by
      change (_ + _) - (_ + _) = _
      ring
    rw [this]
    exact hgap z.1
  have hst := metropolis_bias (phaseVolume S haar) T hT hTT H G (fun z => d z.1) hH (hd.comp measurable_fst) hGH (fun z => f z.1)
    (hf.comp measurable_fst) C fun z => hC z.1
  have hfst : ∀ z, (T z).1 = (phaseRun F l z).1 := fun z => rfl
  have hHT : ∀ z, G (T z) = G (phaseRun F l z) := fun z => hGflip _
  simp only [hfst, hHT] at hst
  obtain ⟨c, hc⟩ := gaussianDraws_energy (S := S) (N := N)
  have hK : Measurable fun X : Draws S N => c * ENNReal.ofReal (Real.exp (-momentaEnergy (momMat X))) :=
    ((Real.measurable_exp.comp measurable_momentaEnergy.neg).ennreal_ofReal).const_mul c
  have hwH : Measurable fun z : LinkSU S N × Draws S N => ENNReal.ofReal (Real.exp (-H z)) := (Real.measurable_exp.comp hH.neg).ennreal_ofReal
  have key : ∀ g : LinkSU S N × Draws S N → ℝ≥0∞, Measurable g →
      ∫⁻ Q, (∫⁻ X, g (Q, X) ∂gaussianDraws S N) * ENNReal.ofReal (Real.exp (-old Q)) ∂linkMeasure S haar =
        c * ∫⁻ z, g z * ENNReal.ofReal (Real.exp (-H z)) ∂phaseVolume S haar := by
    intro g hg
    have hgw : Measurable fun z => g z * ENNReal.ofReal (Real.exp (-H z)) := hg.mul hwH
    rw [← lintegral_const_mul c hgw]
    unfold phaseVolume
    rw [lintegral_prod _ (hgw.const_mul c).aemeasurable]
    refine lintegral_congr fun Q => ?_
    have hgQ : Measurable fun X => g (Q, X) := hg.comp measurable_prodMk_left
    rw [hc, lintegral_withDensity_eq_lintegral_mul _ hK hgQ, ← lintegral_mul_const _ (hK.mul hgQ)]
    refine lintegral_congr fun X => ?_
    have : ENNReal.ofReal (Real.exp (-H (Q, X))) = ENNReal.ofReal (Real.exp (-momentaEnergy (momMat X))) *
        ENNReal.ofReal (Real.exp (-old Q)) := by
      rw [← ENNReal.ofReal_mul (Real.exp_pos _).le, ← Real.exp_add]
      congr 2
      change -(_ + _) = _
      ring
    rw [this]
    change c * _ * g (Q, X) * _ = _
    ring
  have hrm : Measurable (phaseRun F l) := (phaseRun_preserving haar F hF l).measurable
  have hAm : Measurable fun z => ENNReal.ofReal (min 1 (Real.exp (-(G (phaseRun F l z) - H z)))) :=
    (measurable_const.min (Real.measurable_exp.comp ((hG.comp hrm).sub hH).neg)).ennreal_ofReal
  have k1 := key (fun z => ENNReal.ofReal (min 1 (Real.exp (-(G (phaseRun F l z) - H z)))) * f (phaseRun F l z).1 +
    (1 - ENNReal.ofReal (min 1 (Real.exp (-(G (phaseRun F l z) - H z))))) * f z.1)
    ((hAm.mul (hf.comp (measurable_fst.comp hrm))).add ((measurable_const.sub hAm).mul (hf.comp measurable_fst)))
  have k2 := key (fun z => f z.1) (hf.comp measurable_fst)
  have k3 := key (fun z => ENNReal.ofReal (Real.exp (d z.1) - 1)) ((Real.measurable_exp.comp (hd.comp measurable_fst)).sub_const 1).ennreal_ofReal
  simp only [lintegral_const, measure_univ, mul_one] at k2 k3
  have k0 : ∫⁻ Q, (∫⁻ X, (∫⁻ u in Set.Ico (0 : ℝ) 1, f (hmcSweep2 F l old new Q X u)) ∂gaussianDraws S N) * ENNReal.ofReal (Real.exp (-old Q))
      ∂linkMeasure S haar = c * ∫⁻ z, (ENNReal.ofReal (min 1 (Real.exp (-(G (phaseRun F l z) - H z)))) * f (phaseRun F l z).1 +
    (1 - ENNReal.ofReal (min 1 (Real.exp (-(G (phaseRun F l z) - H z))))) * f z.1) * ENNReal.ofReal (Real.exp (-H z)) ∂phaseVolume S haar := by
    rw [← k1]
    refine lintegral_congr fun Q => ?_
    congr 1
    refine lintegral_congr fun X => ?_
    exact hmcSweep2_integral F l old new f Q X
  rw [k0, k2, k3, mul_left_comm C c, ← mul_add, ← mul_add]
  exact ⟨mul_le_mul_right hst.1 c, mul_le_mul_right hst.2 c⟩

/-! ### Gaussian fields -/

variable {κ : Type} [Fintype κ] [DecidableEq κ]

/-- The mean of `exp(ε |η|²)` over Gaussian fields. -/
theorem gaussian_exp (ε : ℝ) (hε : ε < 1) :
    ∫⁻ Y, ENNReal.ofReal (Real.exp (ε * fermionNormSq (fermionField Y))) ∂fermionDraws κ = ENNReal.ofReal (((1 - ε) ^ Fintype.card κ)⁻¹) := by
  obtain ⟨c, hc⟩ := pseudofermion_integral (κ := κ)
  have hpos : 0 < 1 - ε := by linarith
  have hg : Measurable fun φ : κ → ℂ => ENNReal.ofReal (Real.exp (ε * fermionNormSq φ)) :=
    (Real.measurable_exp.comp (fermionNormSq_measurable.const_mul ε)).ennreal_ofReal
  have h1 := hc 1 (by simp) (fun φ => ENNReal.ofReal (Real.exp (ε * fermionNormSq φ))) hg
  simp only [one_mulVec, det_one, map_one, ENNReal.ofReal_one, mul_one, inv_one] at h1
  let s : ℝ := (Real.sqrt (1 - ε))⁻¹
  have hs : s ≠ 0 := inv_ne_zero (Real.sqrt_ne_zero'.mpr hpos)
  have hsq : s⁻¹ ^ 2 = 1 - ε := by
    simp only [s, inv_inv]
    exact Real.sq_sqrt hpos.le
  have hdet : ((s : ℂ) • (1 : Matrix κ κ ℂ)).det = (s : ℂ) ^ Fintype.card κ := by rw [det_smul, det_one, mul_one]
  have h2 := hc ((s : ℂ) • 1) (by rw [hdet]; exact pow_ne_zero _ (Complex.ofReal_ne_zero.mpr hs)) (fun _ => 1) measurable_const
  have hinv : ((s : ℂ) • (1 : Matrix κ κ ℂ))⁻¹ = ((s⁻¹ : ℝ) : ℂ) • 1 := by
    refine inv_eq_right_inv ?_
    rw [smul_mul_smul_comm, one_mul, ← Complex.ofReal_mul, mul_inv_cancel₀ hs, Complex.ofReal_one, one_smul]
  simp only [lintegral_one, measure_univ, one_mul, hinv, hdet, smul_mulVec, one_mulVec] at h2
  have e1 : Complex.normSq ((s : ℂ) ^ Fintype.card κ) = ((1 - ε) ^ Fintype.card κ)⁻¹ := by
    rw [map_pow, Complex.normSq_ofReal, ← hsq, ← inv_pow]
    congr 1
    rw [inv_pow, inv_inv, sq]
  rw [h1, ← e1, h2]
  congr 1
  refine lintegral_congr fun φ => ?_
  rw [← ENNReal.ofReal_mul (Real.exp_pos _).le, ← Real.exp_add]
  congr 2
  have : fermionNormSq (((s⁻¹ : ℝ) : ℂ) • φ) = (1 - ε) * fermionNormSq φ := by
    unfold fermionNormSq
    rw [Finset.mul_sum]
    refine Finset.sum_congr rfl fun k _ => ?_
    rw [Pi.smul_apply, smul_eq_mul, map_mul, Complex.normSq_ofReal, ← hsq]
    ring
  rw [this]
  ring

end Leonard
