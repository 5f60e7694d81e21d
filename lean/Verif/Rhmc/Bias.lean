/-
The bias of one sweep of rational hybrid Monte Carlo for a general change of variables of the pseudofermions.
-/
import Verif.Rhmc.Spectral

set_option autoImplicit false

namespace Leonard

open Matrix MeasureTheory ProbabilityTheory
open scoped ENNReal NNReal

variable {N : ℕ} {S κ ι : Type} [Fintype S] [Fintype κ] [DecidableEq κ]

theorem gaussian_exp_sub_one (a ε : ℝ) (ha : 0 ≤ a) (hε0 : 0 ≤ ε) (hε : ε < 1) :
    ∫⁻ Y, ENNReal.ofReal (Real.exp (a + ε * fermionNormSq (fermionField Y)) - 1) ∂fermionDraws κ =
      ENNReal.ofReal (Real.exp a * ((1 - ε) ^ Fintype.card κ)⁻¹ - 1) := by
  simp_rw [ENNReal.ofReal_sub _ zero_le_one, ENNReal.ofReal_one]
  rw [lintegral_sub measurable_const (by simp)]
  · simp_rw [Real.exp_add, ENNReal.ofReal_mul (Real.exp_pos a).le]
    rw [lintegral_const_mul' _ _ ENNReal.ofReal_ne_top, gaussian_exp ε hε]
    simp
  · refine Filter.Eventually.of_forall fun Y => ?_
    rw [← ENNReal.ofReal_one]
    refine ENNReal.ofReal_le_ofReal (Real.one_le_exp (add_nonneg ha (mul_nonneg hε0 ?_)))
    exact Finset.sum_nonneg fun k _ => Complex.normSq_nonneg _

/-- The mean of a function of the links after a sweep that draws a Gaussian field `η`, integrates with the pseudofermions `M η` and decides
with the energy `new`. -/
noncomputable def pseudofermionMean (F : (κ → ℂ) → ι → GField S N → GField S N) (l : List (MdOp ι)) (M : LinkSU S N → Matrix κ κ ℂ)
    (old new : (κ → ℂ) → LinkSU S N → ℝ) (f : LinkSU S N → ℝ≥0∞) (Q : LinkSU S N) : ℝ≥0∞ :=
  ∫⁻ Y, (∫⁻ X, (∫⁻ u in Set.Ico (0 : ℝ) 1, f (hmcSweep2 (F (M Q *ᵥ fermionField Y)) l (old (M Q *ᵥ fermionField Y)) (new (M Q *ᵥ fermionField Y)) Q X u))
    ∂gaussianDraws S N) ∂fermionDraws κ

section

variable (F : (κ → ℂ) → ι → GField S N → GField S N) (l : List (MdOp ι)) (M : LinkSU S N → Matrix κ κ ℂ)
  (old new : (κ → ℂ) → LinkSU S N → ℝ)

theorem measurable_pseudofermionMean (hFm : ∀ i s μ k l, Measurable fun p : (κ → ℂ) × LinkSU S N => F p.1 i (linkMat p.2) s μ k l)
    (hM : ∀ i j, Measurable fun Q => M Q i j) (hold : Measurable fun p : (κ → ℂ) × LinkSU S N => old p.1 p.2)
    (hnew : Measurable fun p : (κ → ℂ) × LinkSU S N => new p.1 p.2) (f : LinkSU S N → ℝ≥0∞) (hf : Measurable f) :
    Measurable (pseudofermionMean F l M old new f) := by
  have hG := hmcSweep2_param F hFm l old new hold hnew f hf
  have hp : Measurable fun q : LinkSU S N × (κ → ℝ × ℝ) => (M q.1 *ᵥ fermionField q.2, q.1) := by
    refine Measurable.prodMk (measurable_pi_lambda _ fun i => ?_) measurable_fst
    simp only [Matrix.mulVec, dotProduct]
    refine Finset.measurable_fun_sum _ fun j _ => ((hM i j).comp measurable_fst).mul ?_
    exact (measurable_pi_apply j).comp ((fermionField_preserving (κ := κ)).measurable.comp measurable_snd)
  exact (hG.comp hp).lintegral_prod_right'

theorem pseudofermionMean_le (f : LinkSU S N → ℝ≥0∞) (C : ℝ≥0∞) (hC : ∀ Q, f Q ≤ C) (Q : LinkSU S N) :
    pseudofermionMean F l M old new f Q ≤ C := by
  unfold pseudofermionMean
  calc _ ≤ ∫⁻ _ : κ → ℝ × ℝ, (∫⁻ _ : Draws S N, (∫⁻ _ in Set.Ico (0 : ℝ) 1, C) ∂gaussianDraws S N) ∂fermionDraws κ :=
        lintegral_mono fun Y => lintegral_mono fun X => lintegral_mono fun u => hC _
    _ = C := by simp

/-- One sweep: the distribution `exp(-energy) |det M|²` is kept up to the error of the energy in the accept/reject step. -/
theorem pseudofermion_bias (hFm : ∀ i s μ k l, Measurable fun p : (κ → ℂ) × LinkSU S N => F p.1 i (linkMat p.2) s μ k l)
    (hM : ∀ i j, Measurable fun Q => M Q i j) (hdet : ∀ Q, (M Q).det ≠ 0) (energy : LinkSU S N → ℝ) (hE : Measurable energy)
    (hold : ∀ φ Q, old φ Q = energy Q + fermionNormSq ((M Q)⁻¹ *ᵥ φ)) (hnew : Measurable fun p : (κ → ℂ) × LinkSU S N => new p.1 p.2)
    (a ε : ℝ) (ha : 0 ≤ a) (hε0 : 0 ≤ ε) (hε : ε < 1) (hgap : ∀ φ Q, |new φ Q - old φ Q| ≤ a + ε * fermionNormSq ((M Q)⁻¹ *ᵥ φ))
    (haar : Measure (SU N)) [IsFiniteMeasure haar] [haar.IsMulLeftInvariant] (name : String) (forces : List ι) (steps : List ℕ) (t : ℝ)
    (hl : mdIntegrate name forces steps t = .ok l) (f : LinkSU S N → ℝ≥0∞) (hf : Measurable f) (C : ℝ≥0∞) (hC : ∀ Q, f Q ≤ C) :
    let w : LinkSU S N → ℝ≥0∞ := fun Q => ENNReal.ofReal (Real.exp (-energy Q) * Complex.normSq (M Q).det)
    let b : ℝ≥0∞ := C * (ENNReal.ofReal (Real.exp a * ((1 - ε) ^ Fintype.card κ)⁻¹ - 1) * ∫⁻ Q, w Q ∂linkMeasure S haar)
    ∫⁻ Q, pseudofermionMean F l M old new f Q * w Q ∂linkMeasure S haar ≤ ∫⁻ Q, f Q * w Q ∂linkMeasure S haar + b ∧
    ∫⁻ Q, f Q * w Q ∂linkMeasure S haar ≤ ∫⁻ Q, pseudofermionMean F l M old new f Q * w Q ∂linkMeasure S haar + b := by
  intro w b
  have hpf : Measurable fun p : (κ → ℂ) × LinkSU S N => fermionNormSq ((M p.2)⁻¹ *ᵥ p.1) := by
    refine fermionNormSq_measurable.comp (measurable_pi_lambda _ fun i => ?_)
    simp only [Matrix.mulVec, dotProduct]
    exact Finset.measurable_fun_sum _ fun j _ => ((measurable_inv M hM i j).comp measurable_snd).mul ((measurable_pi_apply j).comp measurable_fst)
  have hEn : Measurable fun p : (κ → ℂ) × LinkSU S N => old p.1 p.2 := by
    simp only [hold]
    exact (hE.comp measurable_snd).add hpf
  have hinv : ∀ Q v, (M Q)⁻¹ *ᵥ (M Q *ᵥ v) = v := fun Q v => by
    rw [Matrix.mulVec_mulVec, Matrix.nonsing_inv_mul _ (Ne.isUnit (hdet Q)), Matrix.one_mulVec]
  obtain ⟨c, hc⟩ := pseudofermion_integral (κ := κ)
  have hw : Measurable fun p : (κ → ℂ) × LinkSU S N => ENNReal.ofReal (Real.exp (-old p.1 p.2)) := (Real.measurable_exp.comp hEn.neg).ennreal_ofReal
  have hsplit : ∀ φ Q, ENNReal.ofReal (Real.exp (-old φ Q)) =
      ENNReal.ofReal (Real.exp (-fermionNormSq ((M Q)⁻¹ *ᵥ φ))) * ENNReal.ofReal (Real.exp (-energy Q)) := by
    intro φ Q
    rw [← ENNReal.ofReal_mul (Real.exp_pos _).le, ← Real.exp_add]
    congr 2
    rw [hold]
    ring
  have key : ∀ g : (κ → ℂ) × LinkSU S N → ℝ≥0∞, Measurable g →
      ∫⁻ Q, (∫⁻ Y, g (M Q *ᵥ fermionField Y, Q) ∂fermionDraws κ) * w Q ∂linkMeasure S haar =
      c * ∫⁻ φ : κ → ℂ, ∫⁻ Q, g (φ, Q) * ENNReal.ofReal (Real.exp (-old φ Q)) ∂linkMeasure S haar := by
    intro g hg
    have hgw : Measurable fun p : (κ → ℂ) × LinkSU S N => g p * ENNReal.ofReal (Real.exp (-old p.1 p.2)) := hg.mul hw
    rw [lintegral_lintegral_swap (f := fun φ Q => g (φ, Q) * ENNReal.ofReal (Real.exp (-old φ Q))) hgw.aemeasurable]
    have hgs : Measurable fun Q : LinkSU S N => ∫⁻ φ : κ → ℂ, g (φ, Q) * ENNReal.ofReal (Real.exp (-old φ Q)) :=
      (hgw.comp measurable_swap).lintegral_prod_right'
    rw [← lintegral_const_mul c hgs]
    refine lintegral_congr fun Q => ?_
    have hgQ : Measurable fun φ => g (φ, Q) := hg.comp measurable_prodMk_right
    simp only [w]
    rw [ENNReal.ofReal_mul (Real.exp_pos _).le]
    have := hc (M Q) (hdet Q) (fun φ => g (φ, Q)) hgQ
    have hpq : Measurable fun φ : κ → ℂ => g (φ, Q) * ENNReal.ofReal (Real.exp (-fermionNormSq ((M Q)⁻¹ *ᵥ φ))) :=
      hgQ.mul (Real.measurable_exp.comp (hpf.comp measurable_prodMk_right).neg).ennreal_ofReal
    calc _ = (∫⁻ Y, g (M Q *ᵥ fermionField Y, Q) ∂fermionDraws κ) * ENNReal.ofReal (Complex.normSq (M Q).det) *
          ENNReal.ofReal (Real.exp (-energy Q)) := by ring
      _ = c * ((∫⁻ φ : κ → ℂ, g (φ, Q) * ENNReal.ofReal (Real.exp (-fermionNormSq ((M Q)⁻¹ *ᵥ φ)))) *
          ENNReal.ofReal (Real.exp (-energy Q))) := by rw [this]; ring
      _ = _ := by
        rw [← lintegral_mul_const _ hpq]
        congr 1
        refine lintegral_congr fun φ => ?_
        rw [hsplit]
        ring
  have hd : Measurable fun p : (κ → ℂ) × LinkSU S N => ENNReal.ofReal (Real.exp (a + ε * fermionNormSq ((M p.2)⁻¹ *ᵥ p.1)) - 1) :=
    ((Real.measurable_exp.comp ((hpf.const_mul ε).const_add a)).sub_const 1).ennreal_ofReal
  have k1 : ∫⁻ Q, pseudofermionMean F l M old new f Q * w Q ∂linkMeasure S haar = _ :=
    key _ (hmcSweep2_param F hFm l old new hEn hnew f hf)
  have k2 := key (fun p => f p.2) (hf.comp measurable_snd)
  have k3 := key _ hd
  simp only [lintegral_const, measure_univ, mul_one] at k2
  simp only [hinv, gaussian_exp_sub_one a ε ha hε0 hε] at k3
  have hwm : Measurable w := ((Real.measurable_exp.comp hE.neg).mul (Complex.continuous_normSq.measurable.comp (measurable_det M hM))).ennreal_ofReal
  rw [lintegral_const_mul _ hwm] at k3
  have hb : b = C * (c * ∫⁻ φ : κ → ℂ, ∫⁻ Q, ENNReal.ofReal (Real.exp (a + ε * fermionNormSq ((M Q)⁻¹ *ᵥ φ)) - 1) * ENNReal.ofReal (Real.exp (-old φ Q))
      ∂linkMeasure S haar) := by rw [← k3]
  have hst : ∀ φ, _ := fun φ => hmc_bias (F φ) (fun i s μ k l => (hFm i s μ k l).comp measurable_prodMk_left) (old φ) (new φ)
    (fun Q => a + ε * fermionNormSq ((M Q)⁻¹ *ᵥ φ)) (hEn.comp measurable_prodMk_left) (hnew.comp measurable_prodMk_left)
    (((hpf.comp measurable_prodMk_left).const_mul ε).const_add a) (hgap φ) haar name forces steps t l hl f hf C hC
  have hdw : Measurable fun φ : κ → ℂ => ∫⁻ Q, ENNReal.ofReal (Real.exp (a + ε * fermionNormSq ((M Q)⁻¹ *ᵥ φ)) - 1) * ENNReal.ofReal (Real.exp (-old φ Q))
      ∂linkMeasure S haar := (hd.mul hw).lintegral_prod_right'
  rw [k1, k2, hb, mul_left_comm C c, ← mul_add, ← mul_add, ← lintegral_const_mul C hdw, ← lintegral_add_right _ (hdw.const_mul C),
    ← lintegral_add_right _ (hdw.const_mul C)]
  exact ⟨mul_le_mul_right (lintegral_mono fun φ => (hst φ).1) c, mul_le_mul_right (lintegral_mono fun φ => (hst φ).2) c⟩

/-- Many sweeps. -/
theorem pseudofermion_sweeps (hFm : ∀ i s μ k l, Measurable fun p : (κ → ℂ) × LinkSU S N => F p.1 i (linkMat p.2) s μ k l)
    (hM : ∀ i j, Measurable fun Q => M Q i j) (hold : Measurable fun p : (κ → ℂ) × LinkSU S N => old p.1 p.2)
    (hnew : Measurable fun p : (κ → ℂ) × LinkSU S N => new p.1 p.2) (μ : Measure (LinkSU S N)) (w : LinkSU S N → ℝ≥0∞) (C b : ℝ≥0∞)
    (h : ∀ f : LinkSU S N → ℝ≥0∞, Measurable f → (∀ Q, f Q ≤ C) →
      ∫⁻ Q, pseudofermionMean F l M old new f Q * w Q ∂μ ≤ ∫⁻ Q, f Q * w Q ∂μ + b ∧
      ∫⁻ Q, f Q * w Q ∂μ ≤ ∫⁻ Q, pseudofermionMean F l M old new f Q * w Q ∂μ + b)
    (f : LinkSU S N → ℝ≥0∞) (hf : Measurable f) (hC : ∀ Q, f Q ≤ C) (m : ℕ) :
    ∫⁻ Q, ((pseudofermionMean F l M old new)^[m] f) Q * w Q ∂μ ≤ ∫⁻ Q, f Q * w Q ∂μ + m * b ∧
    ∫⁻ Q, f Q * w Q ∂μ ≤ ∫⁻ Q, ((pseudofermionMean F l M old new)^[m] f) Q * w Q ∂μ + m * b := by
  induction m generalizing f with
  | zero => simp
  | succ m ih =>
    rw [Function.iterate_succ_apply]
    have h1 := h f hf hC
    have h2 := ih (pseudofermionMean F l M old new f) (measurable_pseudofermionMean F l M old new hFm hM hold hnew f hf)
      (pseudofermionMean_le F l M old new f C hC)
    push_cast
    constructor
    · calc _ ≤ _ := h2.1
        _ ≤ (∫⁻ Q, f Q * w Q ∂μ + b) + m * b := by gcongr; exact h1.1
        _ = _ := by ring
    · calc _ ≤ _ := h1.2
        _ ≤ (∫⁻ Q, ((pseudofermionMean F l M old new)^[m] (pseudofermionMean F l M old new f)) Q * w Q ∂μ + m * b) + b := by
          gcongr; exact h2.2
        _ = _ := by ring

end

end Leonard
