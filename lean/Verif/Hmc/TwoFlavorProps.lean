/-
C51: the two-flavour hybrid Monte Carlo update samples the gauge action times the squared fermion determinant.
-/
import Verif.Hmc.TwoFlavorLemmas
import Verif.Hmc.StationaryProps

set_option autoImplicit false

namespace Leonard

open Matrix MeasureTheory ProbabilityTheory
open scoped ENNReal

variable {N : ℕ} {S κ : Type} [Fintype S] [Fintype κ] [DecidableEq κ]

theorem measurable_det {Ω : Type} [MeasurableSpace Ω] (M : Ω → Matrix κ κ ℂ) (hM : ∀ i j, Measurable fun ω => M ω i j) :
    Measurable fun ω => (M ω).det := by
  simp_rw [Matrix.det_apply]
  refine Finset.measurable_fun_sum _ fun σ _ => ?_
  exact (Finset.measurable_fun_prod _ fun i _ => hM (σ i) i).const_smul (Equiv.Perm.sign σ)

theorem measurable_inv {Ω : Type} [MeasurableSpace Ω] (M : Ω → Matrix κ κ ℂ) (hM : ∀ i j, Measurable fun ω => M ω i j) (i j : κ) :
    Measurable fun ω => (M ω)⁻¹ i j := by
  simp_rw [Matrix.inv_def, Ring.inverse_eq_inv', Matrix.smul_apply, Matrix.adjugate_apply, smul_eq_mul]
  refine (measurable_det M hM).inv.mul (measurable_det _ fun k l => ?_)
  simp_rw [Matrix.updateRow_apply]
  split
  · exact measurable_const
  · exact hM k l

/-- **C51.** One sweep of the two-flavour algorithm: standard normal numbers `X` give the momenta, a Gaussian field `η` with variance one half
for real and imaginary parts gives the pseudofermions, links and momenta are integrated, and `u` uniform in `[0,1)` decides.  The
distribution of the links with density `exp(-energy) |det D|²` is stationary: expectation values of all functions agree before and after
the sweep.  For every integrator, every list of step numbers and every length for which it is defined, every gauge energy and
measurable forces with values in the Lie algebra; the Dirac operator is linear and invertible, and the solver is exact. -/
theorem C51_two_flavor_partial (eig : EigenSolver N) (he : eig.Correct) (D solve : GField S N → (κ → ℂ) → κ → ℂ) (M : LinkSU S N → Matrix κ κ ℂ)
    (hD : ∀ Q v, D (linkMat Q) v = M Q *ᵥ v) (hM : ∀ i j, Measurable fun Q => M Q i j) (hdet : ∀ Q, (M Q).det ≠ 0)
    (hsolve : ∀ Q v, D (linkMat Q) (solve (linkMat Q) v) = v)
    (energy : GField S N → ℝ) (hE : Measurable fun Q : LinkSU S N => energy (linkMat Q))
    (fermionForce : (κ → ℂ) → GField S N → GField S N) (gaugeForce : GField S N → GField S N)
    (hLf : ∀ φ (Q : LinkSU S N) s μ, IsLie (fermionForce φ (linkMat Q) s μ)) (hLg : ∀ (Q : LinkSU S N) s μ, IsLie (gaugeForce (linkMat Q) s μ))
    (hFf : ∀ s μ k l, Measurable fun p : (κ → ℂ) × LinkSU S N => fermionForce p.1 (linkMat p.2) s μ k l) (hFg : MeasurableForce gaugeForce)
    (haar : Measure (SU N)) [IsFiniteMeasure haar] [haar.IsMulLeftInvariant] (integrator : String) (steps : List ℕ) (t : ℝ)
    (hd : ∃ l, mdIntegrate integrator (twoFlavorForces steps).1 (twoFlavorForces steps).2 t = .ok l) :
    ∃ sweep : LinkSU S N → (κ → ℝ × ℝ) → Draws S N → ℝ → LinkSU S N,
      (∀ Q Y X u, twoFlavorExecute (eigenLink eig) D solve energy fermionForce gaugeForce integrator steps t (momMat X) (fermionField Y)
        (linkMat Q) u = .ok (linkMat (sweep Q Y X u))) ∧
      ∀ f : LinkSU S N → ℝ≥0∞, Measurable f →
        ∫⁻ Q, (∫⁻ Y, (∫⁻ X, (∫⁻ u in Set.Ico (0 : ℝ) 1, f (sweep Q Y X u)) ∂gaussianDraws S N) ∂fermionDraws κ) *
            ENNReal.ofReal (Real.exp (-energy (linkMat Q)) * Complex.normSq (M Q).det) ∂linkMeasure S haar =
          ∫⁻ Q, f Q * ENNReal.ofReal (Real.exp (-energy (linkMat Q)) * Complex.normSq (M Q).det) ∂linkMeasure S haar := by
  obtain ⟨l, hl⟩ := hd
  let F : (κ → ℂ) → TwoFlavorForce → GField S N → GField S N := fun φ => twoFlavorForce fermionForce gaugeForce φ
  have hFL : ∀ φ i (Q : LinkSU S N) s μ, IsLie (F φ i (linkMat Q) s μ) := by
    intro φ i Q s μ
    cases i with
    | action => exact isLie_add (hLf φ Q s μ) (hLg Q s μ)
    | fermion => exact hLf φ Q s μ
    | gauge => exact hLg Q s μ
  have hFm : ∀ i s μ k l, Measurable fun p : (κ → ℂ) × LinkSU S N => F p.1 i (linkMat p.2) s μ k l := by
    intro i s μ k l
    cases i with
    | action => exact (hFf s μ k l).add ((hFg s μ k l).comp measurable_snd)
    | fermion => exact hFf s μ k l
    | gauge => exact (hFg s μ k l).comp measurable_snd
  let En : (κ → ℂ) → LinkSU S N → ℝ := fun φ Q => energy (linkMat Q) + fermionNormSq ((M Q)⁻¹ *ᵥ φ)
  have hpf : Measurable fun p : (κ → ℂ) × LinkSU S N => fermionNormSq ((M p.2)⁻¹ *ᵥ p.1) := by
    refine fermionNormSq_measurable.comp (measurable_pi_lambda _ fun i => ?_)
    simp only [Matrix.mulVec, dotProduct]
    exact Finset.measurable_fun_sum _ fun j _ => ((measurable_inv M hM i j).comp measurable_snd).mul ((measurable_pi_apply j).comp measurable_fst)
  have hEn : Measurable fun p : (κ → ℂ) × LinkSU S N => En p.1 p.2 := (hE.comp measurable_snd).add hpf
  have hinv : ∀ Q v, (M Q)⁻¹ *ᵥ (M Q *ᵥ v) = v := fun Q v => by
    rw [Matrix.mulVec_mulVec, Matrix.nonsing_inv_mul _ (Ne.isUnit (hdet Q)), Matrix.one_mulVec]
  have hsol : ∀ Q v, solve (linkMat Q) v = (M Q)⁻¹ *ᵥ v := fun Q v => by
    have := hsolve Q v
    rw [hD] at this
    rw [← hinv Q (solve (linkMat Q) v), this]
  refine ⟨fun Q Y X u => hmcSweep (F (M Q *ᵥ fermionField Y)) l (En (M Q *ᵥ fermionField Y)) Q X u, ?_, ?_⟩
  · intro Q Y X u
    unfold twoFlavorExecute
    rw [hl, ok_bind]
    simp only [hD]
    have h1 := phaseRun_mat eig he (F (M Q *ᵥ fermionField Y)) (hFL _) l (Q, X)
    change _ = mdRun (eigenLink eig) (twoFlavorForce fermionForce gaugeForce (M Q *ᵥ fermionField Y)) l (linkMat Q, momMat X) at h1
    simp only [← h1]
    refine congrArg Outcome.ok ?_
    unfold hmcSweep
    rw [apply_ite linkMat]
    have e1 : hmcEnergy (En (M Q *ᵥ fermionField Y)) (Q, X) = momentaEnergy (momMat X) + energy (linkMat Q) + fermionNormSq (fermionField Y) := by
      unfold hmcEnergy
      simp only [En, hinv]
      ring
    rw [e1]
    have e2 : ∀ z : LinkSU S N × Draws S N, hmcEnergy (En (M Q *ᵥ fermionField Y)) z =
        momentaEnergy (phaseMat z).2 + energy (phaseMat z).1 + fermionNormSq (solve (phaseMat z).1 (M Q *ᵥ fermionField Y)) := by
      intro z
      unfold hmcEnergy phaseMat
      simp only [En, hsol]
      ring
    rw [e2]
    rfl
  · intro f hf
    obtain ⟨c, hc⟩ := pseudofermion_integral (κ := κ)
    let G : (κ → ℂ) × LinkSU S N → ℝ≥0∞ := fun p =>
      ∫⁻ X, (∫⁻ u in Set.Ico (0 : ℝ) 1, f (hmcSweep (F p.1) l (En p.1) p.2 X u)) ∂gaussianDraws S N
    have hG : Measurable G := hmcSweep_param F hFm l En hEn f hf
    have hw : Measurable fun p : (κ → ℂ) × LinkSU S N => ENNReal.ofReal (Real.exp (-En p.1 p.2)) := (Real.measurable_exp.comp hEn.neg).ennreal_ofReal
    have hsplit : ∀ φ Q, ENNReal.ofReal (Real.exp (-En φ Q)) =
        ENNReal.ofReal (Real.exp (-fermionNormSq ((M Q)⁻¹ *ᵥ φ))) * ENNReal.ofReal (Real.exp (-energy (linkMat Q))) := by
      intro φ Q
      rw [← ENNReal.ofReal_mul (Real.exp_pos _).le, ← Real.exp_add]
      congr 2
      simp only [En]
      ring
    -- the average over the Gaussian field is an integral over the pseudofermions
    have key : ∀ g : (κ → ℂ) × LinkSU S N → ℝ≥0∞, Measurable g →
        ∫⁻ Q, (∫⁻ Y, g (M Q *ᵥ fermionField Y, Q) ∂fermionDraws κ) *
          ENNReal.ofReal (Real.exp (-energy (linkMat Q)) * Complex.normSq (M Q).det) ∂linkMeasure S haar =
        c * ∫⁻ φ : κ → ℂ, ∫⁻ Q, g (φ, Q) * ENNReal.ofReal (Real.exp (-En φ Q)) ∂linkMeasure S haar := by
      intro g hg
      have hgw : Measurable fun p : (κ → ℂ) × LinkSU S N => g p * ENNReal.ofReal (Real.exp (-En p.1 p.2)) := hg.mul hw
      rw [lintegral_lintegral_swap (f := fun φ Q => g (φ, Q) * ENNReal.ofReal (Real.exp (-En φ Q))) hgw.aemeasurable]
      have hgs : Measurable fun Q : LinkSU S N => ∫⁻ φ : κ → ℂ, g (φ, Q) * ENNReal.ofReal (Real.exp (-En φ Q)) :=
        (hgw.comp measurable_swap).lintegral_prod_right'
      rw [← lintegral_const_mul c hgs]
      refine lintegral_congr fun Q => ?_
      have hgQ : Measurable fun φ => g (φ, Q) := hg.comp measurable_prodMk_right
      rw [ENNReal.ofReal_mul (Real.exp_pos _).le]
      have := hc (M Q) (hdet Q) (fun φ => g (φ, Q)) hgQ
      have hpq : Measurable fun φ : κ → ℂ => g (φ, Q) * ENNReal.ofReal (Real.exp (-fermionNormSq ((M Q)⁻¹ *ᵥ φ))) :=
        hgQ.mul (Real.measurable_exp.comp (hpf.comp measurable_prodMk_right).neg).ennreal_ofReal
      calc _ = (∫⁻ Y, g (M Q *ᵥ fermionField Y, Q) ∂fermionDraws κ) * ENNReal.ofReal (Complex.normSq (M Q).det) *
            ENNReal.ofReal (Real.exp (-energy (linkMat Q))) := by ring
        _ = c * ((∫⁻ φ : κ → ℂ, g (φ, Q) * ENNReal.ofReal (Real.exp (-fermionNormSq ((M Q)⁻¹ *ᵥ φ)))) *
            ENNReal.ofReal (Real.exp (-energy (linkMat Q)))) := by rw [this]; ring
        _ = _ := by
          rw [← lintegral_mul_const _ hpq]
          congr 1
          refine lintegral_congr fun φ => ?_
          rw [hsplit]
          ring
    have k1 := key G hG
    have k2 := key (fun p => f p.2) (hf.comp measurable_snd)
    simp only [lintegral_const, measure_univ, mul_one] at k2
    rw [k2]
    refine k1.trans ?_
    congr 1
    refine lintegral_congr fun φ => ?_
    exact hmc_stationary (F φ) (fun i s μ k l => (hFm i s μ k l).comp measurable_prodMk_left) (En φ) (hEn.comp measurable_prodMk_left) haar
      integrator _ _ t l hl f hf

/-- The hypotheses hold for an operator that depends on the links, with its exact inverse, together with the Wilson action in two time scales. -/
example (eig : EigenSolver N) (he : eig.Correct) (hN : 0 < N) (T : Torus S) (x : S) (β : ℝ) :
    ∃ sweep : LinkSU S N → (Fin N → ℝ × ℝ) → Draws S N → ℝ → LinkSU S N, ∀ Q Y X u, twoFlavorExecute (eigenLink eig) (fun U (v : Fin N → ℂ) => ((1 / 2 : ℂ) • U x 0) *ᵥ v) (fun U v => ((2 : ℂ) • (U x 0)ᴴ) *ᵥ v)
      (wilsonEnergy β T) (fun _ _ _ _ => 0) (fun U s μ => gaugeForce β U (wilsonStaple T U s μ) s μ) "second_order" [5, 3] 1 (momMat X) (fermionField Y)
      (linkMat Q) u = .ok (linkMat (sweep Q Y X u)) := by
  obtain ⟨sweep, h, -⟩ := C51_two_flavor_partial eig he (fun U (v : Fin N → ℂ) => ((1 / 2 : ℂ) • U x 0) *ᵥ v) (fun U v => ((2 : ℂ) • (U x 0)ᴴ) *ᵥ v)
    (fun Q => (1 / 2 : ℂ) • linkMat Q x 0) (fun _ _ => rfl)
    (fun i j => ((((continuous_link x 0).comp continuous_linkMat).const_smul (1 / 2 : ℂ)).matrix_elem i j).measurable)
    (fun Q => by
      rw [det_smul, show (linkMat Q x 0).det = 1 from (mem_specialUnitaryGroup_iff.1 (Q x 0).2).2]
      simp)
    (fun Q v => by
      have : linkMat Q x 0 * (linkMat Q x 0)ᴴ = 1 := mem_unitaryGroup_iff.1 (mem_specialUnitaryGroup_iff.1 (Q x 0).2).1
      rw [mulVec_mulVec, smul_mul_smul_comm, this]
      simp)
    (wilsonEnergy β T) (measurable_of_continuous_link _ (continuous_wilsonEnergy β T)) (fun _ _ _ _ => 0)
    (fun U s μ => gaugeForce β U (wilsonStaple T U s μ) s μ) (fun _ _ _ _ => ⟨by simp, by simp⟩) (fun Q s μ => C21_lie_algebra hN β _ _ s μ)
    (fun _ _ _ _ => measurable_const) (measurableForce_of_continuous _ fun s μ => continuous_gaugeForce β _ (continuous_wilsonStaple T s μ) s μ)
    Measure.haar "second_order" [5, 3] 1 ((C43_defined _ _ _ _).mpr (by simp [twoFlavorForces]))
  exact ⟨sweep, h⟩

end Leonard
