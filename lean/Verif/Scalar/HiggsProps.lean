/-
C58 (hybrid Monte Carlo with scalar fields), and cases that meet the hypotheses of C56 and C57.
-/
import Verif.Hmc.StationaryProps
import Verif.Scalar.ForceProps
import Verif.Scalar.MetropolisProps

set_option autoImplicit false

namespace Leonard

open Matrix MeasureTheory ProbabilityTheory Asymptotics
open scoped ENNReal Topology ContDiff Matrix.Norms.Operator

variable {S : Type} [Fintype S] {N nA nF : ℕ}

/-! ### Steps -/

/-- **C58, numbers of steps.** The updater integrates with two numbers of steps.  They are the numbers of the options if the options have two
numbers; otherwise they are the first two numbers, with one in place of every number that is missing or zero.  It is not defined exactly for
an unknown integrator, or two numbers one of which is zero. -/
theorem C58_steps (integrator : String) (steps : List ℕ) (t : ℝ) :
    (higgsSteps steps).length = 2 ∧
    (∀ a b, steps = [a, b] → higgsSteps steps = [a, b]) ∧
    (steps.length ≠ 2 → higgsSteps steps = [max 1 (steps.getD 0 0), max 1 (steps.getD 1 0)]) ∧
    ((∃ l, mdIntegrate integrator [HiggsForce.scalar, HiggsForce.gauge] (higgsSteps steps) t = .ok l) ↔
      integrator ∈ ["second_order", "fourth_order", "sixth_order", "omelyan", "fourth_omelyan"] ∧ ¬(steps.length = 2 ∧ 0 ∈ steps)) := by
  have h2 : ∀ n : ℕ, (if n = 0 then 1 else n) = max 1 n := by intro n; split <;> omega
  have hl : (higgsSteps steps).length = 2 := by
    unfold higgsSteps
    split
    · rfl
    · rename_i h; exact not_not.1 h
  have h3 : steps.length ≠ 2 → higgsSteps steps = [max 1 (steps.getD 0 0), max 1 (steps.getD 1 0)] := by
    intro h
    unfold higgsSteps
    rw [if_pos h, h2, h2]
  refine ⟨hl, ?_, h3, ?_⟩
  · rintro a b rfl
    rfl
  · rw [C43_defined]
    have htake : (higgsSteps steps).take [HiggsForce.scalar, HiggsForce.gauge].length = higgsSteps steps := List.take_of_length_le (by rw [hl]; rfl)
    rw [htake, hl]
    refine and_congr_right fun _ => ?_
    by_cases h : steps.length = 2
    · have e : higgsSteps steps = steps := by unfold higgsSteps; rw [if_neg (not_not.2 h)]
      rw [e]
      constructor
      · rintro ⟨_, _, h4⟩ ⟨_, h5⟩; exact h4 0 h5 rfl
      · intro h4
        exact ⟨by simp, by simp, fun n hn h0 => h4 ⟨h, h0 ▸ hn⟩⟩
    · rw [h3 h]
      constructor
      · rintro _ ⟨h5, _⟩; exact h h5
      · intro _
        refine ⟨by simp, by simp, fun n hn => ?_⟩
        simp only [List.mem_cons, List.not_mem_nil, or_false] at hn
        omega

/-- **C58, options.** The program ends with exit code 97 exactly when a number of fields in the options is not the number of fields of the
environment, provided that the integration is defined. -/
theorem C58_fields (E : ℝ → Mat N → Mat N → Mat N) (optA optF : ℕ) (c : ScalarCouplings) (T : Torus S) (gaugeEnergy : GField S N → ℝ)
    (gaugeForce : GField S N → GField S N) (integrator : String) (steps : List ℕ) (t : ℝ) (Φ : Scalars S N nA nF) (P U : GField S N) (u : ℝ)
    (hd : ∃ l, mdIntegrate integrator [HiggsForce.scalar, HiggsForce.gauge] (higgsSteps steps) t = .ok l) :
    (optA = nA ∧ optF = nF → ∃ V, higgsGaugeExecute E optA optF c T gaugeEnergy gaugeForce integrator steps t Φ P U u = .ok V) ∧
      (¬(optA = nA ∧ optF = nF) → higgsGaugeExecute E optA optF c T gaugeEnergy gaugeForce integrator steps t Φ P U u = .exit 97) := by
  obtain ⟨l, hl⟩ := hd
  unfold higgsGaugeExecute
  constructor
  · rintro ⟨h1, h2⟩
    rw [if_neg (not_not.2 h1), if_neg (not_not.2 h2), hl, ok_bind]
    exact ⟨_, rfl⟩
  · intro h
    by_cases h1 : optA = nA
    · rw [if_neg (not_not.2 h1), if_pos fun h2 => h ⟨h1, h2⟩]
    · rw [if_pos h1]

/-! ### Stationarity -/

/-- The gauge actions of the program and their forces. -/
def IsGaugeAction (T : Torus S) (β : ℝ) (energy : GField S N → ℝ) (force : GField S N → GField S N) : Prop :=
  (energy = wilsonEnergy β T ∧ force = fun U s μ => gaugeForce β U (wilsonStaple T U s μ) s μ) ∨
    ∃ u0, energy = improvedEnergy u0 β T ∧ force = fun U s μ => gaugeForce β U (improvedStaple u0 T U s μ) s μ

theorem gaugeAction_isGrad (hN : 0 < N) {T : Torus S} {β : ℝ} {energy : GField S N → ℝ} {force : GField S N → GField S N}
    (h : IsGaugeAction T β energy force) : IsGrad Set.univ energy force := by
  rcases h with ⟨rfl, rfl⟩ | ⟨u0, rfl, rfl⟩
  · exact (conservative_wilson hN β T).isGrad
  · exact (conservative_improved hN u0 β T).isGrad

theorem gaugeAction_measurable (hN : 0 < N) {T : Torus S} {β : ℝ} {energy : GField S N → ℝ} {force : GField S N → GField S N}
    (h : IsGaugeAction T β energy force) : (Measurable fun Q : LinkSU S N => energy (linkMat Q)) ∧ MeasurableForce force ∧
      ∀ (Q : LinkSU S N) s μ, IsLie (force (linkMat Q) s μ) := by
  rcases h with ⟨rfl, rfl⟩ | ⟨u0, rfl, rfl⟩
  · exact ⟨measurable_of_continuous_link _ (continuous_wilsonEnergy β T),
      measurableForce_of_continuous _ fun s μ => continuous_gaugeForce β _ (continuous_wilsonStaple T s μ) s μ, fun Q s μ => C21_lie_algebra hN β _ _ s μ⟩
  · exact ⟨measurable_of_continuous_link _ (continuous_improvedEnergy u0 β T),
      measurableForce_of_continuous _ fun s μ => continuous_gaugeForce β _ (continuous_improvedStaple u0 T s μ) s μ,
      fun Q s μ => C21_lie_algebra hN β _ _ s μ⟩

/-- **C58, stationarity.** One sweep of the hybrid Monte Carlo updater with scalar fields leaves, for every configuration of the scalar fields, the
distribution of the links with density `exp(-(gauge energy + energy of the scalar fields))` invariant.  For both gauge actions, all couplings,
numbers of fields and lattices, every integrator, length and numbers of steps for which the integration is defined. -/
theorem C58_stationary (eig : EigenSolver N) (he : eig.Correct) (hN : 0 < N) (T : Torus S) (β : ℝ) (c : ScalarCouplings)
    (gaugeEnergy : GField S N → ℝ) (gaugeForce : GField S N → GField S N) (hG : IsGaugeAction T β gaugeEnergy gaugeForce)
    (integrator : String) (steps : List ℕ) (t : ℝ) (hi : integrator ∈ ["second_order", "fourth_order", "sixth_order", "omelyan", "fourth_omelyan"])
    (hsteps : ¬(steps.length = 2 ∧ 0 ∈ steps)) (Φ : Scalars S N nA nF) :
    ∃ sweep : LinkSU S N → Draws S N → ℝ → LinkSU S N,
      (∀ Q X u, higgsGaugeExecute (eigenLink eig) nA nF c T gaugeEnergy gaugeForce integrator steps t Φ (momMat X) (linkMat Q) u
        = .ok (linkMat (sweep Q X u))) ∧
      ∀ f : LinkSU S N → ℝ≥0∞, Measurable f →
        ∫⁻ Q, (∫⁻ X, (∫⁻ u in Set.Ico (0 : ℝ) 1, f (sweep Q X u)) ∂gaussianDraws S N)
            * ENNReal.ofReal (Real.exp (-(gaugeEnergy (linkMat Q) + scalarEnergy c T (linkMat Q) Φ))) ∂linkMeasure S Measure.haar =
          ∫⁻ Q, f Q * ENNReal.ofReal (Real.exp (-(gaugeEnergy (linkMat Q) + scalarEnergy c T (linkMat Q) Φ))) ∂linkMeasure S Measure.haar := by
  obtain ⟨l, hl⟩ := (C58_steps integrator steps t).2.2.2.2 ⟨hi, hsteps⟩
  obtain ⟨gE, gF, gL⟩ := gaugeAction_measurable hN hG
  have hS := C56_force c T Φ
  have sE : Continuous fun U : GField S N => scalarEnergy c T U Φ := (contDiffOn_univ.1 hS.smooth_energy).continuous
  have sF : ∀ s μ, Continuous fun U : GField S N => scalarUpdateForce T Φ U s μ := fun s μ =>
    (continuous_link s μ).comp (contDiffOn_univ.1 hS.smooth_force).continuous
  let F : HiggsForce → GField S N → GField S N := higgsForce T Φ gaugeForce
  have hF : ∀ i, MeasurableForce (F i) := by
    intro i
    cases i with
    | scalar => exact measurableForce_of_continuous _ sF
    | gauge => exact gF
  have hL : ∀ i (Q : LinkSU S N) s μ, IsLie (F i (linkMat Q) s μ) := by
    intro i Q s μ
    cases i with
    | scalar => exact hS.lie _ s μ
    | gauge => exact gL Q s μ
  have hE : Measurable fun Q : LinkSU S N => gaugeEnergy (linkMat Q) + scalarEnergy c T (linkMat Q) Φ :=
    gE.add (measurable_of_continuous_link _ sE)
  have hrun : ∀ z, phaseMat (phaseRun F l z) = mdRun (eigenLink eig) F l (phaseMat z) := phaseRun_mat eig he F hL l
  refine ⟨hmcSweep F l fun Q => gaugeEnergy (linkMat Q) + scalarEnergy c T (linkMat Q) Φ, ?_, ?_⟩
  · intro Q X u
    unfold higgsGaugeExecute
    rw [if_neg (not_not.2 rfl), if_neg (not_not.2 rfl), hl, ok_bind]
    have h1 := hrun (Q, X)
    change _ = mdRun (eigenLink eig) (higgsForce T Φ gaugeForce) l (linkMat Q, momMat X) at h1
    simp only [← h1]
    refine congrArg Outcome.ok ?_
    unfold hmcSweep hmcEnergy
    rw [apply_ite linkMat]
    simp only [add_assoc]
    rfl
  · intro f hf
    exact hmc_stationary F hF _ hE Measure.haar integrator _ _ t l hl f hf

/-! ### The order of the integrator -/

/-- **C58, energy conservation.** The forces of the updater are those of the energy of its accept/reject step: the energy that an integrator of
order `p` adds to a trajectory of length `t` is of the order `t ^ (p + 1)`, for both gauge actions.  Missing: the integrator `fourth_omelyan` (`C52_fourth_omelyan_counterexample`). -/
theorem C58_order_partial (eig : EigenSolver N) (he : eig.Correct) (hN : 0 < N) (T : Torus S) (β : ℝ) (c : ScalarCouplings)
    (gaugeEnergy : GField S N → ℝ) (gaugeForce : GField S N → GField S N) (hG : IsGaugeAction T β gaugeEnergy gaugeForce) (name : String) (p : ℕ)
    (hname : integratorOrder name = some p) (h4 : name ≠ "fourth_omelyan") (steps : List ℕ) (l : ℝ → List (MdOp HiggsForce))
    (hl : ∀ t, mdIntegrate name [HiggsForce.scalar, HiggsForce.gauge] (higgsSteps steps) t = .ok (l t)) (Φ : Scalars S N nA nF) (U P : GField S N)
    (hP : ∀ s μ, IsLie (P s μ)) :
    (fun t : ℝ => totalEnergy (fun U => gaugeEnergy U + scalarEnergy c T U Φ) (mdRun (eigenLink eig) (higgsForce T Φ gaugeForce) (l t) (U, P))
      - totalEnergy (fun U => gaugeEnergy U + scalarEnergy c T U Φ) (U, P)) =O[𝓝 0] fun t => t ^ (p + 1) := by
  have hg := gaugeAction_isGrad hN hG
  have hs := C56_force c T Φ
  have h := hg.add hs
  rw [Set.univ_inter] at h
  have hc : Conservative Set.univ (fun U => gaugeEnergy U + scalarEnergy c T U Φ) (higgsForce T Φ gaugeForce) [HiggsForce.scalar, HiggsForce.gauge] := by
    refine h.conservative _ (fun i => ?_) (fun i U s μ => ?_) (fun U s μ => ?_)
    · cases i with
      | scalar => exact hs.smooth_force
      | gauge => exact hg.smooth_force
    · cases i with
      | scalar => exact hs.lie U s μ
      | gauge => exact hg.lie U s μ
    · change scalarUpdateForce T Φ U s μ + (gaugeForce U s μ + 0) = gaugeForce U s μ + scalarUpdateForce T Φ U s μ
      rw [add_zero, add_comm]
  exact C52_energy_partial eig he Set.univ _ _ _ hc name p hname h4 _ l hl U P (Set.mem_univ _) hP

/-! ### Cases that meet the hypotheses -/

/-- C56 and C57: no site of the `3 x 3 x 4 x 5` lattice is its own neighbour, and the sites are visited once. -/
example : (∀ μ s, (boxTorus exExt3 exExt3_pos).sup μ s ≠ s) ∧ ∃ sites : List (BoxSite exExt3), sites.Nodup ∧ ∀ s, s ∈ sites :=
  ⟨fun μ s => (boxTorus exExt3 exExt3_pos).sup_ne le_rfl (by intro ν; fin_cases ν <;> decide) μ s, Finset.univ.toList, Finset.nodup_toList _,
    fun s => Finset.mem_toList.2 (Finset.mem_univ s)⟩

/-- C57, order: a lattice with even extensions. -/
example : ∀ μ, Even ((boxTorus ⟨4, 4, 4, 6⟩ (by decide)).ext μ) := by
  intro μ; fin_cases μ <;> decide

/-- C56, the mass: couplings with self interaction, for which the energy is bounded below, and couplings without. -/
example : (0 : ℝ) < (⟨1, 1, 1, 1, 0, 0⟩ : ScalarCouplings).lambdaFundamental ∧ noCouplings.lambdaFundamental = 0 ∧ noCouplings.massFundamental < 8 := by
  norm_num [noCouplings]

/-- C58 on the `3 x 3 x 4 x 5` lattice with three colours, two adjoint fields and one fundamental field, with the steps of the options left out. -/
example (Φ : Scalars _ 3 2 1) : ∃ eig : EigenSolver 3, eig.Correct ∧ ∃ sweep : LinkSU _ 3 → Draws _ 3 → ℝ → LinkSU _ 3, ∀ Q X u,
    higgsGaugeExecute (eigenLink eig) 2 1 ⟨1, 1, 1, 1, 0, 0⟩ (boxTorus exExt3 exExt3_pos) (wilsonEnergy 6 (boxTorus exExt3 exExt3_pos))
      (fun U s μ => gaugeForce 6 U (wilsonStaple (boxTorus exExt3 exExt3_pos) U s μ) s μ) "omelyan" [10] 1 Φ (momMat X) (linkMat Q) u
      = .ok (linkMat (sweep Q X u)) := by
  obtain ⟨eig, he⟩ := exists_correct_eigenSolver (N := 3)
  obtain ⟨sweep, h, -⟩ := C58_stationary eig he (by norm_num) (boxTorus exExt3 exExt3_pos) 6 ⟨1, 1, 1, 1, 0, 0⟩ _ _ (Or.inl ⟨rfl, rfl⟩) "omelyan" [10] 1
    (by simp) (by simp) Φ
  exact ⟨eig, he, sweep, h⟩

/-- C58, order: the hypotheses hold for the steps 5 and 10. -/
example : ∃ l : ℝ → List (MdOp HiggsForce), ∀ t, mdIntegrate "omelyan" [HiggsForce.scalar, HiggsForce.gauge] (higgsSteps [5, 10]) t = .ok (l t) :=
  ⟨fun t => ((C58_steps "omelyan" [5, 10] t).2.2.2.2 ⟨by simp, by simp⟩).choose,
    fun t => ((C58_steps "omelyan" [5, 10] t).2.2.2.2 ⟨by simp, by simp⟩).choose_spec⟩

end Leonard
